import Verif.Spec.ServerLife
/-! Independent specification for labels of any content. -/
namespace Verif

/-- A list of labels written out: `name=value` pieces with commas between. -/
def spelled (ls : Labels) : Str := List.intercalate [44#8] (ls.map fun l => l.key ++ [61#8] ++ l.value)

/-- Strings can be cut and joined at a comma or an equals sign: true of UTF-8, where both are single bytes that are no part of anything else. -/
def CutsAtAscii (utf8 : Str → Bool) : Prop :=
  ∀ s t, (utf8 (s ++ 44#8 :: t) = true ↔ utf8 s = true ∧ utf8 t = true) ∧ (utf8 (s ++ 61#8 :: t) = true ↔ utf8 s = true ∧ utf8 t = true)

/-- Assumptions on a happening: no label name begins with `R`; reads have at least one query and no inverted range; directories are listed in
some order. Nothing is assumed about label values, the rest of label names, the order of samples, or the clock. -/
def Lax (rt : PbRt) : Happening → Prop
  | .call (.write m) => ∀ ser ∈ m, ∀ l ∈ ser.labels, l.key.head? ≠ some 82#8
  | .call (.read qs) => qs ≠ [] ∧ ∀ q ∈ qs, (asU64 q.start_).toNat ≤ (asU64 q.end_).toNat
  | .call .badRead => rt.Strict
  | .restart order _ _ => ∀ l, (order l).Perm l
  | _ => True

/-- The sample was sent in one of these happenings, with labels that spell `v`. -/
def sentAs (hs : List Happening) (v : Str) (p : TimePoint) : Prop :=
  ∃ m ser x, .call (.write m) ∈ hs ∧ ser ∈ m ∧ x ∈ ser.samples ∧ spelled (sortLabels ser.labels) = v ∧ p = x.point

end Verif
