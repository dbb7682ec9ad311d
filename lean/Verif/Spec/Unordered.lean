import Verif.Spec.ServerLife
/-! Independent specification for samples that come in any order and more than once. -/
namespace Verif

/-- What the search of the standard library does on every slice, sorted or not: it sees the elements only through comparisons with the
key; and its answers do not cross: if the first element is not above `b`, then the search for `b` ends (with `Ok(r - 1)` or `Err(r)`) at
or after the place where the search for a key `a ≤ b` ends. -/
structure Careful (B : BinSearch) : Prop where
  compares : ∀ l x l' x', l.map (fun y : U64 => compare y.toNat x.toNat) = l'.map (fun y : U64 => compare y.toNat x'.toNat) → B.run l x = B.run l' x'
  safe : ∀ l a b f, l.head? = some f → f.toNat ≤ b.toNat → a.toNat ≤ b.toNat →
    ∃ r, r < l.length ∧ (B.run l a).2 ≤ r + 1 ∧ (B.run l b = (true, r) ∨ B.run l b = (false, r + 1))

/-- The assumptions of C75 on a happening (`Proper`) without the one on the order of samples. -/
def ProperAny (H : Hash) (rt : PbRt) (size : U64) (s : Site) : Happening → Prop
  | .call (.read qs) => s.up = true → qs ≠ [] ∧ ∀ q ∈ qs, (∀ x ∈ q.matchers, WFLabel ⟨x.name, x.value⟩) ∧
      (asU64 q.start_).toNat ≤ (asU64 q.end_).toNat ∧ H.Good fun ls => ∃ c ∈ s.g.all, ∃ w ∈ c.h, sortLabels w.1 = ls
  | e => Proper H rt size s e

/-- The same for a history. -/
def ProperAnyAll (H : Hash) (rt : PbRt) (size : U64) : Site → List Happening → Prop
  | _, [] => True
  | s, e :: es => ProperAny H rt size s e ∧ ProperAnyAll H rt size (s.next size e) es

/-- All samples accepted for a label set (in any order of labels), in the order of arrival. -/
def arrived (s : Site) (ls : Labels) : List TimePoint := s.g.all.flatMap fun c => pointsFor c.h ls

end Verif
