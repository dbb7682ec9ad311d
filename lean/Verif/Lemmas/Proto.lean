import Verif.Model.Proto
import Verif.Spec.Proto
import Verif.Lemmas.Num
import Mathlib.Tactic.NormNum
import Mathlib.Tactic.SplitIfs
/-! Lemmas on protobuf parsing. -/
namespace Verif

/-! ### Primitives -/

theorem VarintOf.ne_nil {v : Nat} {s : Str} (h : VarintOf v s) : s ≠ [] := by cases h <;> simp

theorem readVarintFrom_of {v : Nat} {s : Str} (h : VarintOf v s) : ∀ (i : Nat) (rest : Str), i + s.length ≤ 10 → readVarintFrom i (s ++ rest) = some (v, rest) := by
  induction h with
  | last b hb =>
    intro i rest hi
    simp only [List.length_singleton] at hi
    simp [readVarintFrom, hb, show ¬10 ≤ i by omega]
  | more b v s hb hs ih =>
    intro i rest hi
    simp only [List.length_cons] at hi
    simp [readVarintFrom, show ¬b.toNat < 128 by omega, ih (i + 1) rest (by omega), show ¬10 ≤ i by omega]

theorem readVarint_of {v : Nat} {s : Str} (h : IsVarint v s) (rest : Str) : readVarint (s ++ rest) = some (v, rest) := by
  obtain ⟨w, h1, h2, rfl⟩ := h
  unfold readVarint
  rw [readVarintFrom_of h1 0 rest (by omega)]

theorem IsVarint.ne_nil {v : Nat} {s : Str} (h : IsVarint v s) : s ≠ [] := by obtain ⟨w, h1, -⟩ := h; exact h1.ne_nil
theorem IsVarint.lt {v : Nat} {s : Str} (h : IsVarint v s) : v < 2 ^ 64 := by obtain ⟨w, -, -, rfl⟩ := h; exact Nat.mod_lt _ (by decide)

theorem readVarint32_of {v : Nat} {s : Str} (h : IsVarint v s) (rest : Str) : readVarint32 (s ++ rest) = some (v % 2 ^ 32, rest) := by
  unfold readVarint32
  rw [readVarint_of h]

theorem readTag_of {num wt : Nat} {k : Str} (h : IsKey num wt k) (hw : wt ≤ 5) (rest : Str) : readTag (k ++ rest) = some (num, wt, rest) := by
  unfold readTag
  obtain ⟨v, h0, hv, hw', hnum⟩ := h
  rw [readVarint32_of h0, hv]
  have h1 : (8 * num + wt) % 8 = wt := by omega
  have h2 : (8 * num + wt) / 8 = num := by omega
  simp only [h1, h2]
  rw [if_pos ⟨hw, by omega⟩]

theorem IsKey.ne_nil {num wt : Nat} {k : Str} (h : IsKey num wt k) : k ≠ [] := by obtain ⟨v, h0, -⟩ := h; exact h0.ne_nil

theorem readRaw_append (p rest : Str) : readRaw p.length (p ++ rest) = some (p, rest) := by simp [readRaw]

theorem readBytes_of {d p : Str} (h : IsDelimited d p) (rest : Str) : readBytes (p ++ rest) = some (d, rest) := by
  obtain ⟨v, n, hn, hl, rfl⟩ := h
  unfold readBytes
  rw [List.append_assoc, readVarint32_of hn, hl]
  exact readRaw_append d rest

theorem leNat_eq : ∀ s : Str, leNat s = littleEndian s := by
  intro s
  unfold leNat beNat
  rw [List.foldl_reverse]
  induction s with
  | nil => rfl
  | cons b s ih => simp only [List.foldr_cons, littleEndian, ih]; omega

theorem readFixed64_of {p : Str} (h : p.length = 8) (rest : Str) : readFixed64 (p ++ rest) = some (BitVec.ofNat 64 (littleEndian p), rest) := by
  unfold readFixed64
  have := readRaw_append p rest
  rw [h] at this
  rw [this]
  simp only [leNat_eq]

theorem asI64_ofNat {v : Nat} (h : v < 2 ^ 64) : asI64 (BitVec.ofNat 64 v) = signed v := by
  unfold asI64 signed
  rw [BitVec.toInt_eq_toNat_cond, BitVec.toNat_ofNat, Nat.mod_eq_of_lt h]
  split_ifs <;> first | rfl | omega

theorem readInt64_of {v : Nat} {p : Str} (h : IsVarint v p) (old : Int) (rest : Str) : readInt64 0 old (p ++ rest) = (signed v, some rest) := by
  simp [readInt64, readVarint_of h, asI64_ofNat h.lt]

theorem readString_of (rt : PbRt) {d p : Str} (h : IsDelimited d p) (hu : rt.utf8 d = true) (old rest : Str) :
    readString rt 2 old (p ++ rest) = (d, some rest) := by
  simp [readString, readBytes_of h, hu]

theorem unknown_of (rt : PbRt) {known : Nat → Prop} {t : Str} (h : UnknownField known t) (rest : Str) :
    t ≠ [] ∧ ∃ num wt r, readTag (t ++ rest) = some (num, wt, r) ∧ ¬known num ∧ wt ≠ 3 ∧ skipUnknown rt wt r = some rest := by
  cases h with
  | varint hk h1 h2 =>
    exact ⟨by simp [h1.ne_nil], _, _, _, by rw [List.append_assoc]; exact readTag_of h1 (by decide) _, hk, by decide, by simp [skipUnknown, readVarint_of h2]⟩
  | @fixed64 num k p hk h1 h2 =>
    refine ⟨by simp [h1.ne_nil], _, _, _, by rw [List.append_assoc]; exact readTag_of h1 (by decide) _, hk, by decide, ?_⟩
    have := readRaw_append p rest
    rw [h2] at this
    simp [skipUnknown, this]
  | bytes hk h1 h2 =>
    exact ⟨by simp [h1.ne_nil], _, _, _, by rw [List.append_assoc]; exact readTag_of h1 (by decide) _, hk, by decide, by simp [skipUnknown, readBytes_of h2]⟩
  | @fixed32 num k p hk h1 h2 =>
    refine ⟨by simp [h1.ne_nil], _, _, _, by rw [List.append_assoc]; exact readTag_of h1 (by decide) _, hk, by decide, ?_⟩
    have := readRaw_append p rest
    rw [h2] at this
    simp [skipUnknown, this]

/-! ### The loop -/

/-- A step function understands the fields of a message. -/
def Understands {M : Type} (step : M → Nat → Nat → Str → M × Option Str) (F : M → Str → M → Prop) : Prop :=
  ∀ m t m' rest, F m t m' → t ≠ [] ∧ ∃ num wt r, readTag (t ++ rest) = some (num, wt, r) ∧ step m num wt r = (m', some rest)

theorem mergeLoop_step {M : Type} {step : M → Nat → Nat → Str → M × Option Str} {m m' : M} {t rest r : Str} {num wt : Nat} (ht : t ≠ [])
    (h1 : readTag (t ++ rest) = some (num, wt, r)) (h2 : step m num wt r = (m', some rest)) (f : Nat) :
    mergeLoop step (f + 1) m (t ++ rest) = mergeLoop step f m' rest := by
  cases t with
  | nil => exact absurd rfl ht
  | cons b t =>
    rw [List.cons_append] at h1 ⊢
    rw [mergeLoop, h1]
    simp only [h2]

theorem built_loop {M : Type} {step : M → Nat → Nat → Str → M × Option Str} {F : M → Str → M → Prop} (hU : Understands step F) {m0 m : M} {s : Str}
    (h : Built F m0 m s) : ∀ (f : Nat) (rest : Str), (s ++ rest).length ≤ f → ∃ f', rest.length ≤ f' ∧ mergeLoop step f m0 (s ++ rest) = mergeLoop step f' m rest := by
  induction h with
  | nil => intro f rest hf; exact ⟨f, by simpa using hf, rfl⟩
  | @snoc m m' s t hs ht ih =>
    intro f rest hf
    rw [List.append_assoc] at hf ⊢
    obtain ⟨f', h1, h2⟩ := ih f (t ++ rest) hf
    obtain ⟨hn, num, wt, r, h3, h4⟩ := hU m t m' rest ht
    have : 0 < t.length := List.length_pos_iff.mpr hn
    rw [List.length_append] at h1
    obtain ⟨g, rfl⟩ : ∃ g, f' = g + 1 := ⟨f' - 1, by omega⟩
    exact ⟨g, by omega, by rw [h2, mergeLoop_step hn h3 h4]⟩

theorem built_merge {M : Type} {step : M → Nat → Nat → Str → M × Option Str} {F : M → Str → M → Prop} (hU : Understands step F) {m0 m : M} {s : Str}
    (h : Built F m0 m s) : merge step m0 s = (m, true) := by
  obtain ⟨f', -, h2⟩ := built_loop hU h s.length [] (by simp)
  unfold merge
  rw [List.append_nil] at h2
  rw [h2]
  cases f' <;> rfl

theorem readMessage_of {M : Type} (rt : PbRt) {step : M → Nat → Nat → Str → M × Option Str} {F : M → Str → M → Prop} (hU : Understands step F)
    {m0 m : M} {d p : Str} (h : Built F m0 m d) (hp : IsNested d p) (rest : Str) : readMessage rt step m0 (p ++ rest) = (m, some rest) := by
  obtain ⟨n, hn, rfl⟩ := hp
  unfold readMessage
  rw [List.append_assoc, readVarint_of hn]
  simp [built_merge hU h]

theorem readRepeated_of {M : Type} (rt : PbRt) {step : M → Nat → Nat → Str → M × Option Str} {F : M → Str → M → Prop} (hU : Understands step F)
    {m0 m : M} {d p : Str} (h : Built F m0 m d) (hp : IsNested d p) (l : List M) (rest : Str) :
    readRepeated rt step m0 2 l (p ++ rest) = (l ++ [m], some rest) := by
  simp [readRepeated, readMessage_of rt hU h hp]

/-- The bound on rounds is never reached: one round per byte is enough. -/
theorem readVarintFrom_shrinks : ∀ (s : Str) (i v : Nat) (r : Str), readVarintFrom i s = some (v, r) → r.length < s.length := by
  intro s
  induction s with
  | nil => intro i v r h; simp [readVarintFrom] at h
  | cons b s ih =>
    intro i v r h
    rw [readVarintFrom] at h
    split_ifs at h with h1 h2
    · simp only [Option.some.injEq, Prod.mk.injEq] at h; rw [← h.2]; simp
    · rcases e : readVarintFrom (i + 1) s with _ | ⟨w, q⟩
      · rw [e] at h; simp at h
      · rw [e] at h
        simp only [Option.some.injEq, Prod.mk.injEq] at h
        have := ih _ _ _ e
        rw [← h.2]; simp; omega

theorem readVarint_shrinks {s r : Str} {v : Nat} (h : readVarint s = some (v, r)) : r.length < s.length := by
  unfold readVarint at h
  rcases e : readVarintFrom 0 s with _ | ⟨w, q⟩
  · rw [e] at h; simp at h
  · rw [e] at h
    simp only [Option.some.injEq, Prod.mk.injEq] at h
    rw [← h.2]; exact readVarintFrom_shrinks _ _ _ _ e

theorem readVarint32_shrinks {s r : Str} {v : Nat} (h : readVarint32 s = some (v, r)) : r.length < s.length := by
  unfold readVarint32 at h
  rcases e : readVarint s with _ | ⟨w, q⟩
  · rw [e] at h; simp at h
  · rw [e] at h
    simp only [Option.some.injEq, Prod.mk.injEq] at h
    rw [← h.2]; exact readVarint_shrinks e

theorem readTag_shrinks {s r : Str} {num wt : Nat} (h : readTag s = some (num, wt, r)) : r.length < s.length := by
  unfold readTag at h
  rcases e : readVarint32 s with _ | ⟨w, q⟩
  · rw [e] at h; simp at h
  · rw [e] at h
    simp only [] at h
    split_ifs at h
    simp only [Option.some.injEq, Prod.mk.injEq] at h
    rw [← h.2.2]; exact readVarint32_shrinks e

/-- A step that never gives back more than it got. -/
def Shrinking {M : Type} (step : M → Nat → Nat → Str → M × Option Str) : Prop := ∀ m num wt s m' r, step m num wt s = (m', some r) → r.length ≤ s.length

theorem mergeLoop_fuel {M : Type} {step : M → Nat → Nat → Str → M × Option Str} (hs : Shrinking step) :
    ∀ (f g : Nat) (m : M) (s : Str), s.length ≤ f → s.length ≤ g → mergeLoop step f m s = mergeLoop step g m s := by
  intro f
  induction f with
  | zero =>
    intro g m s hf hg
    have : s = [] := List.length_eq_zero_iff.mp (by omega)
    subst this
    cases g <;> rfl
  | succ f ih =>
    intro g m s hf hg
    cases s with
    | nil => cases g <;> rfl
    | cons b s =>
      obtain ⟨g, rfl⟩ : ∃ k, g = k + 1 := ⟨g - 1, by simp at hg; omega⟩
      rw [mergeLoop, mergeLoop]
      rcases e : readTag (b :: s) with _ | ⟨num, wt, r⟩
      · rfl
      · have h1 := readTag_shrinks e
        simp only []
        rcases e2 : step m num wt r with ⟨m', _ | r'⟩
        · rfl
        · have h2 := hs _ _ _ _ _ _ e2
          simp only []
          exact ih g m' r' (by simp at hf h1; omega) (by simp at hg h1; omega)

/-! ### Shrinking of all steps -/

theorem readRaw_shrinks {n : Nat} {s p r : Str} (h : readRaw n s = some (p, r)) : r.length ≤ s.length := by
  unfold readRaw at h
  split_ifs at h
  simp only [Option.some.injEq, Prod.mk.injEq] at h
  rw [← h.2]; simp

theorem readBytes_shrinks {s p r : Str} (h : readBytes s = some (p, r)) : r.length ≤ s.length := by
  unfold readBytes at h
  rcases e : readVarint32 s with _ | ⟨w, q⟩
  · rw [e] at h; simp at h
  · rw [e] at h
    have h1 := readVarint32_shrinks e
    have h2 := readRaw_shrinks h
    omega

theorem skipUnknown_shrinks {rt : PbRt} {wt : Nat} {s r : Str} (h : skipUnknown rt wt s = some r) : r.length ≤ s.length := by
  unfold skipUnknown at h
  split at h
  · obtain ⟨x, hx, rfl⟩ := Option.map_eq_some_iff.mp h
    exact le_of_lt (readVarint_shrinks (v := x.1) hx)
  · obtain ⟨x, hx, rfl⟩ := Option.map_eq_some_iff.mp h
    exact readRaw_shrinks (p := x.1) hx
  · obtain ⟨x, hx, rfl⟩ := Option.map_eq_some_iff.mp h
    exact readBytes_shrinks (p := x.1) hx
  · exact rt.shrinks _ _ h
  · obtain ⟨x, hx, rfl⟩ := Option.map_eq_some_iff.mp h
    exact readRaw_shrinks (p := x.1) hx
  · simp at h

theorem readInt64_shrinks {wt : Nat} {old v : Int} {s r : Str} (h : readInt64 wt old s = (v, some r)) : r.length ≤ s.length := by
  unfold readInt64 at h
  split_ifs at h
  · simp at h
  · rcases e : readVarint s with _ | ⟨w, q⟩
    · rw [e] at h; simp at h
    · rw [e] at h
      simp only [Prod.mk.injEq, Option.some.injEq] at h
      rw [← h.2]; exact le_of_lt (readVarint_shrinks e)

theorem readString_shrinks {rt : PbRt} {wt : Nat} {old v s r : Str} (h : readString rt wt old s = (v, some r)) : r.length ≤ s.length := by
  unfold readString at h
  split_ifs at h
  · simp at h
  · rcases e : readBytes s with _ | ⟨w, q⟩
    · rw [e] at h; simp at h
    · rw [e] at h
      simp only [] at h
      split_ifs at h
      · simp only [Prod.mk.injEq, Option.some.injEq] at h
        rw [← h.2]; exact readBytes_shrinks e
      · simp at h

theorem readMessage_shrinks {M : Type} {rt : PbRt} {step : M → Nat → Nat → Str → M × Option Str} {m m' : M} {s r : Str}
    (h : readMessage rt step m s = (m', some r)) : r.length ≤ s.length := by
  unfold readMessage at h
  rcases e : readVarint s with _ | ⟨n, q⟩
  · rw [e] at h; simp at h
  · rw [e] at h
    have := readVarint_shrinks e
    simp only [] at h
    split_ifs at h
    · rcases e2 : merge step m (q.take n) with ⟨x, _ | _⟩
      · rw [e2] at h; simp at h
      · rw [e2] at h
        simp only [Prod.mk.injEq, Option.some.injEq] at h
        rw [← h.2, List.length_drop]; omega
    · rcases e2 : merge step m q with ⟨x, _ | _⟩
      · rw [e2] at h; simp at h
      · rw [e2] at h
        simp only [Prod.mk.injEq, Option.some.injEq] at h
        rw [← h.2]; simp
    · simp at h

theorem readRepeated_shrinks {M : Type} {rt : PbRt} {step : M → Nat → Nat → Str → M × Option Str} {m : M} {wt : Nat} {l l' : List M} {s r : Str}
    (h : readRepeated rt step m wt l s = (l', some r)) : r.length ≤ s.length := by
  unfold readRepeated at h
  split_ifs at h
  · simp at h
  · simp only [Prod.mk.injEq] at h
    exact readMessage_shrinks (m' := (readMessage rt step m s).1) (Prod.ext rfl h.2)

theorem sampleStep_shrinks (rt : PbRt) : Shrinking (sampleStep rt) := by
  intro m num wt s m' r h
  unfold sampleStep at h
  split_ifs at h
  · simp at h
  · rcases e : readFixed64 s with _ | ⟨v, q⟩
    · rw [e] at h; simp at h
    · rw [e] at h
      unfold readFixed64 at e
      rcases e2 : readRaw 8 s with _ | ⟨p, q'⟩
      · rw [e2] at e; simp at e
      · rw [e2] at e
        simp only [Option.some.injEq, Prod.mk.injEq] at e h
        rw [← h.2, ← e.2]; exact readRaw_shrinks e2
  · simp only [Prod.mk.injEq] at h
    exact readInt64_shrinks (v := (readInt64 wt m.timestamp s).1) (Prod.ext rfl h.2)
  · simp only [Prod.mk.injEq] at h
    exact skipUnknown_shrinks h.2

theorem labelStep_shrinks (rt : PbRt) : Shrinking (labelStep rt) := by
  intro m num wt s m' r h
  unfold labelStep at h
  split_ifs at h <;> simp only [Prod.mk.injEq] at h
  · exact readString_shrinks (v := (readString rt wt m.key s).1) (Prod.ext rfl h.2)
  · exact readString_shrinks (v := (readString rt wt m.value s).1) (Prod.ext rfl h.2)
  · exact skipUnknown_shrinks h.2

theorem seriesStep_shrinks (rt : PbRt) : Shrinking (seriesStep rt) := by
  intro m num wt s m' r h
  unfold seriesStep at h
  split_ifs at h <;> simp only [Prod.mk.injEq] at h
  · exact readRepeated_shrinks (Prod.ext rfl h.2)
  · exact readRepeated_shrinks (Prod.ext rfl h.2)
  · exact skipUnknown_shrinks h.2

theorem writeStep_shrinks (rt : PbRt) : Shrinking (writeStep rt) := by
  intro m num wt s m' r h
  unfold writeStep at h
  split_ifs at h
  · exact readRepeated_shrinks h
  · simp only [Prod.mk.injEq] at h
    exact skipUnknown_shrinks h.2

/-! ### Understanding of all messages -/

theorem sampleStep_understands (rt : PbRt) : Understands (sampleStep rt) SampleField := by
  intro m t m' rest h
  cases h with
  | value h1 h2 =>
    exact ⟨by simp [h1.ne_nil], _, _, _, by rw [List.append_assoc]; exact readTag_of h1 (by decide) _, by simp [sampleStep, readFixed64_of h2]⟩
  | timestamp h1 h2 =>
    exact ⟨by simp [h1.ne_nil], _, _, _, by rw [List.append_assoc]; exact readTag_of h1 (by decide) _, by simp [sampleStep, readInt64_of h2]⟩
  | other h1 =>
    obtain ⟨hn, num, wt, r, e1, e2, -, e3⟩ := unknown_of rt h1 rest
    exact ⟨hn, num, wt, r, e1, by simp only [not_or] at e2; simp [sampleStep, e2.1, e2.2, e3]⟩

theorem labelStep_understands (rt : PbRt) : Understands (labelStep rt) (LabelField rt.utf8) := by
  intro m t m' rest h
  cases h with
  | name h1 h2 h3 =>
    exact ⟨by simp [h1.ne_nil], _, _, _, by rw [List.append_assoc]; exact readTag_of h1 (by decide) _, by simp [labelStep, readString_of rt h2 h3]⟩
  | value h1 h2 h3 =>
    exact ⟨by simp [h1.ne_nil], _, _, _, by rw [List.append_assoc]; exact readTag_of h1 (by decide) _, by simp [labelStep, readString_of rt h2 h3]⟩
  | other h1 =>
    obtain ⟨hn, num, wt, r, e1, e2, -, e3⟩ := unknown_of rt h1 rest
    exact ⟨hn, num, wt, r, e1, by simp only [not_or] at e2; simp [labelStep, e2.1, e2.2, e3]⟩

theorem seriesStep_understands (rt : PbRt) : Understands (seriesStep rt) (SeriesField rt.utf8) := by
  intro m t m' rest h
  cases h with
  | label h1 h2 h3 =>
    exact ⟨by simp [h1.ne_nil], _, _, _, by rw [List.append_assoc]; exact readTag_of h1 (by decide) _,
      by simp [seriesStep, readRepeated_of rt (labelStep_understands rt) h3 h2]⟩
  | sample h1 h2 h3 =>
    exact ⟨by simp [h1.ne_nil], _, _, _, by rw [List.append_assoc]; exact readTag_of h1 (by decide) _,
      by simp [seriesStep, readRepeated_of rt (sampleStep_understands rt) h3 h2]⟩
  | other h1 =>
    obtain ⟨hn, num, wt, r, e1, e2, -, e3⟩ := unknown_of rt h1 rest
    exact ⟨hn, num, wt, r, e1, by simp only [not_or] at e2; simp [seriesStep, e2.1, e2.2, e3]⟩

theorem writeStep_understands (rt : PbRt) : Understands (writeStep rt) (WriteField rt.utf8) := by
  intro m t m' rest h
  cases h with
  | series h1 h2 h3 =>
    exact ⟨by simp [h1.ne_nil], _, _, _, by rw [List.append_assoc]; exact readTag_of h1 (by decide) _,
      by simp [writeStep, readRepeated_of rt (seriesStep_understands rt) h3 h2]⟩
  | other h1 =>
    obtain ⟨hn, num, wt, r, e1, e2, -, e3⟩ := unknown_of rt h1 rest
    exact ⟨hn, num, wt, r, e1, by simp [writeStep, e2, e3]⟩

theorem matcherType_number {v : Nat} {t : MatcherType} (h : v % 2 ^ 32 = typeNumber t) : matcherType v = some t := by
  unfold matcherType; rw [h]; cases t <;> rfl

theorem matcherType_some {v : Nat} {t : MatcherType} (h : matcherType v = some t) : v % 2 ^ 32 = typeNumber t := by
  unfold matcherType at h
  split at h <;> first | (cases h; assumption) | cases h

theorem matcherType_none {v : Nat} : matcherType v = none ↔ ∀ t, v % 2 ^ 32 ≠ typeNumber t := by
  constructor
  · intro h t ht; rw [matcherType_number ht] at h; cases h
  · intro h
    rcases hm : matcherType v with _ | t
    · rfl
    · exact absurd (matcherType_some hm) (h t)

theorem matcherStep_understands (rt : PbRt) : Understands (matcherStep rt) (MatcherField rt.utf8) := by
  intro m t m' rest h
  cases h with
  | type h1 h2 h3 =>
    exact ⟨by simp [h1.ne_nil], _, _, _, by rw [List.append_assoc]; exact readTag_of h1 (by decide) _,
      by simp [matcherStep, readVarint_of h2, matcherType_number h3]⟩
  | unknownType h1 h2 h3 =>
    exact ⟨by simp [h1.ne_nil], _, _, _, by rw [List.append_assoc]; exact readTag_of h1 (by decide) _,
      by simp [matcherStep, readVarint_of h2, matcherType_none.mpr h3]⟩
  | name h1 h2 h3 =>
    exact ⟨by simp [h1.ne_nil], _, _, _, by rw [List.append_assoc]; exact readTag_of h1 (by decide) _, by simp [matcherStep, readString_of rt h2 h3]⟩
  | value h1 h2 h3 =>
    exact ⟨by simp [h1.ne_nil], _, _, _, by rw [List.append_assoc]; exact readTag_of h1 (by decide) _, by simp [matcherStep, readString_of rt h2 h3]⟩
  | other h1 =>
    obtain ⟨hn, num, wt, r, e1, e2, -, e3⟩ := unknown_of rt h1 rest
    exact ⟨hn, num, wt, r, e1, by simp only [not_or] at e2; simp [matcherStep, e2.1, e2.2.1, e2.2.2, e3]⟩

theorem hintsStep_understands (rt : PbRt) : Understands (hintsStep rt) (HintsField rt.utf8) := by
  intro m t m' rest h
  cases h with
  | int hn h1 h2 =>
    exact ⟨by simp [h1.ne_nil], _, _, _, by rw [List.append_assoc]; exact readTag_of h1 (by decide) _, by simp [hintsStep, hn, readInt64_of h2]⟩
  | func h1 h2 h3 =>
    exact ⟨by simp [h1.ne_nil], _, _, _, by rw [List.append_assoc]; exact readTag_of h1 (by decide) _, by simp [hintsStep, readString_of rt h2 h3]⟩
  | other h1 =>
    obtain ⟨hn, num, wt, r, e1, e2, -, e3⟩ := unknown_of rt h1 rest
    exact ⟨hn, num, wt, r, e1, by simp only [not_or] at e2; simp [hintsStep, e2.1, e2.2.1, e2.2.2.1, e2.2.2.2, e3]⟩

theorem queryStep_understands (rt : PbRt) : Understands (queryStep rt) (QueryField rt.utf8) := by
  intro m t m' rest h
  cases h with
  | start h1 h2 =>
    exact ⟨by simp [h1.ne_nil], _, _, _, by rw [List.append_assoc]; exact readTag_of h1 (by decide) _, by simp [queryStep, readInt64_of h2]⟩
  | end_ h1 h2 =>
    exact ⟨by simp [h1.ne_nil], _, _, _, by rw [List.append_assoc]; exact readTag_of h1 (by decide) _, by simp [queryStep, readInt64_of h2]⟩
  | matcher h1 h2 h3 =>
    exact ⟨by simp [h1.ne_nil], _, _, _, by rw [List.append_assoc]; exact readTag_of h1 (by decide) _,
      by simp [queryStep, readRepeated_of rt (matcherStep_understands rt) h3 h2]⟩
  | hints h1 h2 h3 =>
    exact ⟨by simp [h1.ne_nil], _, _, _, by rw [List.append_assoc]; exact readTag_of h1 (by decide) _,
      by simp [queryStep, readMessage_of rt (hintsStep_understands rt) h3 h2]⟩
  | other h1 =>
    obtain ⟨hn, num, wt, r, e1, e2, -, e3⟩ := unknown_of rt h1 rest
    exact ⟨hn, num, wt, r, e1, by simp only [not_or] at e2; simp [queryStep, e2.1, e2.2.1, e2.2.2.1, e2.2.2.2, e3]⟩

theorem readPacked_of {d : Str} (h : Varints d) : ∀ f, d.length ≤ f → readPacked f d = true := by
  induction h with
  | nil => intro f _; cases f <;> rfl
  | @cons v p s hp hs ih =>
    intro f hf
    rw [List.length_append] at hf
    have hp0 := List.length_pos_iff.mpr hp.ne_nil
    obtain ⟨g, rfl⟩ : ∃ g, f = g + 1 := ⟨f - 1, by omega⟩
    have := readVarint_of hp s
    cases p with
    | nil => exact absurd rfl hp.ne_nil
    | cons b p =>
      rw [List.cons_append] at this ⊢
      rw [readPacked, this]
      exact ih g (by simp at hf; omega)

/-- Fields of a read request with the flag of the model. -/
def ReadField' (utf8 : Str → Bool) (m : List PQuery × Bool) (t : Str) (m' : List PQuery × Bool) : Prop :=
  ReadField utf8 m.1 t m'.1 ∧ (m.2 = true → m'.2 = true)

theorem readStep_of (rt : PbRt) (m : List PQuery) (b : Bool) (t : Str) (m' : List PQuery) (rest : Str) (h : ReadField rt.utf8 m t m') :
    t ≠ [] ∧ ∃ num wt r b', readTag (t ++ rest) = some (num, wt, r) ∧ readStep rt (m, b) num wt r = ((m', b'), some rest) := by
  cases h with
  | query h1 h2 h3 =>
    exact ⟨by simp [h1.ne_nil], _, _, _, b, by rw [List.append_assoc]; exact readTag_of h1 (by decide) _,
      by simp [readStep, readRepeated_of rt (queryStep_understands rt) h3 h2]⟩
  | accepted h1 h2 =>
    exact ⟨by simp [h1.ne_nil], _, _, _, true, by rw [List.append_assoc]; exact readTag_of h1 (by decide) _, by simp [readStep, readVarint_of h2]⟩
  | packed h1 h2 h3 =>
    exact ⟨by simp [h1.ne_nil], _, _, _, _, by rw [List.append_assoc]; exact readTag_of h1 (by decide) _,
      by simp [readStep, readBytes_of h2, readPacked_of h3 _ (le_refl _)]; rfl⟩
  | other h1 =>
    obtain ⟨hn, num, wt, r, e1, e2, -, e3⟩ := unknown_of rt h1 rest
    exact ⟨hn, num, wt, r, _, e1, by simp only [not_or] at e2; simp [readStep, e2.1, e2.2, e3]; rfl⟩

theorem read_merge (rt : PbRt) {m : List PQuery} {s : Str} (h : IsRead rt.utf8 m s) : ∃ b, merge (readStep rt) ([], false) s = ((m, b), true) := by
  have key : ∀ {m : List PQuery} {s : Str}, Built (ReadField rt.utf8) [] m s → ∀ (f : Nat) (rest : Str), (s ++ rest).length ≤ f →
      ∃ f' b, rest.length ≤ f' ∧ mergeLoop (readStep rt) f ([], false) (s ++ rest) = mergeLoop (readStep rt) f' (m, b) rest := by
    intro m s h
    induction h with
    | nil => intro f rest hf; exact ⟨f, false, by simpa using hf, rfl⟩
    | @snoc m m' s t hs ht ih =>
      intro f rest hf
      rw [List.append_assoc] at hf ⊢
      obtain ⟨f', b, h1, h2⟩ := ih f (t ++ rest) hf
      obtain ⟨hn, num, wt, r, b', h3, h4⟩ := readStep_of rt m b t m' rest ht
      have : 0 < t.length := List.length_pos_iff.mpr hn
      rw [List.length_append] at h1
      obtain ⟨g, rfl⟩ : ∃ g, f' = g + 1 := ⟨f' - 1, by omega⟩
      exact ⟨g, b', by omega, by rw [h2, mergeLoop_step hn h3 h4]⟩
  obtain ⟨f', b, -, h2⟩ := key h s.length [] (by simp)
  refine ⟨b, ?_⟩
  unfold merge
  rw [List.append_nil] at h2
  rw [h2]
  cases f' <;> rfl

end Verif
