import Verif.Model.Contracts
import Verif.Spec.Contracts
import Verif.Lemmas.Label
import Verif.Lemmas.Db
import Verif.Props.Misc
import Verif.Props.Indexer
/-! C78: equality, order and hash of the public types. -/
namespace Verif
open List

/-! ### Labels -/

/-- Equality of label sets, exactly: the first is a prefix of the second; and it panics exactly when the second is a proper prefix of
the first. -/
theorem C78_labels_exact (a b : Labels) :
    (labelsEq a b = some true ↔ a <+: b) ∧ (labelsEq a b = none ↔ b <+: a ∧ b ≠ a) := ⟨labelsEq_true, labelsEq_none⟩

/-- Violated: the equality of label sets panics. -/
theorem C78_violated_panics : labelsEq [lbl "a" "1"] [] = none := rfl

/-- Violated: it is not symmetric: the empty set equals every set, for every set that is not empty the converse comparison panics. -/
theorem C78_violated_symm (ls : Labels) : labelsEq [] ls = some true ∧ (ls ≠ [] → labelsEq ls [] = none) := by
  refine ⟨rfl, fun h => ?_⟩
  cases ls with
  | nil => exact absurd rfl h
  | cons l ls => rfl

/-- Violated: so `Eq` is not lawful on label sets in general. -/
theorem C78_violated : ¬ EqLaw labelsEq (fun _ => True) := fun h => h.total [lbl "a" "1"] [] trivial trivial rfl

/-- Violated: equal sets hash differently. -/
theorem C78_violated_hash : ¬ HashLaw labelsHashBytes labelsEq (fun _ => True) := by
  intro h
  exact absurd (h [] [lbl "a" "1"] trivial trivial rfl) (by decide +kernel)

theorem labelsEq_same_length {a b : Labels} (h : a.length = b.length) : labelsEq a b = some (decide (a = b)) := by
  induction a generalizing b with
  | nil => cases b with
    | nil => rfl
    | cons y b => simp at h
  | cons x a ih => cases b with
    | nil => simp at h
    | cons y b =>
      simp only [labelsEq]
      by_cases hxy : x = y
      · rw [if_pos hxy, ih (by simpa using h)]; simp [hxy]
      · rw [if_neg hxy]; simp [hxy]

/-- Partial: on label sets with the same number of labels, `Eq` and `Hash` are lawful, and equality is equality of the sequences. -/
theorem C78_partial_labels (n : Nat) :
    EqLaw labelsEq (fun ls => ls.length = n) ∧ HashLaw labelsHashBytes labelsEq (fun ls => ls.length = n) ∧
    ∀ a b : Labels, a.length = n → b.length = n → (labelsEq a b = some true ↔ a = b) := by
  have key : ∀ a b : Labels, a.length = n → b.length = n → (labelsEq a b = some true ↔ a = b) := fun a b ha hb => by
    rw [labelsEq_same_length (by omega)]; simp
  refine ⟨⟨?_, ?_, ?_, ?_⟩, ?_, key⟩
  · intro a b ha hb; rw [labelsEq_same_length (by omega)]; simp
  · intro a ha; exact (key a a ha ha).mpr rfl
  · intro a b ha hb h; exact (key b a hb ha).mpr ((key a b ha hb).mp h).symm
  · intro a b c ha hb hc h h'; exact (key a c ha hc).mpr (((key a b ha hb).mp h).trans ((key b c hb hc).mp h'))
  · intro a b ha hb h; rw [(key a b ha hb).mp h]

theorem strHash_split {s t r r' : Str} (hs : 0xFF#8 ∉ s) (ht : 0xFF#8 ∉ t) (h : strHashBytes s ++ r = strHashBytes t ++ r') : s = t ∧ r = r' := by
  unfold strHashBytes at h
  induction s generalizing t with
  | nil =>
    cases t with
    | nil => simpa using h
    | cons y t =>
      simp only [List.nil_append, List.cons_append, List.cons.injEq] at h
      exact absurd (by simp [h.1]) ht
  | cons x s ih =>
    cases t with
    | nil =>
      simp only [List.nil_append, List.cons_append, List.cons.injEq] at h
      exact absurd (by simp [h.1]) hs
    | cons y t =>
      simp only [List.cons_append, List.cons.injEq] at h
      obtain ⟨e1, e2⟩ := ih (fun hm => hs (by simp [hm])) (fun hm => ht (by simp [hm])) h.2
      exact ⟨by rw [h.1, e1], e2⟩

/-- A text as Rust's strings are: UTF-8 has no byte 0xff. -/
def NoFF (ls : Labels) : Prop := ∀ l ∈ ls, 0xFF#8 ∉ l.key ∧ 0xFF#8 ∉ l.value

/-- Different label sets feed different bytes to the hasher: a collision is one of the hash function. -/
theorem C78_hash_injective (a b : Labels) (ha : NoFF a) (hb : NoFF b) (h : labelsHashBytes a = labelsHashBytes b) : a = b := by
  unfold labelsHashBytes at h
  induction a generalizing b with
  | nil =>
    cases b with
    | nil => rfl
    | cons y b => simp [labelHashBytes, strHashBytes] at h
  | cons x a ih =>
    cases b with
    | nil => simp [labelHashBytes, strHashBytes] at h
    | cons y b =>
      rw [List.flatMap_cons, List.flatMap_cons] at h
      unfold labelHashBytes at h
      rw [List.append_assoc, List.append_assoc, ] at h
      obtain ⟨e1, h⟩ := strHash_split (ha x (by simp)).1 (hb y (by simp)).1 h
      obtain ⟨e2, h⟩ := strHash_split (ha x (by simp)).2 (hb y (by simp)).2 h
      have hxy : x = y := by cases x; cases y; simp_all
      rw [hxy, ih b (fun l hl => ha l (by simp [hl])) (fun l hl => hb l (by simp [hl])) h]

example : NoFF [lbl "a" "1", lbl "b" "2"] ∧ labelsHashBytes [lbl "a" "1", lbl "b" "2"] =
    [97#8, 255#8, 49#8, 255#8, 98#8, 255#8, 50#8, 255#8] := by unfold NoFF; decide +kernel
example : [lbl "a" "1"].length = [lbl "b" "1"].length := rfl

/-! ### Single labels -/

theorem strCmp_eq {a b : Str} : strCmp a b = .eq ↔ a = b := by
  unfold strCmp
  constructor
  · intro h
    split at h
    · split at h
      · exact strLe_antisymm a b ‹_› ‹_›
      · cases h
    · cases h
  · rintro rfl; simp [strLe_refl]

theorem strCmp_lt {a b : Str} : strCmp a b = .lt ↔ strLe a b = true ∧ a ≠ b := by
  constructor
  · intro h
    refine ⟨?_, fun e => by rw [strCmp_eq.mpr e] at h; cases h⟩
    unfold strCmp at h
    split at h
    · assumption
    · cases h
  · rintro ⟨h1, h2⟩
    unfold strCmp
    rw [if_pos h1, if_neg]
    intro h3
    exact h2 (strLe_antisymm a b h1 h3)

theorem strCmp_swap (a b : Str) : strCmp b a = (strCmp a b).swap := by
  unfold strCmp
  rcases h1 : strLe a b <;> rcases h2 : strLe b a <;> simp [Ordering.swap]
  have := strLe_total a b
  simp [h1, h2] at this

/-- The order of labels is lawful by itself; equality of single labels is the equality of name and value. -/
theorem C78_label_order : OrdLaw labelCmp (fun _ => True) ∧ EqLaw (fun a b => some (labelEq a b)) (fun _ => True) ∧
    ∀ a b : Label, labelEq a b = true ↔ a = b := by
  have heq : ∀ a b : Label, labelEq a b = true ↔ a = b := by
    intro a b; cases a; cases b; simp [labelEq]
  refine ⟨⟨fun a b _ _ => strCmp_swap _ _, ?_, ?_⟩, ⟨?_, ?_, ?_, ?_⟩, heq⟩
  · intro a b c _ _ _ h1 h2
    unfold labelCmp at *
    rw [strCmp_lt] at *
    refine ⟨strLe_trans _ _ _ h1.1 h2.1, fun e => h1.2 ?_⟩
    rw [← e] at h2
    exact strLe_antisymm _ _ h1.1 h2.1
  · intro a b c _ _ _ h1
    unfold labelCmp at *
    rw [strCmp_eq.mp h1]
  · simp
  · intro a _; rw [(heq a a).mpr rfl]
  · intro a b _ _ h
    simp only [Option.some.injEq] at *
    rw [heq] at *; exact h.symm
  · intro a b c _ _ _ h1 h2
    simp only [Option.some.injEq] at *
    rw [heq] at *; exact h1.trans h2

/-- Violated: order and equality of labels disagree: labels with the same name and different values compare as equal in the order (an
ordered set keeps one of them), exactly those. -/
theorem C78_violated_label_ord : ¬ OrdEqLaw labelCmp (fun a b => some (labelEq a b)) (fun _ => True) ∧
    ∀ a b : Label, (labelCmp a b = .eq ∧ labelEq a b = false) ↔ (a.key = b.key ∧ a.value ≠ b.value) := by
  constructor
  · intro h
    have := (h (lbl "a" "1") (lbl "a" "2") trivial trivial).mp (by decide +kernel)
    revert this; decide +kernel
  · intro a b
    unfold labelCmp labelEq
    rw [strCmp_eq]
    constructor
    · rintro ⟨h1, h2⟩; refine ⟨h1, fun h3 => ?_⟩; simp [h1, h3] at h2
    · rintro ⟨h1, h2⟩; exact ⟨h1, by simp [h2]⟩

/-! ### Chunks -/

theorem natCmp_law {α : Type} (f : α → Nat) : OrdLaw (fun a b => compare (f a) (f b)) (fun _ => True) := by
  refine ⟨fun a b _ _ => (Nat.compare_swap _ _).symm, ?_, ?_⟩
  · intro a b c _ _ _ h1 h2
    rw [Nat.compare_eq_lt] at *; omega
  · intro a b c _ _ _ h1
    have := Nat.compare_eq_eq.mp h1
    rw [this]

/-- Order and equality of chunks are lawful by themselves. -/
theorem C78_chunk_order {σ : Type} : OrdLaw (chunkCmp (σ := σ) (τ := σ)) (fun _ => True) ∧
    EqLaw (fun c d : Chunk σ => some (chunkEq c d)) (fun _ => True) := by
  refine ⟨natCmp_law _, ⟨by simp, ?_, ?_, ?_⟩⟩
  · intro a _; simp [chunkEq]
  · intro a b _ _ h; simp [chunkEq] at *; exact ⟨h.1.symm, h.2.symm⟩
  · intro a b c _ _ _ h h'; simp [chunkEq] at *; exact ⟨h.1.trans h'.1, h.2.trans h'.2⟩

/-- Violated: two chunks with the same start and different ends are equal in the order and not equal. Also, chunks with the same window and
different contents are equal. -/
theorem C78_violated_chunk : ¬ OrdEqLaw (chunkCmp (σ := SledStores) (τ := SledStores)) (fun c d => some (chunkEq c d)) (fun _ => True) ∧
    ∀ {σ : Type} (c : Chunk σ) (s : σ), chunkEq c { c with store := s } = true := by
  constructor
  · intro h
    have := (h (Chunk.new ⟨KV.empty, KV.empty⟩ 1#64 5#64) (Chunk.new ⟨KV.empty, KV.empty⟩ 1#64 6#64) trivial trivial).mp (by
      simp [chunkCmp, Chunk.new])
    simp [chunkEq, Chunk.new] at this
  · intro σ c s; simp [chunkEq]

/-- Partial: among chunks whose length is the same (as all chunks of one database) order and equality agree. -/
theorem C78_partial_chunk {σ : Type} (size : U64) :
    OrdEqLaw (chunkCmp (σ := σ) (τ := σ)) (fun c d => some (chunkEq c d)) (fun c => c.end_ = c.start_ + size) := by
  intro a b ha hb
  unfold chunkCmp chunkEq
  rw [Nat.compare_eq_eq]
  simp only [Option.some.injEq, Bool.and_eq_true, decide_eq_true_eq]
  constructor
  · intro h
    have := BitVec.eq_of_toNat_eq h
    exact ⟨this, by rw [ha, hb, this]⟩
  · rintro ⟨h, -⟩; rw [h]

example : (Chunk.new (⟨KV.empty, KV.empty⟩ : SledStores) 1#64 5#64).end_ = 1#64 + 4#64 := by decide

/-! ### Time points -/

/-- The order of time points is lawful, and equal points are equal in the order. -/
theorem C78_point_order (R : Rounding) (margin : Rat) (hm : 0 < margin) :
    OrdLaw (fun p q : U64 × Flt => timePointCmp p.1 q.1) (fun _ => True) ∧
    ∀ (t1 : U64) (v1 : Flt) (t2 : U64) (v2 : Flt), timePointEq R margin t1 v1 t2 v2 = true → timePointCmp t1 t2 = .eq := by
  refine ⟨natCmp_law (fun p : U64 × Flt => p.1.toNat), ?_⟩
  intro t1 v1 t2 v2 h
  unfold timePointCmp
  rw [((C56_exact R margin hm _ _ _ _).mp h).1]
  exact Nat.compare_eq_eq.mpr rfl

/-- Violated: points equal in the order are not equal when a value is not a number; on finite values both agree. -/
theorem C78_violated_point (R : Rounding) (margin : Rat) (hm : 0 < margin) (t : U64) :
    (timePointCmp t t = .eq ∧ timePointEq R margin t .nan t .nan = false) ∧
    OrdEqLaw (fun p q : U64 × Flt => timePointCmp p.1 q.1) (fun p q => some (timePointEq R margin p.1 p.2 q.1 q.2))
      (fun p => ∃ q, p.2 = .fin q) := by
  refine ⟨⟨Nat.compare_eq_eq.mpr rfl, (C56_not_reflexive_violated R margin hm t).2⟩, ?_⟩
  rintro ⟨t1, v1⟩ ⟨t2, v2⟩ ⟨a, ha⟩ ⟨b, hb⟩
  simp only at ha hb
  subst ha hb
  simp only [Option.some.injEq]
  rw [C56_exact R margin hm]
  unfold timePointCmp
  rw [Nat.compare_eq_eq]
  constructor
  · intro h; exact ⟨BitVec.eq_of_toNat_eq h, by simp, by simp, by simp⟩
  · rintro ⟨h, -⟩; rw [h]

example : (0 : Rat) < 1 / 1000000000 := by decide +kernel

end Verif
