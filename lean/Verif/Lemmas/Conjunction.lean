import Verif.Spec.Conjunction
import Verif.Lemmas.Unordered
namespace Verif
open List

theorem numbered_knows {h : Inserts} (l : Label) : ((numbered h).any fun s => decide (l ∈ s.1)) = true ↔ ∃ w ∈ h, l ∈ w.1 := by
  rw [List.any_eq_true]
  constructor
  · rintro ⟨s, hs, hl⟩
    obtain ⟨w, hw, e⟩ := labelSets_mem (number_mem hs)
    exact ⟨w, hw, e ▸ by simpa using hl⟩
  · rintro ⟨w, hw, hl⟩
    obtain ⟨ls, h1, h2⟩ := labelSets_complete hw
    rw [← number_fst (labelSets h)] at h1
    obtain ⟨s, hs, rfl⟩ := List.mem_map.mp h1
    exact ⟨s, hs, by simpa using h2.mem_iff.mpr hl⟩

theorem matched_labels {h : Inserts} {q : Labels} {x : Series} (hx : x ∈ matched sledAccepts h q) :
    ∀ p ∈ x.points, ∃ w ∈ h, w.2 = p ∧ w.1.Perm x.labels ∧ (∃ l ∈ q, l ∈ w.1) ∧ ∀ l ∈ q, (∃ v ∈ h, l ∈ v.1) → l ∈ w.1 := by
  unfold matched at hx
  split at hx
  · simp at hx
  · rename_i hk
    obtain ⟨s, hs, rfl⟩ := List.mem_map.mp hx
    obtain ⟨hs, hall⟩ := List.mem_filter.mp hs
    rw [List.all_eq_true] at hall
    intro p hp
    simp only [keepBy_sled] at hp
    unfold pointsFor at hp
    obtain ⟨w, hw, rfl⟩ := List.mem_map.mp hp
    obtain ⟨h1, h2⟩ := List.mem_filter.mp hw
    have h2 : w.1.Perm s.1 := by simpa using h2
    refine ⟨w, h1, rfl, h2.trans (sortLabels_perm s.1).symm, ?_, fun l hl hv => ?_⟩
    · obtain ⟨l, hl⟩ := List.exists_mem_of_ne_nil _ hk
      have h3 := hall l hl
      exact ⟨l, (List.mem_filter.mp hl).1, h2.mem_iff.mpr (by simpa using h3)⟩
    · have h3 := hall l (List.mem_filter.mpr ⟨hl, (numbered_knows l).mpr hv⟩)
      exact h2.mem_iff.mpr (by simpa using h3)

/-- What a chunk reports has at least one of the labels asked for, and all of those the chunk knows. -/
theorem answerBy_asked {B : BinSearch} (hB : Careful B) {g : Gen} (hwf : ∀ w ∈ g.h, WFSet w.1) {q : Labels} {a b : U64} (hab : a.toNat ≤ b.toNat) {y : Series}
    (hy : y ∈ g.answerBy B q a b) :
    ∀ p ∈ y.points, ∃ w ∈ g.h, w.2 = p ∧ sortLabels w.1 = y.labels ∧ (∃ l ∈ q, l ∈ w.1) ∧ ∀ l ∈ q, g.Knows l → l ∈ w.1 := by
  unfold Gen.answerBy at hy
  split at hy
  · obtain ⟨x, hx, e, -, hs⟩ := (queryBy_safe hB hab _ fun x hx => (matched_points hx).1).2.2 y hy
    intro p hp
    obtain ⟨w, hw, h1, h2, h3, h4⟩ := matched_labels hx p (hs p hp)
    obtain ⟨w', hw', e1, l, e2, e3⟩ := (matched_points hx).2 p (hs p hp)
    refine ⟨w, hw, h1, ?_, h3, h4⟩
    rw [e, e2]
    refine sortLabels_perm_eq (hwf w hw).distinct ?_
    rw [e2] at h2
    exact h2.trans (sortLabels_perm l)
  · simp at hy

end Verif
