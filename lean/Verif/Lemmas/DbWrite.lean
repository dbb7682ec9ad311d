import Verif.Model.Db
import Verif.Spec.Db
import Verif.Lemmas.Db
namespace Verif
open List

theorem filter_keep (lo hi : U64) (ps : List TimePoint) : ps.filter (keepPoint lo hi) = keptPoints lo hi ps := by
  unfold keptPoints
  apply List.filter_congr
  intro p _
  have h0 : (p.ts ≠ 0#64) ↔ p.ts.toNat ≠ 0 := by
    constructor
    · intro h e; exact h (BitVec.eq_of_toNat_eq (by simpa using e))
    · intro h e; exact h (by rw [e]; rfl)
  unfold keepPoint
  by_cases h1 : lo.toNat ≤ p.ts.toNat <;> by_cases h2 : p.ts.toNat ≤ hi.toNat <;> simp [h1, h2, h0, ge_iff_le] <;>
    simpa using congrArg (fun b => b) h0

theorem insertEach_spec {σ : Type} (C : Comp σ) (ls : Labels) (ps : List TimePoint) (c : Chunk σ)
    (hp : ∀ pre p post, ps = pre ++ p :: post → ((c.insertAll C (pre.map fun x => (ls, x))).insert C ls p).1 ≠ .panic) :
    ∃ n, insertEach C c ls ps = (.ok n, c.insertAll C (ps.map fun x => (ls, x))) ∧
      (n = 0 ↔ ∀ pre p post, ps = pre ++ p :: post → ((c.insertAll C (pre.map fun x => (ls, x))).insert C ls p).1 = .ok ()) := by
  induction ps generalizing c with
  | nil => exact ⟨0, rfl, by simp⟩
  | cons p ps ih =>
    have h0 : (c.insert C ls p).1 ≠ .panic := hp [] p ps rfl
    obtain ⟨n, h1, h2⟩ := ih (c.insert C ls p).2 (fun pre x post e => hp (p :: pre) x post (by rw [e]; rfl))
    have hall : (∀ pre x post, p :: ps = pre ++ x :: post → ((c.insertAll C (pre.map fun x => (ls, x))).insert C ls x).1 = .ok ()) ↔
        (c.insert C ls p).1 = .ok () ∧ ∀ pre x post, ps = pre ++ x :: post →
          (((c.insert C ls p).2.insertAll C (pre.map fun x => (ls, x))).insert C ls x).1 = .ok () := by
      constructor
      · intro h; exact ⟨h [] p ps rfl, fun pre x post e => h (p :: pre) x post (by rw [e]; rfl)⟩
      · rintro ⟨h, h'⟩ pre x post e
        cases pre with
        | nil => simp only [List.nil_append, List.cons.injEq] at e; rw [← e.1]; exact h
        | cons y pre =>
          simp only [List.cons_append, List.cons.injEq] at e
          have := h' pre x post e.2
          rw [e.1] at this; exact this
    have e3 : c.insertAll C ((p :: ps).map fun x => (ls, x)) = (c.insert C ls p).2.insertAll C (ps.map fun x => (ls, x)) := rfl
    rw [e3, insertEach]
    rcases hr : c.insert C ls p with ⟨r, c'⟩
    rw [hr] at h0 h1 h2 hall
    rcases r with u | e | _
    · refine ⟨n, h1, ?_⟩
      rw [hall, h2]; simp
    · refine ⟨n + 1, ?_, ?_⟩
      · simp only [] at h1; simp only [h1]
      · rw [hall]; simp
    · exact absurd rfl h0

end Verif
