import Verif.Lemmas.Intersect
import Verif.Model.Indexer
/-! Properties C12 and C13: multi-way, multi-threaded id intersection. -/
namespace Verif
open List

/-- C12. For every fair schedule of the worker threads and all ascending id lists, the intersection succeeds and returns,
in ascending order, exactly the ids present in every list (and nothing if there is no list). -/
theorem C12_intersection_exact (σ : Schedule) (hσ : Fair σ) (ts : List (List U64))
    (hs : ∀ t ∈ ts, t.Pairwise (fun a b => a.toNat ≤ b.toNat)) :
    ∃ r, intersectIds σ ts = some r ∧ r.Pairwise (fun a b => a.toNat ≤ b.toNat) ∧
      ∀ x, x ∈ r ↔ ts ≠ [] ∧ ∀ t ∈ ts, x ∈ t := by
  obtain ⟨r, hr⟩ := intersectFuel_some σ hσ (ts.length + 1) [] ts (by omega)
  exact ⟨r, hr, (intersectFuel_mem σ _ _ _ hr hs).1, (intersectFuel_mem σ _ _ _ hr hs).2.1⟩

/-- C12. If one of the ascending lists is free of repetitions, so is the result. -/
theorem C12_no_repetition (σ : Schedule) (ts : List (List U64)) {r}
    (hr : intersectIds σ ts = some r) (hs : ∀ t ∈ ts, t.Pairwise (fun a b => a.toNat ≤ b.toNat))
    (h1 : ∃ t ∈ ts, t.Pairwise (fun a b => a.toNat < b.toNat)) :
    r.Pairwise (fun a b => a.toNat < b.toNat) :=
  (intersectFuel_mem σ _ _ _ hr hs).2.2 h1

/-- C12. The intersection of no lists is empty, the intersection of one list is that list (even if unsorted). -/
theorem C12_small (σ : Schedule) (t : List U64) : intersectIds σ [] = some [] ∧ intersectIds σ [t] = some t :=
  ⟨rfl, rfl⟩

/-- C12. The precondition is needed: a list that is not ascending can lose common ids. -/
theorem C12_needs_order : ∃ (t u : List U64) (x : U64), x ∈ t ∧ x ∈ u ∧
    ∀ σ, intersectIds σ [t, u] = some [] := by
  refine ⟨[2#64, 1#64], [1#64, 1#64], 1#64, by simp, by simp, fun σ => ?_⟩
  show some (orderIntersect [2#64, 1#64] [1#64, 1#64]) = some []
  decide +kernel

/-- A schedule in which the second worker of every pair finishes first. -/
def lazySchedule : Schedule := fun _ => [(false, false), (false, true), (true, false)]

example : Fair eagerSchedule := fun _ => ⟨⟨(true, true), by simp [eagerSchedule], rfl⟩, ⟨(true, true), by simp [eagerSchedule], rfl⟩⟩
example : Fair lazySchedule :=
  fun _ => ⟨⟨(true, false), by simp [lazySchedule], rfl⟩, ⟨(false, true), by simp [lazySchedule], rfl⟩⟩
example : intersectIds lazySchedule [[1#64, 2#64, 5#64, 7#64], [2#64, 5#64, 7#64], [2#64, 3#64, 5#64], [0#64, 2#64, 5#64],
    [2#64, 4#64, 5#64]] = some [2#64, 5#64] := by decide +kernel

/-- C13. Any two runs that finish, under whatever schedules, return the same list, for all inputs (sorted or not). -/
theorem C13_schedule_independent (σ τ : Schedule) (ts : List (List U64)) {r r'}
    (h : intersectIds σ ts = some r) (h' : intersectIds τ ts = some r') : r = r' :=
  intersectFuel_unique σ τ _ _ _ _ ts h h'

/-- C13. Under a fair schedule (every worker's message eventually arrives) the call returns a list, for all inputs;
the value is the same as that of every other fair schedule. -/
theorem C13_fair_terminates (ts : List (List U64)) :
    ∃ r, ∀ σ, Fair σ → intersectIds σ ts = some r := by
  have he : Fair eagerSchedule :=
    fun _ => ⟨⟨(true, true), by simp [eagerSchedule], rfl⟩, ⟨(true, true), by simp [eagerSchedule], rfl⟩⟩
  obtain ⟨r, hr⟩ := intersectFuel_some eagerSchedule he (ts.length + 1) [] ts (by omega)
  refine ⟨r, fun σ hσ => ?_⟩
  obtain ⟨r', hr'⟩ := intersectFuel_some σ hσ (ts.length + 1) [] ts (by omega)
  rw [intersectIds, hr', intersectFuel_unique σ eagerSchedule _ _ _ _ ts hr' hr]

example : intersectIds eagerSchedule [[3#64, 1#64], [1#64, 3#64], [3#64], [9#64, 3#64]] =
    intersectIds lazySchedule [[3#64, 1#64], [1#64, 3#64], [3#64], [9#64, 3#64]] := by decide +kernel

end Verif
