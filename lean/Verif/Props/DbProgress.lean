import Verif.Lemmas.DbProgress
import Verif.Props.DbConc
import Mathlib.Data.Nat.Pairing
/-! Property C67: concurrent calls do not deadlock, and each of them returns. -/
namespace Verif
open List

/-- The call a result belongs to. -/
def Out.call : Out → DbOp
  | .wrote ls ps _ _ _ => .write ls ps
  | .answered q a b _ => .query q a b
  | .swapped lo hi => .swap lo hi
/-- The call a thread is in. -/
def Phase.call : Phase → DbOp
  | .writing ls ps _ _ => .write ls ps
  | .q1 q a b => .query q a b
  | .q2 q a b _ => .query q a b
  | .q3 q a b _ _ => .query q a b
  | .s1 lo hi => .swap lo hi
  | .s2 lo hi => .swap lo hi

/-- The thread has made all its calls. -/
def Thread.finished (th : Thread) : Prop := th.now = none ∧ th.todo = []

/-- A policy only holds back readers that a waiting writer may hold back. -/
def LockPolicy.fine {σ : Type} (W : LockPolicy σ) : Prop := ∀ c t, W c t = true → c.overtakes t

/-- The calls of a thread, past, present and future. -/
def Thread.calls (th : Thread) : List DbOp := th.done.map Out.call ++ (th.now.map Phase.call).toList ++ th.todo

theorem step_calls {σ : Type} (C : Comp σ) (H : Hash) (fresh : σ) (c : Conf σ) (t : Nat) : ((c.step C H fresh t).threads t).calls = (c.threads t).calls := by
  have e1 : ∀ (c : Conf σ) th, (c.setThread t th).threads t = th := by intro c th; simp [Conf.setThread]
  have e2 : ∀ (c : Conf σ) ph, (c.goto t ph).threads t = { c.threads t with now := some ph } := fun c ph => e1 c _
  have e3 : ∀ (c : Conf σ) o, (c.finish t o).threads t = { c.threads t with now := none, done := (c.threads t).done ++ [o] } := fun c o => e1 c _
  have e4 : ∀ (c : Conf σ), (c.dropCur t).threads t = c.threads t := fun c => rfl
  have e5 : ∀ (c : Conf σ), (c.dropSec t).threads t = c.threads t := fun c => rfl
  unfold Conf.step
  split
  next hn =>
    unfold Conf.begin
    split
    · rename_i op todo k ht _
      rcases op <;> simp only [e2, e1] <;> simp [Thread.calls, Phase.call, hn, ht, e1]
    · rfl
  next hn =>
    unfold Conf.stepWrite
    split
    · rfl
    · split
      · simp [e3, e4, Thread.calls, Out.call, Phase.call, hn]
      · split
        · simp [e2, Thread.calls, Phase.call, hn]
        · simp [e2, Thread.calls, Phase.call, hn]
        · simp [e3, e4, Thread.calls, Out.call, Phase.call, hn]
  next hn =>
    unfold Conf.stepQ1
    split
    · rfl
    · split
      · simp [e3, e4, Thread.calls, Out.call, Phase.call, hn]
      · simp [e2, e4, Thread.calls, Phase.call, hn]
  next hn => simp [e2, Thread.calls, Phase.call, hn]
  next hn =>
    unfold Conf.stepQ3
    split
    · simp [e3, e5, Thread.calls, Out.call, Phase.call, hn]
    · split
      · rfl
      · split
        · simp [e3, e5, Thread.calls, Out.call, Phase.call, hn]
        · simp [e2, Thread.calls, Phase.call, hn]
  next hn =>
    split
    · rfl
    · simp [e2, e4, Thread.calls, Phase.call, hn]
  next hn =>
    unfold Conf.stepS2
    split
    · rfl
    · split
      · rfl
      · simp [e3, Thread.calls, Out.call, Phase.call, hn]

section
variable {σ : Type} (W : LockPolicy σ) (C : Comp σ) (H : Hash) (fresh : σ)

theorem runUnder_linv {S : Nat} (sched : List Nat) : ∀ {c : Conf σ}, LInv S c → LInv S (c.runUnder W C H fresh sched) := by
  induction sched with
  | nil => intro c h; exact h
  | cons t ts ih =>
    intro c h
    refine ih (c := c.stepUnder W C H fresh t) ?_
    unfold Conf.stepUnder
    split
    · exact h
    · exact (step_linv C H fresh h t).1

theorem runUnder_calls (sched : List Nat) : ∀ (c : Conf σ) (t : Nat), ((c.runUnder W C H fresh sched).threads t).calls = (c.threads t).calls := by
  induction sched with
  | nil => intro c t; rfl
  | cons u us ih =>
    intro c t
    refine (ih (c.stepUnder W C H fresh u) t).trans ?_
    unfold Conf.stepUnder
    split
    · rfl
    · by_cases h : t = u
      · subst h; exact step_calls C H fresh c t
      · rw [step_other C H fresh c h]

/-- A thread that can go on, whatever the policy. -/
theorem exists_free {S : Nat} {c : Conf σ} (h : LInv S c) {t : Nat} (ht : ¬ (c.threads t).finished) : ∃ u, canMove c u ∧ ¬ c.overtakes u := by
  -- somebody holds a lock or is inside a section
  by_cases hA : ∃ u, (holdsCur (c.threads u).now = true ∨ holdsSec (c.threads u).now = true) ∧ isSwap (c.threads u).now = false
  · obtain ⟨u, hu, hsw⟩ := hA
    refine ⟨u, ?_, ?_⟩
    · unfold canMove
      rcases hn : (c.threads u).now with _ | ph
      · rw [hn] at hu; simp [holdsCur, holdsSec] at hu
      · rcases ph <;> first | trivial | (rw [hn] at hsw; cases hsw)
    · rintro (⟨hn, -⟩ | ⟨⟨q, a, b, m, hn⟩, -⟩)
      · rw [hn] at hu; simp [holdsCur, holdsSec] at hu
      · rw [hn] at hu; simp [holdsCur, holdsSec] at hu
  · have hsec : c.secR = [] := by
      apply List.eq_nil_iff_forall_not_mem.mpr
      intro u hu
      have hu' := (h.secR u).mp hu
      refine hA ⟨u, Or.inr hu', ?_⟩
      rcases hn : (c.threads u).now with _ | ph
      · rfl
      · rw [hn] at hu'; rcases ph <;> first | rfl | cases hu'
    rcases h0 : (c.threads 0).now with _ | ph
    · -- no swap is running: the unfinished thread itself can go on
      have nosw : ∀ u, isSwap (c.threads u).now = false := by
        intro u
        by_cases hu : u = 0
        · rw [hu, h0]; rfl
        · exact (h.swaps u hu).1
      refine ⟨t, ?_, ?_⟩
      · unfold canMove
        rcases hn : (c.threads t).now with _ | ph
        · simp only; intro e; exact ht ⟨hn, e⟩
        · have := nosw t
          rw [hn] at this
          rcases ph <;> first | trivial | cases this
      · rintro (⟨-, u, lo, hi, hu⟩ | ⟨-, u, lo, hi, hu⟩) <;> (have := nosw u; rw [hu] at this; cases this)
    · by_cases hs : isSwap (c.threads 0).now = true
      · refine ⟨0, ?_, ?_⟩
        · unfold canMove
          rw [h0] at hs ⊢
          rcases ph with _ | _ | _ | _ | _ | _ <;> first | cases hs | skip
          · exact hsec
          · simp only
            apply List.eq_nil_iff_forall_not_mem.mpr
            intro u hu
            have hu' := (h.curR u).mp hu
            by_cases hu0 : u = 0
            · rw [hu0, h0] at hu'; cases hu'
            · exact hA ⟨u, Or.inl hu', (h.swaps u hu0).1⟩
        · rintro (⟨hn, -⟩ | ⟨⟨q, a, b, m, hn⟩, -⟩)
          · rw [h0] at hn; cases hn
          · rw [hn] at hs; cases hs
      · have nosw : ∀ u, isSwap (c.threads u).now = false := by
          intro u
          by_cases hu : u = 0
          · rw [hu]; simpa using hs
          · exact (h.swaps u hu).1
        refine ⟨0, ?_, ?_⟩
        · unfold canMove
          have := nosw 0
          rw [h0] at this ⊢
          rcases ph <;> first | trivial | cases this
        · rintro (⟨-, u, lo, hi, hu⟩ | ⟨-, u, lo, hi, hu⟩) <;> (have := nosw u; rw [hu] at this; cases this)

/-- No deadlock: whatever calls the threads make (one of them alone swapping), on any backend, under every schedule and every
policy about readers and waiting writers, as long as some call has not returned there is a thread that can go on. -/
theorem C67_no_deadlock (hW : W.fine) (lo hi : U64) (progs : Nat → List DbOp) (hp : ∀ u lo hi, DbOp.swap lo hi ∈ progs u → u = 0)
    (sched : List Nat) (t : Nat) (ht : ¬ (((Conf.start fresh lo hi progs).runUnder W C H fresh sched).threads t).finished) :
    ∃ u, ((Conf.start fresh lo hi progs).runUnder W C H fresh sched).stepUnder W C H fresh u ≠
      (Conf.start fresh lo hi progs).runUnder W C H fresh sched := by
  have hl := runUnder_linv W C H fresh sched (LInv.start fresh lo hi hp)
  generalize (Conf.start fresh lo hi progs).runUnder W C H fresh sched = c at *
  obtain ⟨u, h1, h2⟩ := exists_free hl ht
  refine ⟨u, fun e => ?_⟩
  have hw : W c u = false := by
    by_contra hw
    exact h2 (hW c u (by simpa using hw))
  unfold Conf.stepUnder at e
  rw [if_neg (by simp [hw])] at e
  have := (step_linv C H fresh hl u).2.1 h1
  rw [e] at this
  exact lt_irrefl _ this

/-- Results: in every state of such a run, the finished calls of a thread, the call it is in and the calls it has yet to make
are its program, in order. -/
theorem C67_results_in_order (lo hi : U64) (progs : Nat → List DbOp) (sched : List Nat) (t : Nat) :
    let th := ((Conf.start fresh lo hi progs).runUnder W C H fresh sched).threads t
    th.done.map Out.call ++ (th.now.map Phase.call).toList ++ th.todo = progs t := by
  intro th
  refine (runUnder_calls W C H fresh sched (Conf.start fresh lo hi progs) t).trans ?_
  simp [Thread.calls, Conf.start]

/-- The work left in the first `N` threads. -/
def workBelow (S N : Nat) (c : Conf σ) : Nat := ((List.range N).map fun t => threadWork S (c.threads t)).sum

theorem threadWork_mono {S : Nat} {c : Conf σ} (h : LInv S c) (t u : Nat) :
    threadWork S ((c.step C H fresh t).threads u) ≤ threadWork S (c.threads u) := by
  by_cases hu : u = t
  · subst hu
    by_cases hm : canMove c u
    · exact le_of_lt ((step_linv C H fresh h u).2.1 hm)
    · rw [(step_linv C H fresh h u).2.2 hm]
  · rw [step_other C H fresh c hu]

theorem sum_lt {f g : Nat → Nat} {N t : Nat} (ht : t < N) (hle : ∀ u, f u ≤ g u) (hlt : f t < g t) :
    ((List.range N).map f).sum < ((List.range N).map g).sum := by
  induction N with
  | zero => omega
  | succ n ih =>
    rw [List.range_succ, List.map_append, List.map_append, List.sum_append, List.sum_append]
    simp only [List.map_cons, List.map_nil, List.sum_cons, List.sum_nil]
    have hle' : ((List.range n).map f).sum ≤ ((List.range n).map g).sum := by
      clear ih ht
      induction n with
      | zero => simp
      | succ m ih =>
        rw [List.range_succ, List.map_append, List.map_append, List.sum_append, List.sum_append]
        simp only [List.map_cons, List.map_nil, List.sum_cons, List.sum_nil]
        have := hle m
        omega
    by_cases htn : t = n
    · subst htn; omega
    · have := ih (by omega)
      have := hle n
      omega

/-- A step that changes the state uses up work of a thread with a program. -/
theorem step_work {S N : Nat} {c : Conf σ} (h : LInv S c) (hN : ∀ u, N ≤ u → (c.threads u).calls = []) (t : Nat) :
    c.stepUnder W C H fresh t = c ∨ workBelow S N (c.stepUnder W C H fresh t) < workBelow S N c := by
  unfold Conf.stepUnder
  split
  · exact Or.inl rfl
  · by_cases hm : canMove c t
    · right
      refine sum_lt (t := t) ?_ (fun u => threadWork_mono C H fresh h t u) ((step_linv C H fresh h t).2.1 hm)
      by_contra hge
      have := hN t (by omega)
      simp only [Thread.calls, List.append_eq_nil_iff] at this
      unfold canMove at hm
      rcases hn : (c.threads t).now with _ | ph
      · rw [hn] at hm; exact hm this.2
      · rw [hn] at this; simp at this
    · exact Or.inl ((step_linv C H fresh h t).2.2 hm)

theorem runUnder_snoc (c : Conf σ) (sched : List Nat) (t : Nat) :
    c.runUnder W C H fresh (sched ++ [t]) = (c.runUnder W C H fresh sched).stepUnder W C H fresh t := by
  unfold Conf.runUnder; rw [List.foldl_append]; rfl

/-- From a state with unfinished calls, a fair schedule changes the state. -/
theorem fair_changes (hW : W.fine) {S : Nat} {c : Conf σ} (h : LInv S c) {t : Nat} (ht : ¬ (c.threads t).finished) (sch : Nat → Nat)
    (hfair : ∀ u k, ∃ k', k ≤ k' ∧ sch k' = u) : ∃ j, c.runUnder W C H fresh ((List.range j).map sch) = c ∧
      c.stepUnder W C H fresh (sch j) ≠ c := by
  obtain ⟨u, h1, h2⟩ := exists_free h ht
  obtain ⟨j, -, hj⟩ := hfair u 0
  have hmove : c.stepUnder W C H fresh (sch j) ≠ c := by
    rw [hj]
    intro e
    have hw : W c u = false := by
      by_contra hw
      exact h2 (hW c u (by simpa using hw))
    unfold Conf.stepUnder at e
    rw [if_neg (by simp [hw])] at e
    have := (step_linv C H fresh h u).2.1 h1
    rw [e] at this
    exact lt_irrefl _ this
  clear hj h1 h2
  induction j using Nat.strong_induction_on with
  | _ j ih =>
    by_cases hall : ∀ i < j, c.stepUnder W C H fresh (sch i) = c
    · refine ⟨j, ?_, hmove⟩
      clear hmove ih
      induction j with
      | zero => rfl
      | succ j ihj =>
        rw [List.range_succ, List.map_append, List.map_singleton, runUnder_snoc, ihj (fun i hi => hall i (by omega))]
        exact hall j (by omega)
    · push Not at hall
      obtain ⟨i, hi, hne⟩ := hall
      exact ih i hi hne

theorem fair_shift {sch : Nat → Nat} (hfair : ∀ u k, ∃ k', k ≤ k' ∧ sch k' = u) (d : Nat) : ∀ u k, ∃ k', k ≤ k' ∧ sch (d + k') = u := by
  intro u k
  obtain ⟨k', h1, h2⟩ := hfair u (d + k)
  exact ⟨k' - d, by omega, by rw [← h2]; congr 1; omega⟩

theorem all_return (hW : W.fine) {S N : Nat} (n : Nat) : ∀ {c : Conf σ}, LInv S c → (∀ u, N ≤ u → (c.threads u).calls = []) → workBelow S N c = n →
    ∀ sch : Nat → Nat, (∀ u k, ∃ k', k ≤ k' ∧ sch k' = u) → ∃ k, ∀ t, ((c.runUnder W C H fresh ((List.range k).map sch)).threads t).finished := by
  induction n using Nat.strong_induction_on with
  | _ n ih =>
    intro c h hN hn sch hfair
    by_cases hall : ∀ t, (c.threads t).finished
    · exact ⟨0, hall⟩
    · push Not at hall
      obtain ⟨t, ht⟩ := hall
      obtain ⟨j, hj1, hj2⟩ := fair_changes W C H fresh hW h ht sch hfair
      have hlt := (step_work W C H fresh h hN (sch j)).resolve_left hj2
      have h' : LInv S (c.stepUnder W C H fresh (sch j)) := runUnder_linv W C H fresh [sch j] h
      have hN' : ∀ u, N ≤ u → ((c.stepUnder W C H fresh (sch j)).threads u).calls = [] := fun u hu => by
        have := runUnder_calls W C H fresh [sch j] c u
        exact this.trans (hN u hu)
      obtain ⟨k, hk⟩ := ih _ (hn ▸ hlt) h' hN' rfl (fun i => sch (j + 1 + i)) (fair_shift hfair (j + 1))
      refine ⟨j + 1 + k, fun t => ?_⟩
      have e : (List.range (j + 1 + k)).map sch = ((List.range j).map sch ++ [sch j]) ++ (List.range k).map (fun i => sch (j + 1 + i)) := by
        rw [List.range_add, List.map_append, List.range_succ, List.map_append, List.map_map]; rfl
      rw [e]
      have : c.runUnder W C H fresh (((List.range j).map sch ++ [sch j]) ++ (List.range k).map (fun i => sch (j + 1 + i))) =
          (c.stepUnder W C H fresh (sch j)).runUnder W C H fresh ((List.range k).map (fun i => sch (j + 1 + i))) := by
        conv_lhs => unfold Conf.runUnder
        rw [List.foldl_append]
        have e2 := runUnder_snoc W C H fresh c ((List.range j).map sch) (sch j)
        rw [hj1] at e2
        unfold Conf.runUnder at e2
        rw [e2]; rfl
      rw [this]; exact hk t

/-- Every call returns: finitely many threads make calls, one of them alone swaps; under every infinite schedule that runs every
thread again and again, and every policy about readers and waiting writers, there is a moment at which every thread has made all
its calls and got a result for each of them, in order. -/
theorem C67_all_return (hW : W.fine) (lo hi : U64) (progs : Nat → List DbOp) (hp : ∀ u lo hi, DbOp.swap lo hi ∈ progs u → u = 0)
    (N : Nat) (hN : ∀ u, N ≤ u → progs u = []) (sch : Nat → Nat) (hfair : ∀ u k, ∃ k', k ≤ k' ∧ sch k' = u) :
    ∃ k, ∀ t, (((Conf.start fresh lo hi progs).runUnder W C H fresh ((List.range k).map sch)).threads t).finished ∧
      (((Conf.start fresh lo hi progs).runUnder W C H fresh ((List.range k).map sch)).threads t).done.map Out.call = progs t := by
  obtain ⟨k, hk⟩ := all_return W C H fresh hW (N := N) _ (LInv.start fresh lo hi hp) (fun u hu => by simp [Thread.calls, Conf.start, hN u hu]) rfl sch hfair
  refine ⟨k, fun t => ⟨hk t, ?_⟩⟩
  have := C67_results_in_order W C H fresh lo hi progs ((List.range k).map sch) t
  simp only [(hk t).1, (hk t).2] at this
  simpa using this
end

/-- The strictest policy: readers always wait behind a waiting writer. Example for C67, with a fair schedule. -/
noncomputable def strict {σ : Type} : LockPolicy σ := fun c t => open Classical in decide (c.overtakes t)
theorem strict_fine {σ : Type} : (strict (σ := σ)).fine := fun c t h => by simpa [strict] using h

/-- Every thread again and again. -/
def roundRobin (k : Nat) : Nat := (Nat.unpair k).1
theorem roundRobin_fair (u k : Nat) : ∃ k', k ≤ k' ∧ roundRobin k' = u :=
  ⟨Nat.pair u k, Nat.right_le_pair u k, by simp [roundRobin]⟩

example : ∃ k, ∀ t, (((Conf.start ⟨KV.empty, KV.empty⟩ 0#64 1000#64 exProgs).runUnder strict (sledComp stdBinSearch) idealHash ⟨KV.empty, KV.empty⟩
      ((List.range k).map roundRobin)).threads t).finished ∧
      (((Conf.start ⟨KV.empty, KV.empty⟩ 0#64 1000#64 exProgs).runUnder strict (sledComp stdBinSearch) idealHash ⟨KV.empty, KV.empty⟩
        ((List.range k).map roundRobin)).threads t).done.map Out.call = exProgs t :=
  C67_all_return strict (sledComp stdBinSearch) idealHash ⟨KV.empty, KV.empty⟩ strict_fine 0#64 1000#64 exProgs exProgs_fine.swap 4
    (fun u hu => by match u, hu with | n + 4, _ => rfl) roundRobin roundRobin_fair

/-- A state in which the swap waits for the older chunks' lock while a query reads them: not finished, and the query goes on. -/
example : ∃ u, ((Conf.start ⟨KV.empty, KV.empty⟩ 0#64 1000#64 exProgs).runUnder (fun _ _ => false) (sledComp stdBinSearch) idealHash ⟨KV.empty, KV.empty⟩
      [3, 3, 3, 0, 0]).stepUnder (fun _ _ => false) (sledComp stdBinSearch) idealHash ⟨KV.empty, KV.empty⟩ u ≠
      (Conf.start ⟨KV.empty, KV.empty⟩ 0#64 1000#64 exProgs).runUnder (fun _ _ => false) (sledComp stdBinSearch) idealHash ⟨KV.empty, KV.empty⟩ [3, 3, 3, 0, 0] :=
  C67_no_deadlock (fun _ _ => false) (sledComp stdBinSearch) idealHash ⟨KV.empty, KV.empty⟩ (fun _ _ h => by simp at h) 0#64 1000#64 exProgs exProgs_fine.swap
    [3, 3, 3, 0, 0] 0 (by rintro ⟨h, -⟩; exact absurd (congrArg Option.isNone h) (by decide +kernel))

end Verif
