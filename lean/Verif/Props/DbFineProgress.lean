import Verif.Lemmas.DbFineProgressStep
import Verif.Props.DbProgress
import Verif.Props.DbFine
/-! Property C83: concurrent calls, interrupted anywhere, do not deadlock, and each of them returns. -/
namespace Verif
open List

/-- The call a thread is in. -/
def FPhase.call : FPhase → DbOp
  | .writing ls ps _ _ => .write ls ps
  | .inserting ls ps _ _ _ => .write ls ps
  | .q1 q a b => .query q a b
  | .reading1 q a b _ => .query q a b
  | .q2 q a b _ => .query q a b
  | .q3 q a b _ _ => .query q a b
  | .reading3 q a b _ _ _ _ => .query q a b
  | .s1 lo hi => .swap lo hi
  | .s2 lo hi => .swap lo hi

/-- The thread has made all its calls. -/
def FThread.finished (th : FThread) : Prop := th.now = none ∧ th.todo = []
/-- The calls of a thread, past, present and future. -/
def FThread.calls (th : FThread) : List DbOp := th.done.map Out.call ++ (th.now.map FPhase.call).toList ++ th.todo
/-- A policy only holds back readers that a waiting writer may hold back. -/
def FPolicy.fine (W : FPolicy) : Prop := ∀ c t, W c t = true → c.overtakes t

section
variable {B : Kit} {H : Hash}

theorem step_fcalls (c : FConf) (t : Nat) : ((c.step B H t).threads t).calls = (c.threads t).calls := by
  have e1 : ∀ (c : FConf) th, (c.setThread t th).threads t = th := by intro c th; simp [FConf.setThread]
  have e2 : ∀ (c : FConf) ph, (c.goto t ph).threads t = { c.threads t with now := some ph } := fun c ph => e1 c _
  have e3 : ∀ (c : FConf) o, (c.finish t o).threads t = { c.threads t with now := none, done := (c.threads t).done ++ [o] } := fun c o => e1 c _
  have e4 : ∀ (c : FConf), (c.dropCur t).threads t = c.threads t := fun c => rfl
  have e5 : ∀ (c : FConf), (c.dropSec t).threads t = c.threads t := fun c => rfl
  have e6 : ∀ (c : FConf) i S, (c.setChunk i S).threads t = c.threads t := fun c _ _ => rfl
  unfold FConf.step
  split
  next hn =>
    unfold FConf.begin
    split
    · rename_i op todo k ht _
      rcases op <;> simp only [e2, e1] <;> simp [FThread.calls, FPhase.call, hn, ht, e1]
    · rfl
  next hn =>
    unfold FConf.stepWriting
    split
    · rfl
    · split
      · simp [e3, e4, FThread.calls, Out.call, FPhase.call, hn]
      · split
        · rfl
        · simp [e2, e6, FThread.calls, FPhase.call, hn]
  next hn =>
    unfold FConf.stepInserting
    split
    · rfl
    · split
      · rfl
      · split
        · split
          · simp [e6]
          · split
            · simp [e2, e6, FThread.calls, FPhase.call, hn]
            · simp [e2, e6, FThread.calls, FPhase.call, hn]
            · simp [e3, e4, e6, FThread.calls, Out.call, FPhase.call, hn]
        · rfl
  next hn =>
    unfold FConf.stepQ1
    split
    · rfl
    · split
      · rfl
      · simp [e2, FThread.calls, FPhase.call, hn]
  next p hn =>
    rcases p with r | ⟨u, k⟩
    · simp only [FConf.stepReading1]
      split
      · simp [e3, e4, FThread.calls, Out.call, FPhase.call, hn]
      · simp [e2, e4, FThread.calls, FPhase.call, hn]
    · simp only [FConf.stepReading1]
      split
      · rfl
      · simp [e2, e6, FThread.calls, FPhase.call, hn]
  next hn => simp [e2, FThread.calls, FPhase.call, hn]
  next hn =>
    unfold FConf.stepQ3
    split
    · simp [e3, e5, FThread.calls, Out.call, FPhase.call, hn]
    · split
      · rfl
      · split
        · split
          · rfl
          · simp [e2, FThread.calls, FPhase.call, hn]
        · simp [e2, FThread.calls, FPhase.call, hn]
  next p hn =>
    rcases p with r | ⟨u, k⟩
    · simp only [FConf.stepReading3]
      split
      · simp [e3, e5, FThread.calls, Out.call, FPhase.call, hn]
      · simp [e2, FThread.calls, FPhase.call, hn]
    · simp only [FConf.stepReading3]
      split
      · rfl
      · simp [e2, e6, FThread.calls, FPhase.call, hn]
  next hn =>
    split
    · rfl
    · simp [e2, e4, FThread.calls, FPhase.call, hn]
  next hn =>
    unfold FConf.stepS2
    split
    · rfl
    · split
      · rfl
      · split
        · rfl
        · simp [e3, FThread.calls, Out.call, FPhase.call, hn]

/-- No thread takes away another's lock of the current chunk. -/
theorem step_lockAt {c : FConf} {t u : Nat} (hu : u ≠ t) {w : Labels × TimePoint} {pr : Proc SChunk (Res Unit)} (hl : c.lockAt c.current = some (t, w, pr)) :
    (c.step B H u).lockAt (c.step B H u).current = some (t, w, pr) := by
  have same : ∀ (i : Nat) (S : FChunk) (st : SChunk), c.chunks[i]? = some S → ∀ (c' : FConf), c'.chunks = c.chunks.set i { S with store := st } → c'.current = c.current →
      c'.lockAt c'.current = some (t, w, pr) := by
    intro i S st hS c' e1 e2
    rw [e2, lockAt_set_same (S' := { S with store := st }) hS e1 rfl]; exact hl
  unfold FConf.step
  split
  · unfold FConf.begin
    split
    · rename_i op todo k _ _
      rcases op <;> exact hl
    · exact hl
  · unfold FConf.stepWriting
    split
    · exact hl
    · rename_i S hS
      split
      · exact hl
      · split
        · exact hl
        · rename_i hn
          rw [lockAt_eq hS, hn] at hl; cases hl
  · unfold FConf.stepInserting
    split
    · exact hl
    · rename_i S hS
      split
      · exact hl
      · rename_i h' w' pr' hx
        rw [lockAt_eq hS, hx] at hl
        simp only [Option.some.injEq, Prod.mk.injEq] at hl
        rw [if_neg (by rw [hl.1]; exact fun e => hu e.symm)]
        rw [lockAt_eq hS, hx]
        simp only [Option.some.injEq, Prod.mk.injEq]; exact hl
  · unfold FConf.stepQ1
    split
    · exact hl
    · split <;> exact hl
  · rename_i p _
    rcases p with r | ⟨v, k⟩
    · simp only [FConf.stepReading1]
      split <;> exact hl
    · simp only [FConf.stepReading1]
      split
      · exact hl
      · rename_i S hS
        exact same _ S _ hS _ rfl rfl
  · exact hl
  · unfold FConf.stepQ3
    split
    · exact hl
    · split
      · exact hl
      · split
        · split <;> exact hl
        · exact hl
  · rename_i p _
    rcases p with r | ⟨v, k⟩
    · simp only [FConf.stepReading3]
      split <;> exact hl
    · simp only [FConf.stepReading3]
      split
      · exact hl
      · rename_i S hS
        exact same _ S _ hS _ rfl rfl
  · split <;> exact hl
  · unfold FConf.stepS2
    split
    · exact hl
    · split
      · exact hl
      · rename_i S hS
        split
        · exact hl
        · rename_i hn
          rw [lockAt_eq hS, hn] at hl; cases hl

theorem insLeft_none {M : Nat} {c : FConf} (h : LK M c) {t : Nat} (ht : insOf (c.threads t).now = none) : c.insLeft t = none := by
  unfold FConf.insLeft
  rcases hl : c.lockAt c.current with _ | ⟨v, w, pr⟩
  · rfl
  · simp only [Option.bind_some]
    split
    · rename_i e
      have := (h.lock _ _ hl).2
      simp only at this e
      rw [e, ht] at this; cases this
    · rfl

/-- What a thread has left to do does not change while others run. -/
theorem left_other {M : Nat} {c : FConf} (h : LK M c) {t u : Nat} (hu : u ≠ t) : (c.step B H u).left M t = c.left M t := by
  have e := step_fother (B := B) (H := H) (c := c) u t (fun e => hu e.symm)
  have hi : (c.step B H u).insLeft t = c.insLeft t := by
    rcases hn : insOf (c.threads t).now with _ | x
    · rw [insLeft_none h hn, insLeft_none (fstep_lk h u).1 (by rw [e]; exact hn)]
    · obtain ⟨⟨v, w, pr⟩, hx, hv⟩ := h.held t (by rw [hn]; rfl)
      simp only at hv
      subst hv
      unfold FConf.insLeft
      rw [step_lockAt hu hx, hx]
  unfold FConf.left
  rw [e, hi]

/-- A thread that can go on, whatever the policy. -/
theorem fexists_free {M : Nat} {c : FConf} (h : LK M c) {t : Nat} (ht : ¬ (c.threads t).finished) : ∃ u, fCanMove c u ∧ ¬ c.overtakes u := by
  by_cases hA : ∃ u ls ps p rest f, (c.threads u).now = some (.inserting ls ps p rest f)
  · obtain ⟨u, ls, ps, p, rest, f, hn⟩ := hA
    refine ⟨u, by unfold fCanMove; rw [hn]; trivial, ?_⟩
    rintro (⟨e, -⟩ | ⟨⟨_, _, _, _, e⟩, -⟩ | ⟨⟨_, _, _, e⟩ | ⟨_, _, _, _, _, e⟩, -⟩) <;> (rw [hn] at e; cases e)
  have hlk : ∀ i, c.lockAt i = none := by
    intro i
    rcases hl : c.lockAt i with _ | x
    · rfl
    · have := (h.lock i x hl).2
      rcases hnx : (c.threads x.1).now with _ | ph
      · rw [hnx] at this; cases this
      · rw [hnx] at this
        rcases ph <;> first | exact absurd ⟨_, _, _, _, _, _, hnx⟩ hA | cases this
  by_cases hW : ∃ u ls ps rest f, (c.threads u).now = some (.writing ls ps rest f)
  · obtain ⟨u, ls, ps, rest, f, hn⟩ := hW
    refine ⟨u, ?_, ?_⟩
    · unfold fCanMove; rw [hn]
      rcases rest with _ | ⟨p, rest⟩
      · trivial
      · exact hlk _
    · rintro (⟨e, -⟩ | ⟨⟨_, _, _, _, e⟩, -⟩ | ⟨⟨_, _, _, e⟩ | ⟨_, _, _, _, _, e⟩, -⟩) <;> (rw [hn] at e; cases e)
  have hnw : ∀ u, ¬ ((∃ q a b, (c.threads u).now = some (.q1 q a b)) ∨ ∃ q a b ids m, (c.threads u).now = some (.q3 q a b (c.current :: ids) m)) ∨
      ¬ ∃ u ls ps p rest f, (c.threads u).now = some (.writing ls ps (p :: rest) f) := by
    intro u; right
    rintro ⟨v, ls, ps, p, rest, f, e⟩
    exact hW ⟨v, ls, ps, _, f, e⟩
  by_cases hR : ∃ u ph, (c.threads u).now = some ph ∧ (fHoldsCur (some ph) = true ∨ fHoldsSec (some ph) = true) ∧ fIsSwap (some ph) = false
  · obtain ⟨u, ph, hn, hh, hsw⟩ := hR
    refine ⟨u, ?_, ?_⟩
    · unfold fCanMove
      rw [hn]
      rcases ph with ⟨ls, ps, rest, f⟩ | ⟨ls, ps, p, rest, f⟩ | ⟨q, a, b⟩ | ⟨q, a, b, p⟩ | ⟨q, a, b, m⟩ | ⟨q, a, b, ids, m⟩ | ⟨q, a, b, i, ids, m, p⟩ | ⟨lo, hi⟩ | ⟨lo, hi⟩
      · exact absurd ⟨_, _, _, _, _, hn⟩ hW
      · trivial
      · exact hlk _
      · trivial
      · trivial
      · rcases ids with _ | ⟨i, ids⟩
        · trivial
        · exact Or.inl (hlk _)
      · trivial
      · cases hsw
      · cases hsw
    · rintro (⟨e, -⟩ | ⟨⟨_, _, _, _, e⟩, -⟩ | ⟨e, e'⟩)
      · rw [hn] at e; cases e
      · rw [hn] at e; cases e; rcases hh with hh | hh <;> cases hh
      · rcases hnw u with h1 | h1
        · exact h1 e
        · exact h1 e'
  have hsec : c.secR = [] := by
    apply List.eq_nil_iff_forall_not_mem.mpr
    intro u hu
    have hu' := (h.secR u).mp hu
    rcases hn : (c.threads u).now with _ | ph
    · rw [hn] at hu'; cases hu'
    · rw [hn] at hu'
      refine hR ⟨u, ph, hn, Or.inr hu', ?_⟩
      rcases ph <;> first | rfl | cases hu'
  by_cases hs : fIsSwap (c.threads 0).now = true
  · refine ⟨0, ?_, ?_⟩
    · unfold fCanMove
      rcases h0 : (c.threads 0).now with _ | ph
      · rw [h0] at hs; cases hs
      · rw [h0] at hs
        rcases ph <;> first | cases hs | skip
        · exact hsec
        · simp only
          apply List.eq_nil_iff_forall_not_mem.mpr
          intro u hu
          have hu' := (h.curR u).mp hu
          by_cases hu0 : u = 0
          · rw [hu0, h0] at hu'; cases hu'
          · rcases hn : (c.threads u).now with _ | ph
            · rw [hn] at hu'; cases hu'
            · exact hR ⟨u, ph, hn, Or.inl (by rw [hn] at hu'; exact hu'), by rw [← hn]; exact (h.swaps u hu0).1⟩
    · rintro (⟨e, -⟩ | ⟨⟨_, _, _, _, e⟩, -⟩ | ⟨⟨_, _, _, e⟩ | ⟨_, _, _, _, _, e⟩, -⟩) <;> (rw [e] at hs; cases hs)
  · have nosw : ∀ u, fIsSwap (c.threads u).now = false := by
      intro u
      by_cases hu : u = 0
      · rw [hu]; simpa using hs
      · exact (h.swaps u hu).1
    refine ⟨t, ?_, ?_⟩
    · unfold fCanMove
      rcases hn : (c.threads t).now with _ | ph
      · simp only; intro e; exact ht ⟨hn, e⟩
      · have := nosw t
        rw [hn] at this
        rcases ph with ⟨ls, ps, rest, f⟩ | ⟨ls, ps, p, rest, f⟩ | ⟨q, a, b⟩ | ⟨q, a, b, p⟩ | ⟨q, a, b, m⟩ | ⟨q, a, b, ids, m⟩ | ⟨q, a, b, i, ids, m, p⟩ | ⟨lo, hi⟩ | ⟨lo, hi⟩
        · exact absurd ⟨_, _, _, _, _, hn⟩ hW
        · trivial
        · exact hlk _
        · trivial
        · trivial
        · rcases ids with _ | ⟨i, ids⟩
          · trivial
          · exact Or.inl (hlk _)
        · trivial
        · cases this
        · cases this
    · rintro (⟨-, u, lo, hi, e⟩ | ⟨-, u, lo, hi, e⟩ | ⟨e, e'⟩)
      · have := nosw u; rw [e] at this; cases this
      · have := nosw u; rw [e] at this; cases this
      · rcases hnw t with h1 | h1
        · exact h1 e
        · exact h1 e'

variable (W : FPolicy) (B H)

theorem frunUnder_snoc (c : FConf) (sched : List Nat) (t : Nat) : c.runUnder W B H (sched ++ [t]) = (c.runUnder W B H sched).stepUnder W B H t := by
  unfold FConf.runUnder; rw [List.foldl_append]; rfl

theorem frunUnder_lk {M : Nat} (sched : List Nat) : ∀ {c : FConf}, LK M c → LK M (c.runUnder W B H sched) := by
  induction sched with
  | nil => intro c h; exact h
  | cons t ts ih =>
    intro c h
    refine ih (c := c.stepUnder W B H t) ?_
    unfold FConf.stepUnder
    split
    · exact h
    · exact (fstep_lk h t).1

theorem frunUnder_calls (sched : List Nat) : ∀ (c : FConf) (t : Nat), ((c.runUnder W B H sched).threads t).calls = (c.threads t).calls := by
  induction sched with
  | nil => intro c t; rfl
  | cons u us ih =>
    intro c t
    refine (ih (c.stepUnder W B H u) t).trans ?_
    unfold FConf.stepUnder
    split
    · rfl
    · by_cases h : t = u
      · subst h; exact step_fcalls c t
      · rw [step_fother u t h]

/-- A step of a thread that can go on uses up some of what it has left; other steps change nothing. -/
theorem stepUnder_cases {M : Nat} {c : FConf} (h : LK M c) (t : Nat) :
    c.stepUnder W B H t = c ∨ (fCanMove c t ∧ W c t = false ∧ Less ((c.stepUnder W B H t).left M t) (c.left M t)) := by
  unfold FConf.stepUnder
  by_cases hw : W c t = true
  · left; rw [if_pos hw]
  · rw [if_neg hw]
    by_cases hm : fCanMove c t
    · exact Or.inr ⟨hm, by simpa using hw, (fstep_lk h t).2.1 hm⟩
    · exact Or.inl ((fstep_lk h t).2.2 hm)

/-- A sequence that goes down or stays stays for ever some time. -/
theorem eventually_constant {α : Type} {R : α → α → Prop} (hR : WellFounded R) (x : Nat → α) (hx : ∀ k, x (k + 1) = x k ∨ R (x (k + 1)) (x k)) :
    ∃ K, ∀ k, K ≤ k → x k = x K := by
  suffices h : ∀ a k, x k = a → ∃ K, ∀ j, K ≤ j → x j = x K from h (x 0) 0 rfl
  intro a
  induction a using hR.induction with
  | _ a ih =>
    intro k hk
    by_cases hall : ∀ j, k ≤ j → x j = x k
    · exact ⟨k, hall⟩
    · have hex : ∃ d, R (x (k + d + 1)) a ∧ x (k + d) = a := by
        by_contra hno
        push Not at hno
        apply hall
        intro j hj
        obtain ⟨d, rfl⟩ := Nat.exists_eq_add_of_le hj
        clear hj
        induction d with
        | zero => rfl
        | succ d ihd =>
          rcases hx (k + d) with e | e
          · rw [← Nat.add_assoc, e, ihd]
          · rw [ihd, hk] at e
            exact absurd (by rw [ihd, hk]) (hno d e)
      obtain ⟨d, hd, -⟩ := hex
      exact ih _ hd (k + d + 1) rfl

/-- No deadlock: whatever calls the threads make (one of them alone swapping), under every schedule of single store operations and every
policy about readers and waiting writers, as long as some call has not returned there is a thread that can go on. -/
theorem C83_no_deadlock (hW : W.fine) (lo hi : U64) (progs : Nat → List DbOp) (hp : ∀ u lo hi, DbOp.swap lo hi ∈ progs u → u = 0)
    (sched : List Nat) (t : Nat) (ht : ¬ (((FConf.start lo hi progs).runUnder W B H sched).threads t).finished) :
    ∃ u, ((FConf.start lo hi progs).runUnder W B H sched).stepUnder W B H u ≠ (FConf.start lo hi progs).runUnder W B H sched := by
  have hl := frunUnder_lk B H W sched (LK.start lo hi hp)
  generalize (FConf.start lo hi progs).runUnder W B H sched = c at *
  obtain ⟨u, h1, h2⟩ := fexists_free hl ht
  refine ⟨u, fun e => ?_⟩
  have hw : ¬ W c u = true := fun hw => h2 (hW c u hw)
  unfold FConf.stepUnder at e
  rw [if_neg hw] at e
  have := (fstep_lk (B := B) (H := H) hl u).2.1 h1
  rw [e] at this
  exact Less.wf.irrefl.irrefl _ this

/-- Results: in every state of such a run, the finished calls of a thread, the call it is in and the calls it has yet to make
are its program, in order. -/
theorem C83_results_in_order (lo hi : U64) (progs : Nat → List DbOp) (sched : List Nat) (t : Nat) :
    let th := ((FConf.start lo hi progs).runUnder W B H sched).threads t
    th.done.map Out.call ++ (th.now.map FPhase.call).toList ++ th.todo = progs t := by
  intro th
  refine (frunUnder_calls B H W sched (FConf.start lo hi progs) t).trans ?_
  simp [FThread.calls, FConf.start]

/-- Every call returns: finitely many threads make calls, one of them alone swaps; under every infinite schedule of single store operations that
runs every thread again and again, and every policy about readers and waiting writers, there is a moment at which every thread has made all
its calls and got a result for each of them, in order. -/
theorem C83_all_return (hW : W.fine) (lo hi : U64) (progs : Nat → List DbOp) (hp : ∀ u lo hi, DbOp.swap lo hi ∈ progs u → u = 0)
    (N : Nat) (hN : ∀ u, N ≤ u → progs u = []) (sch : Nat → Nat) (hfair : ∀ u k, ∃ k', k ≤ k' ∧ sch k' = u) :
    ∃ k, ∀ t, (((FConf.start lo hi progs).runUnder W B H ((List.range k).map sch)).threads t).finished ∧
      (((FConf.start lo hi progs).runUnder W B H ((List.range k).map sch)).threads t).done.map Out.call = progs t := by
  set c : Nat → FConf := fun k => (FConf.start lo hi progs).runUnder W B H ((List.range k).map sch) with hc
  have hsucc : ∀ k, c (k + 1) = (c k).stepUnder W B H (sch k) := by
    intro k
    simp only [hc]
    rw [List.range_succ, List.map_append, List.map_singleton, frunUnder_snoc]
  have hlk : ∀ k, LK (swapsTodo (progs 0)) (c k) := fun k => frunUnder_lk B H W _ (LK.start lo hi hp)
  have hcalls : ∀ k t, ((c k).threads t).calls = progs t := fun k t => C83_results_in_order B H W lo hi progs _ t
  -- each thread comes to rest
  have hrest : ∀ t, ∃ K, ∀ k, K ≤ k → (c k).left (swapsTodo (progs 0)) t = (c K).left (swapsTodo (progs 0)) t := by
    intro t
    refine eventually_constant Less.wf (fun k => (c k).left (swapsTodo (progs 0)) t) fun k => ?_
    simp only [hsucc]
    rcases stepUnder_cases B H W (hlk k) (sch k) with e | ⟨-, hw, hless⟩
    · exact Or.inl (by rw [e])
    · by_cases ht : sch k = t
      · right; rw [← ht]; exact hless
      · left
        unfold FConf.stepUnder
        rw [if_neg (by rw [hw]; simp)]
        exact left_other (hlk k) ht
  have hall : ∃ K, ∀ k, K ≤ k → ∀ t < N, (c k).left (swapsTodo (progs 0)) t = (c K).left (swapsTodo (progs 0)) t := by
    clear hN
    induction N with
    | zero => exact ⟨0, fun k _ t ht => absurd ht (Nat.not_lt_zero t)⟩
    | succ n ih =>
      obtain ⟨K1, h1⟩ := ih
      obtain ⟨K2, h2⟩ := hrest n
      refine ⟨max K1 K2, fun k hk t ht => ?_⟩
      by_cases htn : t = n
      · subst htn; rw [h2 k (le_trans (le_max_right _ _) hk), h2 _ (le_max_right _ _)]
      · rw [h1 k (le_trans (le_max_left _ _) hk) t (by omega), h1 _ (le_max_left _ _) t (by omega)]
  obtain ⟨K, hK⟩ := hall
  -- from `K` on nothing moves
  have hstill : ∀ k, K ≤ k → ¬ (fCanMove (c k) (sch k) ∧ W (c k) (sch k) = false) := by
    rintro k hk ⟨hm, hw⟩
    have hless : Less ((c (k + 1)).left (swapsTodo (progs 0)) (sch k)) ((c k).left (swapsTodo (progs 0)) (sch k)) := by
      rw [hsucc]
      unfold FConf.stepUnder
      rw [if_neg (by rw [hw]; simp)]
      exact (fstep_lk (hlk k) _).2.1 hm
    by_cases ht : sch k < N
    · rw [hK (k + 1) (by omega) _ ht, hK k hk _ ht] at hless
      exact Less.wf.irrefl.irrefl _ hless
    · have := hcalls k (sch k)
      rw [hN _ (by omega)] at this
      simp only [FThread.calls, List.append_eq_nil_iff] at this
      unfold fCanMove at hm
      rcases hn : ((c k).threads (sch k)).now with _ | ph
      · rw [hn] at hm; exact hm this.2
      · rw [hn] at this; simp at this
  have hsame : ∀ k, K ≤ k → c k = c K := by
    intro k hk
    obtain ⟨d, rfl⟩ := Nat.exists_eq_add_of_le hk
    clear hk
    induction d with
    | zero => rfl
    | succ d ih =>
      rw [← Nat.add_assoc, hsucc]
      rcases stepUnder_cases B H W (hlk (K + d)) (sch (K + d)) with e | ⟨hm, hw, -⟩
      · rw [e, ih]
      · exact absurd ⟨hm, hw⟩ (hstill _ (by omega))
  have hfin : ∀ t, ((c K).threads t).finished := by
    intro t
    by_contra ht
    obtain ⟨u, h1, h2⟩ := fexists_free (hlk K) ht
    obtain ⟨k, hk, e⟩ := hfair u K
    refine hstill k hk ?_
    rw [hsame k hk, e]
    refine ⟨h1, ?_⟩
    by_contra hw
    exact h2 (hW _ _ (by simpa using hw))
  refine ⟨K, fun t => ⟨hfin t, ?_⟩⟩
  have := hcalls K t
  unfold FThread.calls at this
  rw [(hfin t).1, (hfin t).2] at this
  simpa using this
end

/-! ### Examples -/

/-- The strictest policy. -/
noncomputable def fstrict : FPolicy := fun c t => open Classical in decide (c.overtakes t)
theorem fstrict_fine : fstrict.fine := fun c t h => by simpa [fstrict] using h

example : ∃ k, ∀ t, (((FConf.start 0#64 1000#64 exProgs).runUnder fstrict stdKit idealHash ((List.range k).map roundRobin)).threads t).finished ∧
      (((FConf.start 0#64 1000#64 exProgs).runUnder fstrict stdKit idealHash ((List.range k).map roundRobin)).threads t).done.map Out.call = exProgs t :=
  C83_all_return stdKit idealHash fstrict fstrict_fine 0#64 1000#64 exProgs exProgs_fine.swap 4
    (fun u hu => by match u, hu with | n + 4, _ => rfl) roundRobin roundRobin_fair

/-- A state in which the query waits for the chunk's lock, which an insert holds, and the swap for the query: not finished, and the insert goes on. -/
example : ∃ u, ((FConf.start 0#64 1000#64 exProgs).runUnder (fun _ _ => false) stdKit idealHash [1, 1, 3, 3, 0, 0, 0]).stepUnder (fun _ _ => false) stdKit idealHash u ≠
      (FConf.start 0#64 1000#64 exProgs).runUnder (fun _ _ => false) stdKit idealHash [1, 1, 3, 3, 0, 0, 0] :=
  C83_no_deadlock stdKit idealHash (fun _ _ => false) (fun _ _ h => by simp at h) 0#64 1000#64 exProgs exProgs_fine.swap
    [1, 1, 3, 3, 0, 0, 0] 0 (by rintro ⟨h, -⟩; exact absurd (congrArg Option.isNone h) (by decide +kernel))

end Verif
