import Verif.Model.Conc
import Mathlib.Data.List.Induction
namespace Verif
open List

/-! ### Mutual exclusion gives a sequential order -/

/-- Running operations one after another; returns the results in order and the final store. -/
def seqRun {σ ω α : Type} (prog : ω → Proc σ α) (s : σ) (ops : List (Nat × ω)) : List (Nat × ω × α) × σ :=
  ops.foldl (fun r o => (r.1 ++ [(o.1, o.2, ((prog o.2).run r.2).1)], ((prog o.2).run r.2).2)) ([], s)

theorem seqRun_append {σ ω α : Type} (prog : ω → Proc σ α) (s : σ) (ops : List (Nat × ω)) (o : Nat × ω) :
    seqRun prog s (ops ++ [o]) = ((seqRun prog s ops).1 ++ [(o.1, o.2, ((prog o.2).run (seqRun prog s ops).2).1)],
      ((prog o.2).run (seqRun prog s ops).2).2) := by
  unfold seqRun; rw [List.foldl_append]; rfl

/-- The operation the thread is executing, if it holds the lock. -/
def Sys.current {σ ω α : Type} (S : Sys σ ω α) (t : Nat) : List ω :=
  match S.lock with
  | some (h, o, _) => if h = t then [o] else []
  | none => []

/-- The operations of one thread in a log. -/
def opsOf {ω α : Type} (t : Nat) (l : List (Nat × ω × α)) : List ω := (l.filter fun x => decide (x.1 = t)).map (·.2.1)

/-- The log without results. -/
def orderOf {ω α : Type} (l : List (Nat × ω × α)) : List (Nat × ω) := l.map fun x => (x.1, x.2.1)

/-- What holds at every moment. -/
structure Linear {σ ω α : Type} (prog : ω → Proc σ α) (s0 : σ) (todo0 : Nat → List ω) (S : Sys σ ω α) : Prop where
  results : (seqRun prog s0 (orderOf S.finished)).1 = S.finished
  store : match S.lock with
    | none => S.store = (seqRun prog s0 (orderOf S.finished)).2
    | some (_, o, pr) => pr.run S.store = (prog o).run (seqRun prog s0 (orderOf S.finished)).2
  partial_ : ∀ h o pr, S.lock = some (h, o, pr) → ∃ n, (prog o).upTo n (seqRun prog s0 (orderOf S.finished)).2 = S.store ∧
    ∀ m, pr.upTo m S.store = (prog o).upTo (n + m) (seqRun prog s0 (orderOf S.finished)).2
  order : ∀ t, opsOf t S.finished ++ S.current t ++ S.todo t = todo0 t

theorem linear_step {σ ω α : Type} {prog : ω → Proc σ α} {s0 : σ} {todo0 : Nat → List ω} {S : Sys σ ω α}
    (h : Linear prog s0 todo0 S) (t : Nat) : Linear prog s0 todo0 (S.step prog t) := by
  unfold Sys.step
  rcases hl : S.lock with _ | ⟨th, o, pr⟩
  · simp only []
    rcases ht : S.todo t with _ | ⟨o, os⟩
    · simpa using h
    · have hst := h.store
      rw [hl] at hst
      refine ⟨h.results, ?_, ?_, ?_⟩
      · simp only []; rw [hst]
      · intro h' o' pr' e
        simp only [Option.some.injEq, Prod.mk.injEq] at e
        obtain ⟨-, rfl, rfl⟩ := e
        refine ⟨0, ?_, ?_⟩
        · simp only [Proc.upTo]; exact hst.symm
        · intro m; rw [hst]; simp
      · intro u
        have := h.order u
        simp only [Sys.current, hl, List.append_nil] at this
        simp only [Sys.current]
        by_cases hu : t = u
        · subst hu; simp only [if_true]; rw [← this, ht]; simp
        · have hu' : ¬ u = t := fun e => hu e.symm
          simp only [hu, if_false, hu', List.append_nil]; exact this
  · simp only []
    by_cases hth : th = t
    · subst hth
      simp only [if_true]
      have hst := h.store
      rw [hl] at hst
      rcases pr with a | ⟨u, k⟩
      · simp only [Proc.run] at hst
        have e : orderOf (S.finished ++ [(th, o, a)]) = orderOf S.finished ++ [(th, o)] := by simp [orderOf]
        refine ⟨?_, ?_, ?_, ?_⟩
        · simp only []
          rw [e, seqRun_append, h.results]
          simp only []
          rw [← hst]
        · simp only []
          rw [e, seqRun_append]
          simp only []
          rw [← hst]
        · intro h' o' pr' e; simp at e
        · intro v
          have := h.order v
          simp only [Sys.current, hl] at this
          simp only [Sys.current, List.append_nil]
          by_cases hv : th = v
          · subst hv
            simp only [if_true] at this
            rw [← this]
            simp [opsOf]
          · simp only [hv, if_false, List.append_nil] at this
            rw [← this]
            simp [opsOf, hv]
      · obtain ⟨n, hn1, hn2⟩ := h.partial_ th o _ hl
        refine ⟨h.results, ?_, ?_, ?_⟩
        · simp only []
          rw [← hst]; rfl
        · intro h' o' pr' e
          simp only [Option.some.injEq, Prod.mk.injEq] at e
          obtain ⟨-, rfl, rfl⟩ := e
          refine ⟨n + 1, ?_, ?_⟩
          · have := hn2 1
            simp only [Proc.upTo] at this
            exact this.symm
          · intro m
            have := hn2 (m + 1)
            simp only [Proc.upTo] at this
            rw [this]
            congr 1
            omega
        · intro v
          have := h.order v
          simp only [Sys.current, hl] at this
          simpa [Sys.current] using this
    · simp only [hth, if_false]
      exact h

theorem linear_exec {σ ω α : Type} (prog : ω → Proc σ α) (s0 : σ) (todo0 : Nat → List ω) (sched : List Nat) :
    Linear prog s0 todo0 ((Sys.init s0 todo0).exec prog sched) := by
  induction sched using List.reverseRecOn with
  | nil => exact ⟨rfl, rfl, by intro h o pr e; simp [Sys.exec, Sys.init] at e, fun t => rfl⟩
  | append_singleton l t ih =>
    unfold Sys.exec
    rw [List.foldl_append]
    exact linear_step ih t

/-! ### Partial runs -/

theorem Proc.upTo_bind {σ α β : Type} (p : Proc σ α) (f : α → Proc σ β) (s : σ) (n : Nat) :
    (∃ m, (p.bind f).upTo n s = p.upTo m s) ∨ ∃ m, (p.bind f).upTo n s = (f (p.run s).1).upTo m (p.run s).2 := by
  induction p generalizing s n with
  | ret a => exact Or.inr ⟨n, rfl⟩
  | act u k ih =>
    cases n with
    | zero => exact Or.inl ⟨0, rfl⟩
    | succ n =>
      rcases ih s (u s) n with ⟨m, hm⟩ | ⟨m, hm⟩
      · exact Or.inl ⟨m + 1, hm⟩
      · exact Or.inr ⟨m, hm⟩

end Verif
