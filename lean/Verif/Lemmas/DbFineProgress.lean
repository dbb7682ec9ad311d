import Verif.Lemmas.DbFineState
import Verif.Lemmas.DbProgress
/-! Locks and progress of concurrent database calls at the grain of store operations. -/
namespace Verif
open List

/-- The phase holds the read lock of the older chunks. -/
def fHoldsSec : Option FPhase → Bool
  | some (.q3 ..) => true
  | some (.reading3 ..) => true
  | _ => false
def fSwapsNow : Option FPhase → Nat
  | some (.s1 ..) => 1
  | _ => 0
/-- The older chunks a query has left. -/
def fIds : Option FPhase → List Nat
  | some (.q3 _ _ _ ids _) => ids
  | some (.reading3 _ _ _ i ids _ _) => i :: ids
  | _ => []

/-- What the locks say about the threads. -/
structure LK (M : Nat) (c : FConf) : Prop where
  heap : c.current < c.chunks.length
  curR : ∀ t, t ∈ c.curR ↔ fHoldsCur (c.threads t).now = true
  secR : ∀ t, t ∈ c.secR ↔ fHoldsSec (c.threads t).now = true
  swaps : ∀ u, u ≠ 0 → fIsSwap (c.threads u).now = false ∧ ∀ lo hi, DbOp.swap lo hi ∉ (c.threads u).todo
  sec : ∀ i ∈ c.secondary, i < c.chunks.length
  ids : ∀ t, (∀ i ∈ fIds (c.threads t).now, i < c.chunks.length) ∧ (fIds (c.threads t).now).length ≤ M
  count : c.secondary.length + fSwapsNow (c.threads 0).now + swapsTodo (c.threads 0).todo ≤ M
  lock : ∀ i x, c.lockAt i = some x → i = c.current ∧ (insOf (c.threads x.1).now).isSome = true
  held : ∀ u, (insOf (c.threads u).now).isSome = true → ∃ x, c.lockAt c.current = some x ∧ x.1 = u

theorem LK.start (lo hi : U64) {progs : Nat → List DbOp} (h : ∀ u lo hi, DbOp.swap lo hi ∈ progs u → u = 0) :
    LK (swapsTodo (progs 0)) (FConf.start lo hi progs) := by
  refine ⟨by simp [FConf.start], by simp [FConf.start, fHoldsCur], by simp [FConf.start, fHoldsSec],
    fun u hu => ⟨rfl, fun lo hi hm => hu (h u lo hi hm)⟩, by simp [FConf.start], by simp [FConf.start, fIds], by simp [FConf.start, fSwapsNow], ?_, by simp [FConf.start, insOf]⟩
  intro i x hx
  unfold FConf.lockAt FConf.start at hx
  rcases i with _ | i
  · simp [Sys.init] at hx
  · simp at hx

/-- On older chunks. -/
theorem LK.startOn (A : List SChunk) (lo hi : U64) {progs : Nat → List DbOp} (h : ∀ u lo hi, DbOp.swap lo hi ∈ progs u → u = 0) :
    LK (A.length + swapsTodo (progs 0)) (FConf.startOn A lo hi progs) := by
  refine ⟨by simp [FConf.startOn], by simp [FConf.startOn, fHoldsCur], by simp [FConf.startOn, fHoldsSec],
    fun u hu => ⟨rfl, fun lo hi hm => hu (h u lo hi hm)⟩, ?_, by simp [FConf.startOn, fIds], by simp [FConf.startOn, fSwapsNow], ?_, by simp [FConf.startOn, insOf]⟩
  · intro i hi'
    simp only [FConf.startOn, List.mem_range, List.length_append, List.length_map, List.length_singleton] at hi' ⊢
    omega
  · intro i x hx
    exfalso
    unfold FConf.lockAt FConf.startOn at hx
    obtain ⟨S, hc, hx⟩ := Option.bind_eq_some_iff.mp hx
    rcases List.mem_append.mp (List.mem_of_getElem? hc) with hm | hm
    · obtain ⟨s, -, rfl⟩ := List.mem_map.mp hm
      cases hx
    · rw [List.mem_singleton] at hm
      subst hm
      cases hx

/-! ### Lists of lock holders -/

theorem mem_add {l : List Nat} {P P' : Nat → Bool} {t : Nat} (h : ∀ u, u ∈ l ↔ P u = true) (ht : P' t = true) (ho : ∀ u, u ≠ t → P' u = P u) (u : Nat) :
    u ∈ t :: l ↔ P' u = true := by
  by_cases hu : u = t
  · simp [hu, ht]
  · simp [hu, ho u hu, h u]
theorem mem_keep {l : List Nat} {P P' : Nat → Bool} {t : Nat} (h : ∀ u, u ∈ l ↔ P u = true) (ht : P' t = P t) (ho : ∀ u, u ≠ t → P' u = P u) (u : Nat) :
    u ∈ l ↔ P' u = true := by
  by_cases hu : u = t
  · rw [hu, ht]; exact h t
  · rw [ho u hu]; exact h u
theorem mem_drop {l : List Nat} {P P' : Nat → Bool} {t : Nat} (h : ∀ u, u ∈ l ↔ P u = true) (ht : P' t = false) (ho : ∀ u, u ≠ t → P' u = P u) (u : Nat) :
    u ∈ l.filter (· ≠ t) ↔ P' u = true := by
  by_cases hu : u = t
  · simp [hu, ht]
  · simp [hu, ho u hu, h u]

/-- One thread changes. -/
theorem LK.thread {M : Nat} {c c' : FConf} (h : LK M c) (t : Nat) (th : FThread) (hth : c'.threads = fun u => if u = t then th else c.threads u)
    (h1 : c'.current < c'.chunks.length) (h2 : c.chunks.length ≤ c'.chunks.length)
    (h3 : ∀ u, u ∈ c'.curR ↔ fHoldsCur (c'.threads u).now = true) (h4 : ∀ u, u ∈ c'.secR ↔ fHoldsSec (c'.threads u).now = true)
    (h5 : t ≠ 0 → fIsSwap th.now = false) (h6 : th.todo <:+ (c.threads t).todo) (h7 : ∀ i ∈ c'.secondary, i < c'.chunks.length)
    (h8 : (∀ i ∈ fIds th.now, i < c'.chunks.length) ∧ (fIds th.now).length ≤ M)
    (h9 : c'.secondary.length + fSwapsNow (c'.threads 0).now + swapsTodo (c'.threads 0).todo ≤ M)
    (h10 : (∀ i x, c'.lockAt i = some x → i = c'.current ∧ (insOf (c'.threads x.1).now).isSome = true) ∧
      ∀ u, (insOf (c'.threads u).now).isSome = true → ∃ x, c'.lockAt c'.current = some x ∧ x.1 = u) : LK M c' := by
  refine ⟨h1, h3, h4, ?_, h7, ?_, h9, h10.1, h10.2⟩
  · intro u hu
    rw [hth]
    by_cases hut : u = t
    · simp only [hut, if_true]
      exact ⟨h5 (hut ▸ hu), fun lo hi hm => (h.swaps t (hut ▸ hu)).2 lo hi (h6.subset hm)⟩
    · simp only [hut, if_false]; exact h.swaps u hu
  · intro u
    rw [hth]
    by_cases hut : u = t
    · simp only [hut, if_true]; exact h8
    · simp only [hut, if_false]
      exact ⟨fun i hi => lt_of_lt_of_le ((h.ids u).1 i hi) h2, (h.ids u).2⟩

theorem LK.count_same {M : Nat} {c c' : FConf} (h : LK M c) {t : Nat} {th : FThread} (hth : c'.threads = fun u => if u = t then th else c.threads u)
    (hs : c'.secondary = c.secondary) (hn : fSwapsNow th.now ≤ fSwapsNow (c.threads t).now) (ht : swapsTodo th.todo ≤ swapsTodo (c.threads t).todo) :
    c'.secondary.length + fSwapsNow (c'.threads 0).now + swapsTodo (c'.threads 0).todo ≤ M := by
  have := h.count
  rw [hs, hth]
  by_cases h0 : 0 = t
  · subst h0; simp only [if_true]; omega
  · simp only [h0, if_false]; exact this

/-- Neither the locks nor the inserting threads change. -/
theorem LK.lock_same {M : Nat} {c c' : FConf} (h : LK M c) {t : Nat} {th : FThread} (hth : c'.threads = fun u => if u = t then th else c.threads u)
    (hl : ∀ i, c'.lockAt i = c.lockAt i) (hc : c'.current = c.current) (hi : (insOf th.now).isSome = (insOf (c.threads t).now).isSome) :
    (∀ i x, c'.lockAt i = some x → i = c'.current ∧ (insOf (c'.threads x.1).now).isSome = true) ∧
      ∀ u, (insOf (c'.threads u).now).isSome = true → ∃ x, c'.lockAt c'.current = some x ∧ x.1 = u := by
  have e : ∀ u, (insOf (c'.threads u).now).isSome = (insOf (c.threads u).now).isSome := by
    intro u; rw [hth]
    by_cases hu : u = t
    · simp only [hu, if_true]; exact hi
    · simp only [hu, if_false]
  constructor
  · intro i x hx
    rw [hl] at hx
    rw [hc, e]
    exact h.lock i x hx
  · intro u hu
    rw [e] at hu
    rw [hc, hl]
    exact h.held u hu

/-! ### Work -/

def fOpWork (M : Nat) : DbOp → Nat
  | .write _ ps => 2 * ps.length + 2
  | .query .. => 2 * M + 6
  | .swap .. => 3
def fPhaseWork (M : Nat) : Option FPhase → Nat
  | none => 0
  | some (.writing _ _ rest _) => 2 * rest.length + 1
  | some (.inserting _ _ _ rest _) => 2 * rest.length + 2
  | some (.q1 ..) => 2 * M + 5
  | some (.reading1 ..) => 2 * M + 4
  | some (.q2 ..) => 2 * M + 3
  | some (.q3 _ _ _ ids _) => 2 * ids.length + 1
  | some (.reading3 _ _ _ _ ids _ _) => 2 * ids.length + 2
  | some (.s1 ..) => 2
  | some (.s2 ..) => 1
def fWork (M : Nat) (th : FThread) : Nat := fPhaseWork M th.now + (th.todo.map (fOpWork M)).sum

/-- `p'` is what may be left of `p` after a step. -/
inductive After {α : Type} : Option (Proc SChunk α) → Option (Proc SChunk α) → Prop
  | mk (u : SChunk → SChunk) (k : SChunk → Proc SChunk α) (s : SChunk) : After (some (k s)) (some (.act u k))

theorem After.wf {α : Type} : WellFounded (After (α := α)) := by
  refine ⟨fun p => ?_⟩
  rcases p with _ | p
  · exact ⟨_, fun y hy => by cases hy⟩
  · induction p with
    | ret a => exact ⟨_, fun y hy => by cases hy⟩
    | act u k ih => exact ⟨_, fun y hy => by cases hy; exact ih _⟩

/-- What is left of the insert of thread `t`. -/
def FConf.insLeft (c : FConf) (t : Nat) : Option (Proc SChunk (Res Unit)) :=
  (c.lockAt c.current).bind fun x => if x.1 = t then some x.2.2 else none

/-- What thread `t` has left to do. -/
def FConf.left (M : Nat) (c : FConf) (t : Nat) : Nat × Option (Proc SChunk (Res Unit)) × Option (Proc SChunk (Res (List Series))) :=
  (fWork M (c.threads t), c.insLeft t, fReads (c.threads t).now)

def Less : Nat × Option (Proc SChunk (Res Unit)) × Option (Proc SChunk (Res (List Series))) →
    Nat × Option (Proc SChunk (Res Unit)) × Option (Proc SChunk (Res (List Series))) → Prop := Prod.Lex (· < ·) (Prod.Lex After After)

theorem Less.wf : WellFounded Less := WellFounded.prod_lex Nat.lt_wfRel.wf (WellFounded.prod_lex After.wf After.wf)

theorem Less.work {M : Nat} {c c' : FConf} {t : Nat} (h : fWork M (c'.threads t) < fWork M (c.threads t)) : Less (c'.left M t) (c.left M t) := Prod.Lex.left _ _ h

/-- The thread can take a step. -/
def fCanMove (c : FConf) (t : Nat) : Prop :=
  match (c.threads t).now with
  | none => (c.threads t).todo ≠ []
  | some (.writing _ _ (_ :: _) _) => c.lockAt c.current = none
  | some (.q1 ..) => c.lockAt c.current = none
  | some (.q3 _ a b (i :: _) _) => c.lockAt i = none ∨ ∀ S : FChunk, c.chunks[i]? = some S → S.store.isWithRange a b = false
  | some (.s1 ..) => c.secR = []
  | some (.s2 ..) => c.curR = []
  | _ => True

end Verif
