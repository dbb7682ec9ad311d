import Verif.Lemmas.DbConcQuery
/-! Locks and progress of concurrent database calls, any backend. -/
namespace Verif
open List

/-- The phase holds the read lock of the older chunks. -/
def holdsSec : Option Phase → Bool
  | some (.q3 ..) => true
  | _ => false

/-- Swaps a thread has yet to push. -/
def swapsTodo (ops : List DbOp) : Nat := (ops.filter fun op => match op with | .swap .. => true | _ => false).length
def swapsNow : Option Phase → Nat
  | some (.s1 ..) => 1
  | _ => 0

/-- What the locks say about the threads. -/
structure LInv {σ : Type} (S : Nat) (c : Conf σ) : Prop where
  heap : c.current < c.heap.length
  curR : ∀ t, t ∈ c.curR ↔ holdsCur (c.threads t).now = true
  secR : ∀ t, t ∈ c.secR ↔ holdsSec (c.threads t).now = true
  swaps : ∀ u, u ≠ 0 → isSwap (c.threads u).now = false ∧ ∀ lo hi, DbOp.swap lo hi ∉ (c.threads u).todo
  sec : ∀ i ∈ c.secondary, i < c.heap.length
  ids : ∀ t q a b ids m, (c.threads t).now = some (.q3 q a b ids m) → (∀ i ∈ ids, i < c.heap.length) ∧ ids.length ≤ S
  count : c.secondary.length + swapsNow (c.threads 0).now + swapsTodo (c.threads 0).todo ≤ S

theorem LInv.start {σ : Type} (fresh : σ) (lo hi : U64) {progs : Nat → List DbOp} (h : ∀ u lo hi, DbOp.swap lo hi ∈ progs u → u = 0) :
    LInv (swapsTodo (progs 0)) (Conf.start fresh lo hi progs) :=
  ⟨by simp [Conf.start], by simp [Conf.start, holdsCur], by simp [Conf.start, holdsSec],
    fun u hu => ⟨rfl, fun lo hi hm => hu (h u lo hi hm)⟩, by simp [Conf.start], by simp [Conf.start], by simp [Conf.start, swapsNow]⟩

theorem sec_add {secR : List Nat} {threads : Nat → Thread} {t : Nat} (h : ∀ u, u ∈ secR ↔ holdsSec (threads u).now = true) {th : Thread}
    (hth : holdsSec th.now = true) (u : Nat) : u ∈ t :: secR ↔ holdsSec (if u = t then th else threads u).now = true := by
  by_cases hu : u = t
  · simp [hu, hth]
  · simp [hu, h u]

theorem sec_keep {secR : List Nat} {threads : Nat → Thread} {t : Nat} (h : ∀ u, u ∈ secR ↔ holdsSec (threads u).now = true) {th : Thread}
    (hth : holdsSec th.now = holdsSec (threads t).now) (u : Nat) : u ∈ secR ↔ holdsSec (if u = t then th else threads u).now = true := by
  by_cases hu : u = t
  · rw [if_pos hu, hth, hu]; exact h t
  · rw [if_neg hu]; exact h u

theorem sec_drop {secR : List Nat} {threads : Nat → Thread} {t : Nat} (h : ∀ u, u ∈ secR ↔ holdsSec (threads u).now = true) {th : Thread}
    (hth : holdsSec th.now = false) (u : Nat) : u ∈ secR.filter (· ≠ t) ↔ holdsSec (if u = t then th else threads u).now = true := by
  by_cases hu : u = t
  · simp [hu, hth]
  · simp [hu, h u]

/-- One thread changes; the heap may grow. -/
theorem LInv.thread {σ : Type} {S : Nat} {c c' : Conf σ} (h : LInv S c) (t : Nat) (th : Thread) (hth : ∀ u, c'.threads u = if u = t then th else c.threads u)
    (h1 : c'.current < c'.heap.length) (h2 : c.heap.length ≤ c'.heap.length)
    (h3 : ∀ u, u ∈ c'.curR ↔ holdsCur (if u = t then th else c.threads u).now = true)
    (h4 : ∀ u, u ∈ c'.secR ↔ holdsSec (if u = t then th else c.threads u).now = true)
    (h5 : t ≠ 0 → isSwap th.now = false) (h6 : th.todo <:+ (c.threads t).todo)
    (h7 : ∀ i ∈ c'.secondary, i < c'.heap.length)
    (h8 : ∀ q a b ids m, th.now = some (.q3 q a b ids m) → (∀ i ∈ ids, i < c'.heap.length) ∧ ids.length ≤ S)
    (h9 : c'.secondary.length + swapsNow (if 0 = t then th else c.threads 0).now + swapsTodo (if 0 = t then th else c.threads 0).todo ≤ S) : LInv S c' := by
  refine ⟨h1, fun u => by rw [hth u]; exact h3 u, fun u => by rw [hth u]; exact h4 u, ?_, h7, ?_, by rw [hth 0]; exact h9⟩
  · intro u hu
    rw [hth u]
    by_cases hut : u = t
    · rw [if_pos hut]
      exact ⟨h5 (hut ▸ hu), fun lo hi hm => (h.swaps u hu).2 lo hi (hut ▸ h6.subset hm)⟩
    · rw [if_neg hut]; exact h.swaps u hu
  · intro u q a b ids m e
    rw [hth u] at e
    by_cases hut : u = t
    · rw [if_pos hut] at e; exact h8 q a b ids m e
    · rw [if_neg hut] at e
      obtain ⟨a1, a2⟩ := h.ids u q a b ids m e
      exact ⟨fun i hi => lt_of_lt_of_le (a1 i hi) h2, a2⟩

theorem LInv.count_same {σ : Type} {S : Nat} {c : Conf σ} (h : LInv S c) {t : Nat} {th : Thread} (hn : swapsNow th.now ≤ swapsNow (c.threads t).now)
    (ht : swapsTodo th.todo ≤ swapsTodo (c.threads t).todo) :
    c.secondary.length + swapsNow (if 0 = t then th else c.threads 0).now + swapsTodo (if 0 = t then th else c.threads 0).todo ≤ S := by
  have := h.count
  by_cases h0 : 0 = t
  · subst h0; rw [if_pos rfl]; omega
  · rw [if_neg h0]; exact this

/-! ### Work left -/

/-- Steps a thread may still take, if there are never more than `M` older chunks. -/
def opWork (M : Nat) : DbOp → Nat
  | .write _ ps => ps.length + 2
  | .query .. => M + 4
  | .swap .. => 3
def phaseWork (M : Nat) : Option Phase → Nat
  | none => 0
  | some (.writing _ _ rest _) => rest.length + 1
  | some (.q1 ..) => M + 3
  | some (.q2 ..) => M + 2
  | some (.q3 _ _ _ ids _) => ids.length + 1
  | some (.s1 ..) => 2
  | some (.s2 ..) => 1
def threadWork (M : Nat) (th : Thread) : Nat := phaseWork M th.now + (th.todo.map (opWork M)).sum

/-- The thread can take a step: it is not waiting for a write lock that others' read locks prevent. -/
def canMove {σ : Type} (c : Conf σ) (t : Nat) : Prop :=
  match (c.threads t).now with
  | none => (c.threads t).todo ≠ []
  | some (.s1 ..) => c.secR = []
  | some (.s2 ..) => c.curR = []
  | _ => True

theorem step_linv {σ : Type} (C : Comp σ) (H : Hash) (fresh : σ) {S : Nat} {c : Conf σ} (h : LInv S c) (t : Nat) :
    LInv S (c.step C H fresh t) ∧ (canMove c t → threadWork S ((c.step C H fresh t).threads t) < threadWork S (c.threads t)) ∧
      (¬ canMove c t → c.step C H fresh t = c) := by
  obtain ⟨k, hk⟩ : ∃ k, c.heap[c.current]? = some k := ⟨_, List.getElem?_eq_getElem h.heap⟩
  have same : ∀ u : Nat, u ∈ c.curR ↔ holdsCur (if u = t then c.threads t else c.threads u).now = true := fun u => by
    by_cases hu : u = t
    · rw [if_pos hu, hu]; exact h.curR t
    · rw [if_neg hu]; exact h.curR u
  unfold Conf.step canMove
  rcases hn : (c.threads t).now with _ | ph
  · unfold Conf.begin
    rcases ht : (c.threads t).todo with _ | ⟨op, todo⟩
    · exact ⟨by simpa [ht] using h, by simp, by simp [ht]⟩
    · rw [hk]
      have hsec0 : holdsSec (c.threads t).now = false := by rw [hn]; rfl
      rcases op with ⟨ls, ps⟩ | ⟨q, a, b⟩ | ⟨lo, hi⟩
      · refine ⟨?_, fun _ => ?_, by simp⟩
        · refine h.thread t ⟨todo, some (.writing ls ps (ps.filter (keepPoint k.start_ k.end_)) 0), (c.threads t).done⟩ ?_ h.heap (le_refl _)
            (fun u => cur_add h.curR rfl u) (fun u => sec_keep h.secR (by rw [hsec0]; rfl) u) (fun _ => rfl) (by rw [ht]; exact List.suffix_cons _ _)
            h.sec (by simp) (h.count_same (by simp [swapsNow]) (by rw [ht]; simp [swapsTodo]))
          intro u; by_cases hu : u = t <;> simp [Conf.goto, Conf.setThread, hu]
        · have := List.length_filter_le (keepPoint k.start_ k.end_) ps
          simp only [Conf.goto, Conf.setThread, if_true, threadWork, phaseWork, hn, ht, List.map_cons, List.sum_cons, opWork]
          omega
      · refine ⟨?_, fun _ => ?_, by simp⟩
        · refine h.thread t ⟨todo, some (.q1 q a b), (c.threads t).done⟩ ?_ h.heap (le_refl _)
            (fun u => cur_add h.curR rfl u) (fun u => sec_keep h.secR (by rw [hsec0]; rfl) u) (fun _ => rfl) (by rw [ht]; exact List.suffix_cons _ _)
            h.sec (by simp) (h.count_same (by simp [swapsNow]) (by rw [ht]; simp [swapsTodo]))
          intro u; by_cases hu : u = t <;> simp [Conf.goto, Conf.setThread, hu]
        · simp only [Conf.goto, Conf.setThread, if_true, threadWork, phaseWork, hn, ht, List.map_cons, List.sum_cons, opWork]
          omega
      · have ht0 : t = 0 := by
          by_contra h0
          exact (h.swaps t h0).2 lo hi (by rw [ht]; simp)
        subst ht0
        refine ⟨?_, fun _ => ?_, by simp⟩
        · refine h.thread 0 ⟨todo, some (.s1 lo hi), (c.threads 0).done⟩ ?_ h.heap (le_refl _)
            (fun u => cur_add h.curR rfl u) (fun u => sec_keep h.secR (by rw [hsec0]; rfl) u) (fun h0 => absurd rfl h0) (by rw [ht]; exact List.suffix_cons _ _)
            h.sec (by simp) ?_
          · intro u; by_cases hu : u = 0 <;> simp [Conf.goto, Conf.setThread, hu]
          · have := h.count
            rw [hn, ht] at this
            simp only [swapsNow, swapsTodo, List.filter_cons, if_true, List.length_cons] at this ⊢
            show c.secondary.length + _ + _ ≤ S
            omega
        · simp only [Conf.goto, Conf.setThread, if_true, threadWork, phaseWork, hn, ht, List.map_cons, List.sum_cons, opWork]
          omega
  · have hnosw : ∀ th : Thread, isSwap th.now = false → t ≠ 0 → isSwap th.now = false := fun _ h _ => h
    rcases ph with ⟨ls, ps, rest, f⟩ | ⟨q, a, b⟩ | ⟨q, a, b, m⟩ | ⟨q, a, b, ids, m⟩ | ⟨lo, hi⟩ | ⟨lo, hi⟩
    · have hsec0 : holdsSec (c.threads t).now = false := by rw [hn]; rfl
      have hcur0 : holdsCur (c.threads t).now = true := by rw [hn]; rfl
      simp only [Conf.stepWrite, hk]
      rcases rest with _ | ⟨p, rest⟩
      · simp only []
        refine ⟨?_, fun _ => ?_, by simp⟩
        · refine h.thread t ⟨(c.threads t).todo, none, (c.threads t).done ++ [.wrote ls ps (if f = 0 then .ok () else .err .internal) k.start_ k.end_]⟩ ?_ h.heap (le_refl _)
            (fun u => cur_drop h.curR rfl u) (fun u => sec_keep h.secR (by rw [hsec0]; rfl) u) (fun _ => rfl) (List.suffix_refl _)
            h.sec (by simp) (h.count_same (by simp [swapsNow]) (le_refl _))
          intro u; by_cases hu : u = t <;> simp [Conf.finish, Conf.setThread, Conf.dropCur, hu]
        · simp only [Conf.finish, Conf.setThread, Conf.dropCur, if_true, threadWork, phaseWork, hn]
          omega
      · simp only []
        rcases hkk : k.insert C ls p with ⟨r, k'⟩
        rcases r with _ | e | _
        · refine ⟨?_, fun _ => ?_, by simp⟩
          · refine h.thread t ⟨(c.threads t).todo, some (.writing ls ps rest f), (c.threads t).done⟩ ?_ (by simpa [Conf.goto, Conf.setThread] using h.heap) (by simp [Conf.goto, Conf.setThread])
              (fun u => cur_same h.curR (by rw [hcur0]; rfl) u) (fun u => sec_keep h.secR (by rw [hsec0]; rfl) u) (fun _ => rfl) (List.suffix_refl _)
              (by simpa [Conf.goto, Conf.setThread] using h.sec) (by simp) (h.count_same (by simp [swapsNow]) (le_refl _))
            intro u; by_cases hu : u = t <;> simp [Conf.goto, Conf.setThread, hu]
          · simp only [Conf.goto, Conf.setThread, if_true, threadWork, phaseWork, hn, List.length_cons]
            omega
        · refine ⟨?_, fun _ => ?_, by simp⟩
          · refine h.thread t ⟨(c.threads t).todo, some (.writing ls ps rest (f + 1)), (c.threads t).done⟩ ?_ (by simpa [Conf.goto, Conf.setThread] using h.heap) (by simp [Conf.goto, Conf.setThread])
              (fun u => cur_same h.curR (by rw [hcur0]; rfl) u) (fun u => sec_keep h.secR (by rw [hsec0]; rfl) u) (fun _ => rfl) (List.suffix_refl _)
              (by simpa [Conf.goto, Conf.setThread] using h.sec) (by simp) (h.count_same (by simp [swapsNow]) (le_refl _))
            intro u; by_cases hu : u = t <;> simp [Conf.goto, Conf.setThread, hu]
          · simp only [Conf.goto, Conf.setThread, if_true, threadWork, phaseWork, hn, List.length_cons]
            omega
        · refine ⟨?_, fun _ => ?_, by simp⟩
          · refine h.thread t ⟨(c.threads t).todo, none, (c.threads t).done ++ [.wrote ls ps .panic k.start_ k.end_]⟩ ?_ (by simpa [Conf.finish, Conf.setThread, Conf.dropCur] using h.heap) (by simp [Conf.finish, Conf.setThread, Conf.dropCur])
              (fun u => cur_drop h.curR rfl u) (fun u => sec_keep h.secR (by rw [hsec0]; rfl) u) (fun _ => rfl) (List.suffix_refl _)
              (by simpa [Conf.finish, Conf.setThread, Conf.dropCur] using h.sec) (by simp) (h.count_same (by simp [swapsNow]) (le_refl _))
            intro u; by_cases hu : u = t <;> simp [Conf.finish, Conf.setThread, Conf.dropCur, hu]
          · simp only [Conf.finish, Conf.setThread, Conf.dropCur, if_true, threadWork, phaseWork, hn, List.length_cons]
            omega
    · have hsec0 : holdsSec (c.threads t).now = false := by rw [hn]; rfl
      simp only [Conf.stepQ1, hk]
      rcases queryCurrent H (k.view C) q a b with _ | m
      · refine ⟨?_, fun _ => ?_, by simp⟩
        · refine h.thread t ⟨(c.threads t).todo, none, (c.threads t).done ++ [.answered q a b .panic]⟩ ?_ h.heap (le_refl _)
            (fun u => cur_drop h.curR rfl u) (fun u => sec_keep h.secR (by rw [hsec0]; rfl) u) (fun _ => rfl) (List.suffix_refl _)
            h.sec (by simp) (h.count_same (by simp [swapsNow]) (le_refl _))
          intro u; by_cases hu : u = t <;> simp [Conf.finish, Conf.setThread, Conf.dropCur, hu]
        · simp only [Conf.finish, Conf.setThread, Conf.dropCur, if_true, threadWork, phaseWork, hn]
          omega
      · refine ⟨?_, fun _ => ?_, by simp⟩
        · refine h.thread t ⟨(c.threads t).todo, some (.q2 q a b m), (c.threads t).done⟩ ?_ h.heap (le_refl _)
            (fun u => cur_drop h.curR rfl u) (fun u => sec_keep h.secR (by rw [hsec0]; rfl) u) (fun _ => rfl) (List.suffix_refl _)
            h.sec (by simp) (h.count_same (by simp [swapsNow]) (le_refl _))
          intro u; by_cases hu : u = t <;> simp [Conf.goto, Conf.setThread, Conf.dropCur, hu]
        · simp only [Conf.goto, Conf.setThread, Conf.dropCur, if_true, threadWork, phaseWork, hn]
          omega
    · have hcur0 : holdsCur (c.threads t).now = false := by rw [hn]; rfl
      have hl : c.secondary.length ≤ S := by have := h.count; omega
      refine ⟨?_, fun _ => ?_, by simp⟩
      · refine h.thread t ⟨(c.threads t).todo, some (.q3 q a b c.secondary.reverse m), (c.threads t).done⟩ ?_ h.heap (le_refl _)
          (fun u => cur_same h.curR (by rw [hcur0]; rfl) u) (fun u => sec_add h.secR rfl u) (fun _ => rfl) (List.suffix_refl _)
          h.sec ?_ (h.count_same (by simp [swapsNow]) (le_refl _))
        · intro u; by_cases hu : u = t <;> simp [Conf.goto, Conf.setThread, hu]
        · intro q' a' b' ids m' e
          simp only [Option.some.injEq, Phase.q3.injEq] at e
          obtain ⟨-, -, -, rfl, -⟩ := e
          exact ⟨fun i hi => h.sec i (List.mem_reverse.mp hi), by rw [List.length_reverse]; exact hl⟩
      · simp only [Conf.goto, Conf.setThread, if_true, threadWork, phaseWork, hn, List.length_reverse]
        omega
    · have hcur0 : holdsCur (c.threads t).now = false := by rw [hn]; rfl
      have hsec0 : holdsSec (c.threads t).now = true := by rw [hn]; rfl
      obtain ⟨hid, hidl⟩ := h.ids t q a b ids m hn
      rcases ids with _ | ⟨i, ids⟩
      · simp only [Conf.stepQ3]
        refine ⟨?_, fun _ => ?_, by simp⟩
        · refine h.thread t ⟨(c.threads t).todo, none, (c.threads t).done ++ [.answered q a b (Res.ofPanic (collectKeys H m (H.order (m.map (·.1)))))]⟩ ?_ h.heap (le_refl _)
            (fun u => cur_same h.curR (by rw [hcur0]; rfl) u) (fun u => sec_drop h.secR rfl u) (fun _ => rfl) (List.suffix_refl _)
            h.sec (by simp) (h.count_same (by simp [swapsNow]) (le_refl _))
          intro u; by_cases hu : u = t <;> simp [Conf.finish, Conf.setThread, Conf.dropSec, hu]
        · simp only [Conf.finish, Conf.setThread, Conf.dropSec, if_true, threadWork, phaseWork, hn]
          omega
      · obtain ⟨k', hk'⟩ : ∃ k', c.heap[i]? = some k' := ⟨_, List.getElem?_eq_getElem (hid i (by simp))⟩
        simp only [Conf.stepQ3, hk']
        rcases querySecondary H q a b [k'.view C] m with _ | m'
        · refine ⟨?_, fun _ => ?_, by simp⟩
          · refine h.thread t ⟨(c.threads t).todo, none, (c.threads t).done ++ [.answered q a b .panic]⟩ ?_ h.heap (le_refl _)
              (fun u => cur_same h.curR (by rw [hcur0]; rfl) u) (fun u => sec_drop h.secR rfl u) (fun _ => rfl) (List.suffix_refl _)
              h.sec (by simp) (h.count_same (by simp [swapsNow]) (le_refl _))
            intro u; by_cases hu : u = t <;> simp [Conf.finish, Conf.setThread, Conf.dropSec, hu]
          · simp only [Conf.finish, Conf.setThread, Conf.dropSec, if_true, threadWork, phaseWork, hn, List.length_cons]
            omega
        · refine ⟨?_, fun _ => ?_, by simp⟩
          · refine h.thread t ⟨(c.threads t).todo, some (.q3 q a b ids m'), (c.threads t).done⟩ ?_ h.heap (le_refl _)
              (fun u => cur_same h.curR (by rw [hcur0]; rfl) u) (fun u => sec_keep h.secR (by rw [hsec0]; rfl) u) (fun _ => rfl) (List.suffix_refl _)
              h.sec ?_ (h.count_same (by simp [swapsNow]) (le_refl _))
            · intro u; by_cases hu : u = t <;> simp [Conf.goto, Conf.setThread, hu]
            · intro q' a' b' ids' m'' e
              simp only [Option.some.injEq, Phase.q3.injEq] at e
              obtain ⟨-, -, -, rfl, -⟩ := e
              simp only [List.length_cons] at hidl
              exact ⟨fun j hj => hid j (by simp [hj]), by omega⟩
          · simp only [Conf.goto, Conf.setThread, if_true, threadWork, phaseWork, hn, List.length_cons]
            omega
    · have ht0 : t = 0 := by
        by_contra h0
        have := (h.swaps t h0).1
        rw [hn] at this; cases this
      subst ht0
      have hsec0 : holdsSec (c.threads 0).now = false := by rw [hn]; rfl
      simp only []
      by_cases hs : c.secR = []
      · rw [if_neg (by simp [hs])]
        refine ⟨?_, fun _ => ?_, fun h' => absurd hs h'⟩
        · refine h.thread 0 ⟨(c.threads 0).todo, some (.s2 lo hi), (c.threads 0).done⟩ ?_ h.heap (le_refl _)
            (fun u => cur_drop h.curR rfl u) (fun u => sec_keep h.secR (by rw [hsec0]; rfl) u) (fun h0 => absurd rfl h0) (List.suffix_refl _)
            ?_ (by simp) ?_
          · intro u; by_cases hu : u = 0 <;> simp [Conf.goto, Conf.setThread, Conf.dropCur, hu]
          · intro i hi
            rcases List.mem_append.mp hi with hi | hi
            · exact h.sec i hi
            · rw [List.mem_singleton.mp hi]; exact h.heap
          · have := h.count
            rw [hn] at this
            simp only [swapsNow] at this
            simp only [Conf.goto, Conf.setThread, Conf.dropCur, if_true, swapsNow, List.length_append, List.length_singleton]
            omega
        · simp only [Conf.goto, Conf.setThread, Conf.dropCur, if_true, threadWork, phaseWork, hn]
          omega
      · rw [if_pos hs]
        exact ⟨h, fun h' => absurd h' hs, fun _ => rfl⟩
    · have ht0 : t = 0 := by
        by_contra h0
        have := (h.swaps t h0).1
        rw [hn] at this; cases this
      subst ht0
      have hsec0 : holdsSec (c.threads 0).now = false := by rw [hn]; rfl
      have hcur0 : holdsCur (c.threads 0).now = false := by rw [hn]; rfl
      simp only [Conf.stepS2]
      by_cases hs : c.curR = []
      · rw [if_neg (by simp [hs]), hk]
        refine ⟨?_, fun _ => ?_, fun h' => absurd hs h'⟩
        · refine h.thread 0 ⟨(c.threads 0).todo, none, (c.threads 0).done ++ [.swapped lo hi]⟩ ?_ ?_ ?_
            (fun u => cur_same h.curR (by rw [hcur0]; rfl) u) (fun u => sec_keep h.secR (by rw [hsec0]; rfl) u) (fun h0 => absurd rfl h0) (List.suffix_refl _)
            ?_ (by simp) (h.count_same (by simp [swapsNow]) (le_refl _))
          · intro u; by_cases hu : u = 0 <;> simp [Conf.finish, Conf.setThread, hu]
          · simp [Conf.finish, Conf.setThread]
          · simp [Conf.finish, Conf.setThread]
          · intro i hi
            have := h.sec i hi
            simp only [Conf.finish, Conf.setThread, List.length_append, List.length_set, List.length_singleton]
            omega
        · simp only [Conf.finish, Conf.setThread, if_true, threadWork, phaseWork, hn]
          omega
      · rw [if_pos hs]
        exact ⟨h, fun h' => absurd h' hs, fun _ => rfl⟩

end Verif
