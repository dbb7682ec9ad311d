import Verif.Model.Cluster
import Verif.Lemmas.Bits
/-! Every step of a database is at most one elementary operation on the stores of one chunk. -/
namespace Verif

/-- At most one `put` of one key. -/
def Elem (K : Kit) (s s' : SledStores) : Prop :=
  s' = s ∨ (∃ k v, s' = { s with idx := s.idx.set k v }) ∨ ∃ i v, s' = { s with ser := s.ser.set (K.key i) v }

/-- All operations of a process are elementary. -/
def Proc.Elems {α : Type} (K : Kit) : Proc SChunk α → Prop
  | .ret _ => True
  | .act u k => (∀ c : SChunk, Elem K c.store (u c).store) ∧ ∀ c, (k c).Elems K

theorem elems_get {α β : Type} {K : Kit} {f : SChunk → α} {k : α → Proc SChunk β} (h : ∀ a, (k a).Elems K) : (Proc.get f k).Elems K :=
  ⟨fun _ => Or.inl rfl, fun _ => h _⟩

theorem elems_idx {β : Type} {K : Kit} {x v : Str} {k : Proc SChunk β} (h : k.Elems K) : (Proc.put (fun c : SChunk => c.setIdx x v) k).Elems K :=
  ⟨fun _ => Or.inr (Or.inl ⟨x, v, rfl⟩), fun _ => h⟩

theorem elems_ser {β : Type} {K : Kit} {i : U64} {v : Str} {k : Proc SChunk β} (h : k.Elems K) : (Proc.put (fun c : SChunk => c.setSer (K.key i) v) k).Elems K :=
  ⟨fun _ => Or.inr (Or.inr ⟨i, v, rfl⟩), fun _ => h⟩

theorem elems_labels {K : Kit} {i : U64} {k : Proc SChunk (Res Unit)} (h : k.Elems K) : ∀ ls, (kitCreateLabels K i k ls).Elems K := by
  intro ls
  induction ls with
  | nil => exact h
  | cons l ls ih => exact elems_get fun _ => elems_idx ih

theorem elems_create {K : Kit} {ls : Labels} {i : U64} {k : Proc SChunk (Res Unit)} (h : k.Elems K) : (kitCreate K ls i k).Elems K := by
  unfold kitCreate
  cases K.ix with
  | sled =>
    refine elems_get fun d => ?_
    split
    · exact trivial
    · exact elems_idx (elems_idx (elems_labels h _))
  | tikv => exact elems_idx (elems_idx (elems_labels h _))

theorem elems_panic {K : Kit} : kitPanic.Elems K := ⟨fun _ => Or.inl rfl, fun _ => trivial⟩

theorem elems_write {K : Kit} {i : U64} {p : TimePoint} {f : Res Unit → Res Unit} : (kitWrite K i p f).Elems K := by
  refine elems_get fun v => ?_
  rcases K.append p v with v' | e | _
  · exact elems_ser trivial
  · exact trivial
  · exact elems_panic

theorem elems_insert (K : Kit) (w : Labels × TimePoint) : (kitInsert K w).Elems K := by
  refine elems_get fun st => ?_
  split
  · exact trivial
  · split
    · refine elems_get fun r => ?_
      rcases r with (_ | i) | e | _
      · exact ⟨fun _ => Or.inl rfl, fun _ => elems_create elems_write⟩
      · exact elems_write
      · exact trivial
      · exact elems_panic
    · exact trivial

theorem elems_contains {β : Type} {K : Kit} {k : Res (List (List U64)) → Proc SChunk β} (h : ∀ r, (k r).Elems K) : ∀ ls acc, (kitContains K k ls acc).Elems K := by
  intro ls
  induction ls with
  | nil => intro acc; exact h _
  | cons l ls ih =>
    intro acc
    refine elems_get fun r => ?_
    rcases r with (_ | ts) | e | _
    · exact ih _
    · exact ih _
    · exact h _
    · exact h _

theorem elems_meta {β : Type} {K : Kit} {k : Res (List (U64 × Labels)) → Proc SChunk β} (h : ∀ r, (k r).Elems K) : ∀ ls acc, (kitMeta K k ls acc).Elems K := by
  intro ls
  induction ls with
  | nil => intro acc; exact h _
  | cons l ls ih =>
    intro acc
    refine elems_get fun r => ?_
    rcases r with (_ | ts) | e | _
    · exact ih _
    · exact ih _
    · exact h _
    · exact h _

theorem elems_read {K : Kit} {a b : U64} : ∀ ls acc, (kitRead K a b ls acc).Elems K := by
  intro ls
  induction ls with
  | nil => intro acc; exact trivial
  | cons l ls ih =>
    intro acc
    obtain ⟨i, l⟩ := l
    refine elems_get fun r => ?_
    rcases r with d | e | _
    · exact ih _
    · exact trivial
    · exact trivial

theorem elems_query (K : Kit) (q : Labels) (a b : U64) : (kitQuery K q a b).Elems K := by
  refine elems_get fun st => ?_
  split
  · refine elems_contains (fun r => ?_) _ _
    rcases r with ts | e | _
    · refine elems_meta (fun r => ?_) _ _
      rcases r with ts | e | _
      · exact elems_read _ _
      · exact trivial
      · exact trivial
    · exact trivial
    · exact trivial
  · exact trivial

/-- What is left of the chunk query a thread is in consists of elementary operations. -/
def FPhase.Elems (K : Kit) : FPhase → Prop
  | .reading1 _ _ _ p => p.Elems K
  | .reading3 _ _ _ _ _ _ p => p.Elems K
  | _ => True

/-- What is under way in a database consists of elementary operations. -/
structure ElemConf (K : Kit) (c : FConf) : Prop where
  lock : ∀ (i : Nat) (S : FChunk) h w p, c.chunks[i]? = some S → S.lock = some (h, w, p) → p.Elems K
  thr : ∀ t ph, (c.threads t).now = some ph → ph.Elems K

/-- What a step does to the stores of the chunks. -/
structure Moved (K : Kit) (c c' : FConf) : Prop where
  le : c.chunks.length ≤ c'.chunks.length
  fresh : ∀ (i : Nat) (S : FChunk), c.chunks.length ≤ i → c'.chunks[i]? = some S → S.store.store = ⟨KV.empty, KV.empty⟩
  one : ∃ j : Nat, (∀ (i : Nat) (S S' : FChunk), i ≠ j → c.chunks[i]? = some S → c'.chunks[i]? = some S' → S'.store.store = S.store.store) ∧
    ∀ S S' : FChunk, c.chunks[j]? = some S → c'.chunks[j]? = some S' → Elem K S.store.store S'.store.store

theorem Moved.same {K : Kit} {c c' : FConf} (h : c'.chunks = c.chunks) : Moved K c c' where
  le := by rw [h]
  fresh i S hi hS := by
    rw [h] at hS
    have := (List.getElem?_eq_some_iff.mp hS).1
    omega
  one := ⟨0, fun i S S' _ e e' => by rw [h, e] at e'; cases e'; rfl, fun S S' e e' => by rw [h, e] at e'; cases e'; exact Or.inl rfl⟩

theorem Moved.set {K : Kit} {c c' : FConf} {j : Nat} {S1 S1' : FChunk} (hj : c.chunks[j]? = some S1) (h : c'.chunks = c.chunks.set j S1')
    (he : Elem K S1.store.store S1'.store.store) : Moved K c c' where
  le := by rw [h]; simp
  fresh i S hi hS := by
    rw [h] at hS
    have := (List.getElem?_eq_some_iff.mp hS).1
    simp at this
    omega
  one := by
    refine ⟨j, fun i S S' hij e e' => ?_, fun S S' e e' => ?_⟩
    · rw [h, List.getElem?_set_ne (Ne.symm hij), e] at e'
      cases e'
      rfl
    · have hl := (List.getElem?_eq_some_iff.mp hj).1
      rw [h, List.getElem?_set_self hl] at e'
      rw [hj] at e
      cases e
      cases e'
      exact he

theorem Moved.new {K : Kit} {c c' : FConf} {S1 : FChunk} (h : c'.chunks = c.chunks ++ [S1]) (hs : S1.store.store = ⟨KV.empty, KV.empty⟩) : Moved K c c' where
  le := by rw [h]; simp
  fresh i S hi hS := by
    rw [h, List.getElem?_append_right hi] at hS
    rcases hk : i - c.chunks.length with _ | k
    · rw [hk] at hS
      simp only [List.getElem?_cons_zero, Option.some.injEq] at hS
      subst hS
      exact hs
    · rw [hk] at hS
      simp at hS
  one := by
    refine ⟨0, fun i S S' _ e e' => ?_, fun S S' e e' => ?_⟩
    · rw [h, List.getElem?_append_left (List.getElem?_eq_some_iff.mp e).1, e] at e'
      cases e'
      rfl
    · rw [h, List.getElem?_append_left (List.getElem?_eq_some_iff.mp e).1, e] at e'
      cases e'
      exact Or.inl rfl

theorem ElemConf.goto {K : Kit} {c : FConf} (h : ElemConf K c) (t : Nat) {ph : FPhase} (hp : ph.Elems K) : ElemConf K (c.goto t ph) where
  lock := h.lock
  thr u ph' e := by
    by_cases hu : u = t
    · subst hu
      simp only [FConf.goto, FConf.setThread, if_true, Option.some.injEq] at e
      subst e
      exact hp
    · exact h.thr u ph' (by simpa [FConf.goto, FConf.setThread, hu] using e)

theorem ElemConf.finish {K : Kit} {c : FConf} (h : ElemConf K c) (t : Nat) {o : Out} : ElemConf K (c.finish t o) where
  lock := h.lock
  thr u ph' e := by
    by_cases hu : u = t
    · subst hu
      simp [FConf.finish, FConf.setThread] at e
    · exact h.thr u ph' (by simpa [FConf.finish, FConf.setThread, hu] using e)

theorem ElemConf.set {K : Kit} {c : FConf} (h : ElemConf K c) (i : Nat) {S' : FChunk} (hS : ∀ x w p, S'.lock = some (x, w, p) → p.Elems K) :
    ElemConf K (c.setChunk i S') where
  lock j S x w p e1 e2 := by
    by_cases hij : j = i
    · subst hij
      have hl : j < c.chunks.length := by
        have := (List.getElem?_eq_some_iff.mp e1).1
        simpa [FConf.setChunk] using this
      simp only [FConf.setChunk, List.getElem?_set_self hl, Option.some.injEq] at e1
      subst e1
      exact hS _ _ _ e2
    · exact h.lock j S x w p (by simpa [FConf.setChunk, List.getElem?_set_ne (Ne.symm hij)] using e1) e2
  thr := h.thr

theorem beginQuery_elems {K : Kit} {S : FChunk} {q : Labels} {a b : U64} {p : Proc SChunk (Res (List Series))} (h : FChunk.beginQuery K S q a b = some p) :
    p.Elems K := by
  unfold FChunk.beginQuery at h
  generalize S.lock = lk at h
  rcases lk with _ | x
  · simp only [Option.some.injEq] at h
    subst h
    split
    · exact trivial
    · exact elems_query _ _ _ _
  · simp at h

theorem fstep_moved {K : Kit} {H : Hash} {c : FConf} (h : ElemConf K c) (t : Nat) : Moved K c (c.step K H t) ∧ ElemConf K (c.step K H t) := by
  unfold FConf.step
  rcases hn : (c.threads t).now with _ | ph
  · unfold FConf.begin
    rcases (c.threads t).todo with _ | ⟨op, todo⟩
    · exact ⟨.same rfl, h⟩
    · rcases hS : c.chunks[c.current]? with _ | S
      · exact ⟨.same rfl, h⟩
      · have h' : ElemConf K { c.setThread t { c.threads t with todo := todo } with curR := t :: c.curR } := by
          refine ⟨h.lock, fun u ph e => h.thr u ph ?_⟩
          by_cases hu : u = t
          · subst hu; simpa [FConf.setThread] using e
          · simpa [FConf.setThread, hu] using e
        cases op with
        | write ls ps => exact ⟨.same rfl, h'.goto t trivial⟩
        | query q a b => exact ⟨.same rfl, h'.goto t trivial⟩
        | swap lo hi => exact ⟨.same rfl, h'.goto t trivial⟩
  · have hph := h.thr t ph hn
    cases ph with
    | writing ls ps rest fails =>
      simp only []
      unfold FConf.stepWriting
      rcases hS : c.chunks[c.current]? with _ | S
      · exact ⟨.same rfl, h⟩
      · cases rest with
        | nil => exact ⟨.same rfl, ElemConf.finish (c := c.dropCur t) ⟨h.lock, h.thr⟩ t⟩
        | cons p rest =>
          simp only []
          rcases hl : S.lock with _ | x
          · simp only []
            refine ⟨.set hS rfl (Or.inl rfl), ElemConf.goto ?_ t trivial⟩
            have := h.set c.current (S' := { S with lock := some (t, (ls, p), (kitInsert K) (ls, p)) }) (by
              intro x w q e
              simp only [Option.some.injEq, Prod.mk.injEq] at e
              rw [← e.2.2]
              exact elems_insert _ _)
            exact ⟨this.lock, this.thr⟩
          · exact ⟨.same rfl, h⟩
    | inserting ls ps p rest fails =>
      simp only []
      unfold FConf.stepInserting
      rcases hS : c.chunks[c.current]? with _ | S
      · exact ⟨.same rfl, h⟩
      · simp only []
        rcases hl : S.lock with _ | ⟨x, w, pr⟩
        · exact ⟨.same rfl, h⟩
        · simp only []
          split
          · have hpr := h.lock _ S x w pr hS hl
            cases pr with
            | act u k =>
              refine ⟨.set hS rfl (hpr.1 S.store), h.set c.current ?_⟩
              intro x w q e
              simp only [Option.some.injEq, Prod.mk.injEq] at e
              rw [← e.2.2]
              exact hpr.2 _
            | ret r =>
              have h' := h.set c.current (S' := { S with lock := none, finished := S.finished ++ [(t, w, r)] }) (by intro x w q e; simp at e)
              rcases r with _ | e | _
              · exact ⟨.set hS rfl (Or.inl rfl), h'.goto t trivial⟩
              · exact ⟨.set hS rfl (Or.inl rfl), h'.goto t trivial⟩
              · exact ⟨.set hS rfl (Or.inl rfl), ElemConf.finish (by exact ⟨h'.lock, h'.thr⟩) t⟩
          · exact ⟨.same rfl, h⟩
    | q1 q a b =>
      simp only []
      unfold FConf.stepQ1
      rcases hS : c.chunks[c.current]? with _ | S
      · exact ⟨.same rfl, h⟩
      · simp only []
        rcases hq : FChunk.beginQuery K S q a b with _ | p
        · exact ⟨.same rfl, h⟩
        · exact ⟨.same rfl, h.goto t (beginQuery_elems hq)⟩
    | reading1 q a b p =>
      simp only []
      unfold FConf.stepReading1
      cases p with
      | act u k =>
        simp only []
        rcases hS : c.chunks[c.current]? with _ | S
        · exact ⟨.same rfl, h⟩
        · refine ⟨.set hS rfl (hph.1 S.store), ?_⟩
          simp only []
          refine ElemConf.goto (h.set c.current ?_) t (hph.2 _)
          exact fun x w p e => h.lock _ S x w p hS e
      | ret r =>
        simp only []
        rcases queryCurrent H (viewOf r) q a b with _ | m
        · exact ⟨.same rfl, ElemConf.finish (c := c.dropCur t) ⟨h.lock, h.thr⟩ t⟩
        · exact ⟨.same rfl, ElemConf.goto (c := c.dropCur t) ⟨h.lock, h.thr⟩ t trivial⟩
    | q2 q a b m => exact ⟨.same rfl, ElemConf.goto (ph := _) (by exact ⟨h.lock, h.thr⟩) t (by exact trivial)⟩
    | q3 q a b ids m =>
      simp only []
      unfold FConf.stepQ3
      cases ids with
      | nil => exact ⟨.same rfl, ElemConf.finish (c := c.dropSec t) ⟨h.lock, h.thr⟩ t⟩
      | cons i ids =>
        simp only []
        rcases hS : c.chunks[i]? with _ | S
        · exact ⟨.same rfl, h⟩
        · simp only []
          split
          · rcases hq : FChunk.beginQuery K S q a b with _ | p
            · exact ⟨.same rfl, h⟩
            · exact ⟨.same rfl, h.goto t (beginQuery_elems hq)⟩
          · exact ⟨.same rfl, h.goto t trivial⟩
    | reading3 q a b i ids m p =>
      simp only []
      unfold FConf.stepReading3
      cases p with
      | act u k =>
        simp only []
        rcases hS : c.chunks[i]? with _ | S
        · exact ⟨.same rfl, h⟩
        · refine ⟨.set hS rfl (hph.1 S.store), ?_⟩
          simp only []
          refine ElemConf.goto (h.set i ?_) t (hph.2 _)
          exact fun x w p e => h.lock _ S x w p hS e
      | ret r =>
        simp only []
        rcases querySecondary H q a b [viewOf r] m with _ | m
        · exact ⟨.same rfl, ElemConf.finish (c := c.dropSec t) ⟨h.lock, h.thr⟩ t⟩
        · exact ⟨.same rfl, h.goto t trivial⟩
    | s1 lo hi =>
      simp only []
      split
      · exact ⟨.same rfl, h⟩
      · exact ⟨.same rfl, ElemConf.goto (ph := _) (by exact ⟨h.lock, h.thr⟩) t (by exact trivial)⟩
    | s2 lo hi =>
      simp only []
      unfold FConf.stepS2
      split
      · exact ⟨.same rfl, h⟩
      · rcases hS : c.chunks[c.current]? with _ | S
        · exact ⟨.same rfl, h⟩
        · simp only []
          rcases S.lock with _ | x
          · refine ⟨.new rfl rfl, ?_⟩
            simp only []
            refine ElemConf.finish (c := { c with chunks := c.chunks ++ [_], closed := _, current := _ }) ⟨fun i S x w p e1 e2 => ?_, h.thr⟩ t
            by_cases hi' : i < c.chunks.length
            · exact h.lock i S x w p (by simpa [List.getElem?_append_left hi'] using e1) e2
            · simp only [List.getElem?_append_right (Nat.le_of_not_lt hi')] at e1
              generalize i - c.chunks.length = j at e1
              rcases j with _ | k
              · simp only [List.getElem?_cons_zero, Option.some.injEq] at e1
                subst e1
                simp [Sys.init] at e2
              · simp at e1
          · exact ⟨.same rfl, h⟩

end Verif
