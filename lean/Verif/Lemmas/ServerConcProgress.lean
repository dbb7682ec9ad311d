import Verif.Lemmas.ServerConcAns
/-! Every request is answered. -/
namespace Verif
open List

/-- No call is a swap. -/
inductive Calls.Clean {α : Type} : Calls α → Prop
  | done (a : α) : Clean (.done a)
  | call {op : DbOp} {k : Out → Calls α} (h : op.isSwap = false) (hk : ∀ o, Clean (k o)) : Clean (.call op k)

theorem readCalls_clean (F : Formats) (qs : List PQuery) : ∀ acc, (readCalls F acc qs).Clean := by
  induction qs with
  | nil => intro acc; exact .done _
  | cons q qs ih =>
    intro acc
    refine .call rfl fun o => ?_
    split
    · exact ih _
    · exact ih _
    · exact .done _

theorem writeCalls_clean (ss : List PSeries) : (writeCalls ss).Clean := by
  induction ss with
  | nil => exact .done _
  | cons s ss ih =>
    refine .call rfl fun o => ?_
    split
    · exact ih
    · exact .done _
    · exact .done _

theorem requestCalls_clean (F : Formats) (P : Paths) (r : Request) : (requestCalls F P r).Clean := by
  unfold requestCalls
  split
  · exact .done _
  · split
    · exact .done _
    · split
      · split
        · exact .done _
        · split
          · exact .done _
          · exact readCalls_clean _ _ _
      · split
        · exact writeCalls_clean _
        · exact .done _

/-- What is left of a request after a call. -/
inductive Sub : Option (Calls (Option Response)) → Option (Calls (Option Response)) → Prop
  | mk (op : DbOp) (k : Out → Calls (Option Response)) (o : Out) : Sub (some (k o)) (some (.call op k))

theorem Sub.wf : WellFounded Sub := by
  refine ⟨fun p => ?_⟩
  rcases p with _ | p
  · exact ⟨_, fun y hy => by cases hy⟩
  · induction p with
    | done a => exact ⟨_, fun y hy => by cases hy⟩
    | call op k ih => exact ⟨_, fun y hy => by cases hy; exact ih _⟩

/-- The database, with the call that is about to be made. -/
def SrvConf.intent (c : SrvConf) : FConf :=
  match (c.db.threads 1).now, c.now with
  | none, some (.call op _) => c.db.withTodo [op]
  | _, _ => c.db

abbrev Measure := Nat × Option (Calls (Option Response)) × (Nat × Option (Proc SChunk (Res Unit)) × Option (Proc SChunk (Res (List Series)))) ×
  (Nat × Option (Proc SChunk (Res Unit)) × Option (Proc SChunk (Res (List Series))))

/-- What is left to do. -/
def SrvConf.left (M : Nat) (c : SrvConf) : Measure := (2 * c.queue.length + c.now.toList.length, c.now, c.intent.left M 1, c.intent.left M 0)

def SrvLess : Measure → Measure → Prop := Prod.Lex (· < ·) (Prod.Lex Sub (Prod.Lex Less Less))
theorem SrvLess.wf : WellFounded SrvLess := WellFounded.prod_lex Nat.lt_wfRel.wf (WellFounded.prod_lex Sub.wf (WellFounded.prod_lex Less.wf Less.wf))

structure PInv (M : Nat) (n : Nat) (c : SrvConf) : Prop where
  lk : LK M c.db
  todo : (c.db.threads 1).todo = []
  others : ∀ t, t ≠ 0 → t ≠ 1 → (c.db.threads t).finished
  clean : ∀ p, c.now = some p → p.Clean
  call : (c.db.threads 1).now ≠ none → ∃ op k, c.now = some (.call op k)
  count : c.sent.length + c.now.toList.length + c.queue.length = n

section
variable {B : Kit} {H : Hash} {F : Formats} {P : Paths} {M n : Nat} {c : SrvConf}

theorem LK.withTodo {M : Nat} {c : FConf} (h : LK M c) {op : DbOp} (ho : op.isSwap = false) : LK M (c.withTodo [op]) := by
  have e : ∀ t, ((c.withTodo [op]).threads t).now = (c.threads t).now := fun t => withTodo_now c t
  refine ⟨h.heap, fun t => by rw [e]; exact h.curR t, fun t => by rw [e]; exact h.secR t, fun u hu => ⟨by rw [e]; exact (h.swaps u hu).1, ?_⟩, h.sec,
    fun t => by rw [e]; exact h.ids t, by rw [withTodo_other c (by decide : (0 : Nat) ≠ 1)]; exact h.count, fun i x hx => by rw [e]; exact h.lock i x hx,
    fun u hu => h.held u (by rw [e] at hu; exact hu)⟩
  intro lo hi
  by_cases h1 : u = 1
  · subst h1
    have : ((c.withTodo [op]).threads 1).todo = [op] := by simp [FConf.withTodo, FConf.setThread]
    rw [this, List.mem_singleton]
    rintro rfl; cases ho
  · rw [withTodo_other c h1]; exact (h.swaps u hu).2 lo hi

theorem withTodo_left {M : Nat} {c : FConf} {l : List DbOp} : (c.withTodo l).left M 0 = c.left M 0 := by
  unfold FConf.left
  rw [withTodo_other c (by decide : (0 : Nat) ≠ 1)]
  rfl

theorem intent_now (t : Nat) : (c.intent.threads t).now = (c.db.threads t).now := by
  unfold SrvConf.intent
  split
  · exact withTodo_now _ _
  · rfl

theorem PInv.lkI (h : PInv M n c) : LK M c.intent := by
  unfold SrvConf.intent
  split
  next op k _ hc =>
    have := h.clean _ hc
    cases this with
    | call ho _ => exact h.lk.withTodo ho
  · exact h.lk

theorem intent_left : c.intent.left M 0 = c.db.left M 0 := by
  unfold SrvConf.intent
  split
  · exact withTodo_left
  · rfl

theorem intent_some (h : (c.db.threads 1).now ≠ none) : c.intent = c.db := by
  unfold SrvConf.intent
  split
  next h' _ => exact absurd h' h
  · rfl

theorem resume_same (h : (c.db.threads 1).now ≠ none) : c.resume = c := by
  unfold SrvConf.resume
  split
  next h' _ _ => exact absurd h' h
  · rfl

theorem begin_now {c : FConf} {op : DbOp} (hc : c.current < c.chunks.length) (hn : (c.threads 1).now = none) :
    (((c.withTodo [op]).step B H 1).threads 1).now ≠ none ∧ (((c.withTodo [op]).step B H 1).threads 1).todo = [] := by
  obtain ⟨S, hS⟩ : ∃ S, c.chunks[c.current]? = some S := ⟨_, List.getElem?_eq_getElem hc⟩
  have e1 : ((c.withTodo [op]).threads 1).todo = [op] := by simp [FConf.withTodo, FConf.setThread]
  have e2 : (c.withTodo [op]).chunks[(c.withTodo [op]).current]? = some S := hS
  unfold FConf.step
  rw [withTodo_now, hn]
  simp only []
  unfold FConf.begin
  rw [e1, e2]
  cases op <;> simp [FConf.goto, FConf.setThread]

/-- Steps keep the invariant; a step that does something leaves less to do. -/
theorem PInv.step (h : PInv M n c) (t : Nat) : PInv M n (c.step B H F P t) ∧ (c.step B H F P t = c ∨ SrvLess ((c.step B H F P t).left M) (c.left M)) := by
  unfold SrvConf.step
  split
  · exact ⟨h, Or.inl rfl⟩
  split
  · -- the timer
    have hl := fstep_lk (B := B) (H := H) h.lk 0
    have o1 : ∀ u, u ≠ 0 → (c.db.step B H 0).threads u = c.db.threads u := fun u hu => step_fother 0 u hu
    refine ⟨⟨hl.1, by simp only []; rw [o1 1 (by decide)]; exact h.todo, fun t h0 h1 => by simp only []; rw [o1 t h0]; exact h.others t h0 h1, h.clean,
      by simp only []; rw [o1 1 (by decide)]; exact h.call, h.count⟩, ?_⟩
    by_cases hm : fCanMove c.db 0
    · right
      have hi : ({ c with db := c.db.step B H 0 } : SrvConf).intent = c.intent.step B H 0 := by
        unfold SrvConf.intent
        simp only []
        rw [o1 1 (by decide)]
        split
        · exact (withTodo_step _ _ (Or.inl (by decide))).symm
        · rfl
      refine Prod.Lex.right _ (Prod.Lex.right _ ?_)
      rw [hi, left_other h.lkI (by decide : (0 : Nat) ≠ 1), ← hi, intent_left, intent_left]
      exact Prod.Lex.right _ (hl.2.1 hm)
    · left; rw [hl.2.2 hm]
  · -- the requests
    unfold SrvConf.work
    have o1 : ∀ u, u ≠ 1 → (c.db.step B H 1).threads u = c.db.threads u := fun u hu => step_fother 1 u hu
    split
    next ph hph =>
      have hne : (c.db.threads 1).now ≠ none := by rw [hph]; simp
      obtain ⟨op, k, hk⟩ := h.call hne
      have hl := fstep_lk (B := B) (H := H) h.lk 1
      have htodo : ((c.db.step B H 1).threads 1).todo = [] := by rw [step_todo hne]; exact h.todo
      rcases step_next (B := B) (H := H) hph with ⟨ph', h1, h2, h3⟩ | ⟨o, h1, h2, h3⟩
      · have hne' : ((c.db.step B H 1).threads 1).now ≠ none := by rw [h1]; simp
        rw [resume_same (c := { c with db := c.db.step B H 1 }) hne']
        refine ⟨⟨hl.1, htodo, fun t h0 h1 => by simp only []; rw [o1 t h1]; exact h.others t h0 h1, h.clean, fun _ => ⟨op, k, hk⟩, h.count⟩, ?_⟩
        by_cases hm : fCanMove c.db 1
        · right
          refine Prod.Lex.right _ (Prod.Lex.right _ ?_)
          rw [intent_some hne, intent_some (c := { c with db := c.db.step B H 1 }) hne']
          exact Prod.Lex.left _ _ (hl.2.1 hm)
        · left; rw [hl.2.2 hm]
      · have hr : ({ c with db := c.db.step B H 1 } : SrvConf).resume = { c with db := c.db.step B H 1, now := some (k o) } := by
          unfold SrvConf.resume
          simp only []
          rw [h1, hk, h2, List.getLast?_append_of_ne_nil _ (by simp)]
          rfl
        rw [hr]
        have hcl : (k o).Clean := by
          have := h.clean _ hk
          cases this with
          | call _ hc => exact hc o
        refine ⟨⟨hl.1, htodo, fun t h0 h1 => by simp only []; rw [o1 t h1]; exact h.others t h0 h1, fun p hp => by cases hp; exact hcl,
          fun hn => absurd h1 hn, by have := h.count; rw [hk] at this; simpa using this⟩, Or.inr ?_⟩
        unfold SrvConf.left
        simp only [hk, Option.toList_some, List.length_singleton]
        exact Prod.Lex.right _ (Prod.Lex.left _ _ (.mk op k o))
    next hn =>
      split
      next op k hk =>
        have hl := fstep_lk (B := B) (H := H) (PInv.lkI h) 1
        have hi : c.intent = c.db.withTodo [op] := by unfold SrvConf.intent; rw [hn, hk]
        rw [hi] at hl
        obtain ⟨b1, b2⟩ := begin_now (B := B) (H := H) (op := op) h.lk.heap hn
        have o2 : ∀ u, u ≠ 1 → ((c.db.withTodo [op]).step B H 1).threads u = c.db.threads u := fun u hu => by rw [step_fother 1 u hu, withTodo_other _ hu]
        refine ⟨⟨hl.1, b2, fun t h0 h1 => by simp only []; rw [o2 t h1]; exact h.others t h0 h1, h.clean, fun _ => ⟨op, k, hk⟩, h.count⟩, Or.inr ?_⟩
        refine Prod.Lex.right _ (Prod.Lex.right _ ?_)
        rw [hi, intent_some (c := { c with db := (c.db.withTodo [op]).step B H 1 }) b1]
        refine Prod.Lex.left _ _ (hl.2.1 ?_)
        unfold fCanMove
        rw [withTodo_now, hn]
        simp [FConf.withTodo, FConf.setThread]
      next x hx =>
        refine ⟨⟨h.lk, h.todo, h.others, fun p hp => (by cases hp), fun h' => absurd hn h', ?_⟩, Or.inr (Prod.Lex.left _ _ ?_)⟩
        · have := h.count; rw [hx] at this; simp at this ⊢; omega
        · rw [hx]; simp
      next hx =>
        split
        · exact ⟨h, Or.inl rfl⟩
        next r rs hq =>
          refine ⟨⟨h.lk, h.todo, h.others, fun p hp => by cases hp; exact requestCalls_clean F P r, fun h' => absurd hn h', ?_⟩, Or.inr (Prod.Lex.left _ _ ?_)⟩
          · have := h.count; rw [hx, hq] at this; simp at this ⊢; omega
          · rw [hx, hq]; simp; omega
  · exact ⟨h, Or.inl rfl⟩

/-- Nothing moves any more: every request has been answered, and every swap has returned. -/
theorem PInv.end_ {W : FPolicy} (hW : W.fine) (h : PInv M n c) (hs : none ∉ c.sent) (h0 : c.stepUnder W B H F P 0 = c) (h1 : c.stepUnder W B H F P 1 = c) :
    c.sent.length = n ∧ (c.db.threads 0).finished := by
  have hov : ∀ u, ¬ c.intent.overtakes u → W c.db u = false := by
    intro u hu
    by_contra hw
    apply hu
    have := hW c.db u (by simpa using hw)
    unfold FConf.overtakes at this ⊢
    simp only [intent_now]
    have : c.intent.current = c.db.current := by unfold SrvConf.intent; split <;> rfl
    rw [this]
    assumption
  have key : ∀ t, (c.intent.threads t).finished := by
    by_contra hno
    push Not at hno
    obtain ⟨t, ht⟩ := hno
    obtain ⟨u, hm, ho⟩ := fexists_free h.lkI ht
    have hw := hov u ho
    by_cases u0 : u = 0
    · subst u0
      unfold SrvConf.stepUnder at h0
      rw [hw] at h0
      simp only [Bool.false_eq_true, if_false, SrvConf.step, if_neg hs] at h0
      have e := congrArg SrvConf.db h0
      simp only [] at e
      have hm' : fCanMove c.intent 0 := hm
      have hl := (fstep_lk (B := B) (H := H) h.lkI 0).2.1 hm
      have hi : c.intent.step B H 0 = c.intent := by
        unfold SrvConf.intent
        split
        · rw [withTodo_step _ _ (Or.inl (by decide)), e]
        · exact e
      rw [hi] at hl
      exact Less.wf.irrefl.irrefl _ hl
    · by_cases u1 : u = 1
      · subst u1
        unfold SrvConf.stepUnder at h1
        rw [hw] at h1
        simp only [Bool.false_eq_true, if_false, SrvConf.step, if_neg hs, SrvConf.work] at h1
        rcases hn : (c.db.threads 1).now with _ | ph
        · rw [hn] at h1
          simp only [] at h1
          rcases hc : c.now with _ | (x | ⟨op, k⟩)
          · have hi : c.intent = c.db := by unfold SrvConf.intent; rw [hn, hc]
            rw [hi] at hm
            unfold fCanMove at hm
            rw [hn] at hm
            exact hm h.todo
          · have hi : c.intent = c.db := by unfold SrvConf.intent; rw [hn, hc]
            rw [hi] at hm
            unfold fCanMove at hm
            rw [hn] at hm
            exact hm h.todo
          · rw [hc] at h1
            simp only [] at h1
            have e := congrArg SrvConf.db h1
            simp only [] at e
            have := (begin_now (B := B) (H := H) (op := op) h.lk.heap hn).1
            rw [e] at this
            exact this hn
        · have hne : (c.db.threads 1).now ≠ none := by rw [hn]; simp
          rw [hn] at h1
          simp only [] at h1
          have e := congrArg SrvConf.db h1
          have hd : ∀ c' : SrvConf, c'.resume.db = c'.db := by
            intro c'; unfold SrvConf.resume; split <;> rfl
          rw [hd] at e
          simp only [] at e
          rw [intent_some hne] at hm
          have hl := (fstep_lk (B := B) (H := H) h.lk 1).2.1 hm
          rw [e] at hl
          exact Less.wf.irrefl.irrefl _ hl
      · have hf := h.others u u0 u1
        have hf' : (c.intent.threads u).finished := by
          unfold SrvConf.intent
          split
          · rw [withTodo_other _ u1]; exact hf
          · exact hf
        unfold fCanMove at hm
        rw [hf'.1] at hm
        exact hm hf'.2
  have hn0 : ∀ t, (c.db.threads t).now = none := fun t => by rw [← intent_now]; exact (key t).1
  have h00 : (c.db.threads 0).finished := by
    have := key 0
    unfold SrvConf.intent at this
    split at this
    · rw [withTodo_other _ (by decide)] at this; exact this
    · exact this
  refine ⟨?_, h00⟩
  have hw : W c.db 1 = false := by
    apply hov
    unfold FConf.overtakes
    simp only [intent_now, hn0]
    simp
  unfold SrvConf.stepUnder at h1
  rw [hw] at h1
  simp only [Bool.false_eq_true, if_false, SrvConf.step, if_neg hs, SrvConf.work, hn0 1] at h1
  rcases hc : c.now with _ | (x | ⟨op, k⟩)
  · rcases hq : c.queue with _ | ⟨r, rs⟩
    · have := h.count
      rw [hc, hq] at this
      simpa using this
    · rw [hc, hq] at h1
      simp only [] at h1
      have e := congrArg SrvConf.now h1
      rw [hc] at e
      cases e
  · rw [hc] at h1
    simp only [] at h1
    have e := congrArg SrvConf.now h1
    rw [hc] at e
    cases e
  · have := (key 1).2
    unfold SrvConf.intent at this
    rw [hn0 1, hc] at this
    simp [FConf.withTodo, FConf.setThread] at this

end
end Verif
