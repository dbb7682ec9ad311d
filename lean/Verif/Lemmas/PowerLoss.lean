import Verif.Model.PowerLoss
import Verif.Lemmas.SledFaultComplete
namespace Verif
open List

/-! ### Execution that keeps track of flushes -/

theorem TreeProg.execV_exec {α : Type} (p : TreeProg α) (os : List OpOutcome) (v : Volatile) :
    (p.execV os v).1 = (p.exec os v.now).1 ∧ (p.execV os v).2.now = (p.exec os v.now).2 := by
  induction p generalizing os v with
  | ret a => exact ⟨rfl, rfl⟩
  | get t k next ih =>
    simp only [TreeProg.execV, TreeProg.exec]
    rcases os.headD .done with _ | _ | _ <;> exact ih _ _ _
  | set t k x next ih =>
    simp only [TreeProg.execV, TreeProg.exec]
    rcases os.headD .done with _ | _ | _
    · exact ih _ _ (v.set t k x)
    · exact ih _ _ v
    · exact ih _ _ (v.set t k x)
  | flush t next ih =>
    simp only [TreeProg.execV, TreeProg.exec]
    rcases os.headD .done with _ | _ | _
    · exact ih _ _ (v.flush t)
    · exact ih _ _ v
    · exact ih _ _ v

theorem TreeProg.execV_bind {α β : Type} (p : TreeProg α) (f : α → TreeProg β) (os : List OpOutcome) (v : Volatile) :
    (p.bind f).execV os v = (f (p.execV os v).1.1).execV (p.execV os v).1.2 (p.execV os v).2 := by
  induction p generalizing os v with
  | ret a => rfl
  | get t k next ih => simp only [TreeProg.bind, TreeProg.execV]; split <;> exact ih _ _ _
  | set t k x next ih => simp only [TreeProg.bind, TreeProg.execV]; split <;> exact ih _ _ _
  | flush t next ih => simp only [TreeProg.bind, TreeProg.execV]; split <;> exact ih _ _ _

/-- If everything fails nothing changes. -/
theorem TreeProg.execV_failed {α : Type} (p : TreeProg α) (v : Volatile) :
    ∃ n, (p.execV (List.replicate n .failed) v).2 = v := by
  induction p generalizing v with
  | ret a => exact ⟨0, rfl⟩
  | get t k next ih => obtain ⟨n, h⟩ := ih (.err .ioErr) v; exact ⟨n + 1, h⟩
  | set t k x next ih => obtain ⟨n, h⟩ := ih (.err .ioErr) v; exact ⟨n + 1, h⟩
  | flush t next ih => obtain ⟨n, h⟩ := ih (.err .ioErr) v; exact ⟨n + 1, h⟩

/-- Loss of power in the middle is a failure of all remaining operations. -/
theorem TreeProg.cut_execV {α : Type} (p : TreeProg α) (n : Nat) (os : List OpOutcome) (v : Volatile) :
    ∃ os', (p.execV os' v).2 = p.cut n os v := by
  induction p generalizing n os v with
  | ret a => exact ⟨[], by simp [TreeProg.execV, TreeProg.cut]⟩
  | get t k next ih =>
    rcases n with _ | n
    · obtain ⟨m, h⟩ := (TreeProg.get t k next).execV_failed v
      exact ⟨_, h⟩
    · simp only [TreeProg.cut]
      rcases ho : os.headD .done with _ | _ | _
      · obtain ⟨os', h⟩ := ih (.ok (v.now.get t k)) n os.tail v; exact ⟨.done :: os', h⟩
      · obtain ⟨os', h⟩ := ih (.err .ioErr) n os.tail v; exact ⟨.failed :: os', h⟩
      · obtain ⟨os', h⟩ := ih (.err .ioErr) n os.tail v; exact ⟨.failed :: os', h⟩
  | set t k x next ih =>
    rcases n with _ | n
    · obtain ⟨m, h⟩ := (TreeProg.set t k x next).execV_failed v
      exact ⟨_, h⟩
    · simp only [TreeProg.cut]
      rcases ho : os.headD .done with _ | _ | _
      · obtain ⟨os', h⟩ := ih (.ok ()) n os.tail (v.set t k x); exact ⟨.done :: os', h⟩
      · obtain ⟨os', h⟩ := ih (.err .ioErr) n os.tail v; exact ⟨.failed :: os', h⟩
      · obtain ⟨os', h⟩ := ih (.err .ioErr) n os.tail (v.set t k x); exact ⟨.lost :: os', h⟩
  | flush t next ih =>
    rcases n with _ | n
    · obtain ⟨m, h⟩ := (TreeProg.flush t next).execV_failed v
      exact ⟨_, h⟩
    · simp only [TreeProg.cut]
      rcases ho : os.headD .done with _ | _ | _
      · obtain ⟨os', h⟩ := ih (.ok ()) n os.tail (v.flush t); exact ⟨.done :: os', h⟩
      · obtain ⟨os', h⟩ := ih (.err .ioErr) n os.tail v; exact ⟨.failed :: os', h⟩
      · obtain ⟨os', h⟩ := ih (.err .ioErr) n os.tail v; exact ⟨.failed :: os', h⟩

/-- Every state a tree passes through is the final one under some other failures. -/
theorem TreeProg.held_from {α : Type} (p : TreeProg α) (os : List OpOutcome) (v : Volatile) {t : TreeName} {kv : KV}
    (h : kv ∈ (p.execV os v).2.held t) :
    kv ∈ v.held t ∨ ∃ os', os'.headD .done = os.headD .done ∧ kv = (p.exec os' v.now).2.tree t := by
  have hfail : ∀ (q : TreeProg α) (s : SledStores), ∃ os', (q.exec os' s).2 = s := by
    intro q s
    obtain ⟨n, hn⟩ := q.execV_failed (.settled s)
    have := (q.execV_exec (List.replicate n .failed) (.settled s)).2
    rw [hn] at this
    exact ⟨_, this.symm⟩
  induction p generalizing os v with
  | ret a => exact .inl h
  | get u k next ih =>
    simp only [TreeProg.execV] at h
    rcases ho : os.headD .done with _ | _ | _ <;> rw [ho] at h <;> simp only at h <;> rcases ih _ _ _ h with h | ⟨os', -, h⟩
    · exact .inl h
    · exact .inr ⟨.done :: os', rfl, h⟩
    · exact .inl h
    · exact .inr ⟨.failed :: os', rfl, h⟩
    · exact .inl h
    · exact .inr ⟨.lost :: os', rfl, h⟩
  | set u k x next ih =>
    simp only [TreeProg.execV] at h
    have key : ∀ (o : OpOutcome) (r : Res Unit), (∀ os', (TreeProg.set u k x next).exec (o :: os') v.now = (next r).exec os' (v.now.set u k x)) →
        kv ∈ ((next r).execV os.tail (v.set u k x)).2.held t →
        kv ∈ v.held t ∨ ∃ os', os'.headD .done = o ∧ kv = ((TreeProg.set u k x next).exec os' v.now).2.tree t := by
      intro o r hr h
      rcases ih _ _ _ h with h | ⟨os', -, h⟩
      · unfold Volatile.set at h
        simp only at h
        split at h
        · rcases List.mem_append.mp h with h | h
          · exact .inl h
          · rw [List.mem_singleton] at h
            obtain ⟨os', e⟩ := hfail (next r) (v.now.set u k x)
            exact .inr ⟨o :: os', rfl, by rw [hr, e, h]⟩
        · exact .inl h
      · exact .inr ⟨o :: os', rfl, by rw [hr]; exact h⟩
    rcases ho : os.headD .done with _ | _ | _ <;> rw [ho] at h <;> simp only at h
    · exact key .done _ (fun _ => rfl) h
    · rcases ih _ _ _ h with h | ⟨os', -, h⟩
      · exact .inl h
      · exact .inr ⟨.failed :: os', rfl, h⟩
    · exact key .lost _ (fun _ => rfl) h
  | flush u next ih =>
    simp only [TreeProg.execV] at h
    rcases ho : os.headD .done with _ | _ | _ <;> rw [ho] at h <;> simp only at h <;> rcases ih _ _ _ h with h | ⟨os', -, h⟩
    · unfold Volatile.flush at h
      simp only at h
      split at h
      · rw [List.mem_singleton] at h
        obtain ⟨os', e⟩ := hfail (next (.ok ())) v.now
        exact .inr ⟨.done :: os', rfl, by
          rw [show (TreeProg.flush u next).exec (.done :: os') v.now = (next (.ok ())).exec os' v.now from rfl, e, h]⟩
      · exact .inl h
    · exact .inr ⟨.done :: os', rfl, h⟩
    · exact .inl h
    · exact .inr ⟨.failed :: os', rfl, h⟩
    · exact .inl h
    · exact .inr ⟨.lost :: os', rfl, h⟩

/-! ### Programs that leave a tree alone -/

/-- The program neither changes nor flushes tree `u`. -/
def TreeProg.Avoids (u : TreeName) {α : Type} : TreeProg α → Prop
  | .ret _ => True
  | .get _ _ next => ∀ r, (next r).Avoids u
  | .set t _ _ next => t ≠ u ∧ ∀ r, (next r).Avoids u
  | .flush t next => t ≠ u ∧ ∀ r, (next r).Avoids u

theorem TreeProg.Avoids.bind {u : TreeName} {α β : Type} {p : TreeProg α} {f : α → TreeProg β} (hp : p.Avoids u) (hf : ∀ a, (f a).Avoids u) :
    (p.bind f).Avoids u := by
  induction p with
  | ret a => exact hf a
  | get t k next ih => exact fun r => ih r (hp r)
  | set t k x next ih => exact ⟨hp.1, fun r => ih r (hp.2 r)⟩
  | flush t next ih => exact ⟨hp.1, fun r => ih r (hp.2 r)⟩

theorem TreeProg.Avoids.andThen {u : TreeName} {α β : Type} {p : TreeProg (Res α)} {f : α → TreeProg (Res β)} (hp : p.Avoids u)
    (hf : ∀ a, (f a).Avoids u) : (p.andThen f).Avoids u := by
  refine hp.bind fun r => ?_
  rcases r with a | e | _
  · exact hf a
  · trivial
  · trivial

theorem tree_set_other (s : SledStores) {t u : TreeName} (h : t ≠ u) (k x : Str) : (s.set t k x).tree u = s.tree u := by
  cases t <;> cases u <;> first | exact absurd rfl h | rfl

theorem TreeProg.Avoids.held {u : TreeName} {α : Type} {p : TreeProg α} (hp : p.Avoids u) (os : List OpOutcome) (v : Volatile) :
    (p.execV os v).2.held u = v.held u ∧ (p.execV os v).2.now.tree u = v.now.tree u := by
  have hset : ∀ (v : Volatile) (t : TreeName) (k x : Str), t ≠ u → (v.set t k x).held u = v.held u ∧ (v.set t k x).now.tree u = v.now.tree u := by
    intro v t k x ht
    exact ⟨if_neg (Ne.symm ht), tree_set_other _ ht _ _⟩
  have hfl : ∀ (v : Volatile) (t : TreeName), t ≠ u → (v.flush t).held u = v.held u ∧ (v.flush t).now.tree u = v.now.tree u := by
    intro v t ht
    exact ⟨if_neg (Ne.symm ht), rfl⟩
  induction p generalizing os v with
  | ret a => exact ⟨rfl, rfl⟩
  | get t k next ih => simp only [TreeProg.execV]; split <;> exact ih _ (hp _) _ _
  | set t k x next ih =>
    simp only [TreeProg.execV]
    split
    · have := ih _ (hp.2 (.ok ())) os.tail (v.set t k x); rw [(hset v t k x hp.1).1, (hset v t k x hp.1).2] at this; exact this
    · exact ih _ (hp.2 _) _ _
    · have := ih _ (hp.2 (.err .ioErr)) os.tail (v.set t k x); rw [(hset v t k x hp.1).1, (hset v t k x hp.1).2] at this; exact this
  | flush t next ih =>
    simp only [TreeProg.execV]
    split
    · have := ih _ (hp.2 (.ok ())) os.tail (v.flush t); rw [(hfl v t hp.1).1, (hfl v t hp.1).2] at this; exact this
    · exact ih _ (hp.2 _) _ _

theorem get_avoids {α : Type} (u t : TreeName) (k : Str) {f : Option Str → TreeProg (Res α)} (h : ∀ a, (f a).Avoids u) :
    ((TreeProg.get t k .ret).andThen f).Avoids u := TreeProg.Avoids.andThen (fun _ => trivial) h

theorem slByLabelsP_avoids (u : TreeName) (ls : Labels) : (slByLabelsP ls).Avoids u := by
  refine get_avoids _ _ _ fun a => ?_
  rcases a with _ | v <;> trivial

theorem slCreateLabelsP_avoids (i : U64) (ls : Labels) : (slCreateLabelsP i ls).Avoids .ser := by
  induction ls with
  | nil => trivial
  | cons l ls ih => exact get_avoids _ _ _ fun a => ⟨by decide, fun _ => ⟨by decide, fun _ => ih⟩⟩

theorem slCreateP_avoids (ls : Labels) (i : U64) : (slCreateP ls i).Avoids .ser := by
  refine get_avoids _ _ _ fun a => ?_
  split
  · trivial
  · exact ⟨by decide, fun _ => ⟨by decide, fun _ => slCreateLabelsP_avoids i ls⟩⟩

theorem slWriteP_avoids (i : U64) (p : TimePoint) : (slWriteP i p).Avoids .idx := by
  refine get_avoids _ _ _ fun a => ?_
  rcases a with _ | v
  · exact TreeProg.Avoids.andThen (show (TreeProg.set .ser _ _ .ret).Avoids .idx from ⟨by decide, fun _ => trivial⟩) fun _ => trivial
  · exact ⟨by decide, fun _ => trivial⟩

/-- The storage changes its tree at most once, and does not flush it. -/
theorem slWriteP_held (i : U64) (p : TimePoint) (os : List OpOutcome) (v : Volatile) :
    ((slWriteP i p).execV os v).2.held .ser = v.held .ser ∨
    ((slWriteP i p).execV os v).2.held .ser = v.held .ser ++ [((slWriteP i p).execV os v).2.now.ser] := by
  unfold slWriteP TreeProg.andThen
  rw [TreeProg.execV_bind]
  simp only [TreeProg.execV]
  rcases os.headD .done with _ | _ | _ <;> simp only
  · rcases v.now.get .ser (sledKey i) with _ | x <;> simp only
    · rw [TreeProg.execV_bind]
      simp only [TreeProg.execV]
      rcases os.tail.headD .done with _ | _ | _
      · exact .inr rfl
      · exact .inl rfl
      · exact .inr rfl
    · simp only [TreeProg.execV]
      rcases os.tail.headD .done with _ | _ | _
      · exact .inr rfl
      · exact .inl rfl
      · exact .inr rfl
  · exact .inl rfl
  · exact .inl rfl

/-- So does an insert. -/
theorem slInsertP_held (c : Chunk Unit) (ls : Labels) (p : TimePoint) (os : List OpOutcome) (v : Volatile) :
    ((slInsertP c ls p).execV os v).2.held .ser = v.held .ser ∨
    ((slInsertP c ls p).execV os v).2.held .ser = v.held .ser ++ [((slInsertP c ls p).execV os v).2.now.ser] := by
  unfold slInsertP
  split
  · exact .inl rfl
  · split
    · rw [TreeProg.execV_bind]
      have h1 := (slByLabelsP_avoids .ser ls).held os v
      generalize (slByLabelsP ls).execV os v = r1 at h1
      obtain ⟨⟨r, os1⟩, v1⟩ := r1
      simp only at h1 ⊢
      rw [← h1.1]
      rcases r with o | e | _
      · rcases o with _ | i <;> simp only
        · rw [TreeProg.execV_bind]
          have h2 := (slCreateP_avoids ls (idNext c.nextId).1).held os1 v1
          generalize (slCreateP ls (idNext c.nextId).1).execV os1 v1 = r2 at h2
          obtain ⟨⟨r, os2⟩, v2⟩ := r2
          simp only at h2 ⊢
          rw [← h2.1]
          rcases r with u | e | _
          · simp only
            rw [TreeProg.execV_bind]
            exact slWriteP_held _ _ _ _
          · exact .inl rfl
          · exact .inl rfl
        · rw [TreeProg.execV_bind]
          have h3 := slWriteP_held i p os1 v1
          generalize (slWriteP i p).execV os1 v1 = r3 at h3
          obtain ⟨⟨r, os2⟩, v2⟩ := r3
          simp only at h3 ⊢
          rcases r with u | e | _ <;> exact h3
      · exact .inl rfl
      · exact .inl rfl
    · exact .inl rfl

/-! ### The index is flushed -/

theorem slCreateLabelsP_flushed (i : U64) (l : Label) (ls : Labels) {os : List OpOutcome} (hos : AllDone os) (v : Volatile) :
    ((slCreateLabelsP i (l :: ls)).execV os v).2.held .idx = [((slCreateLabelsP i (l :: ls)).execV os v).2.now.idx] := by
  have step : ∀ (l : Label) (ls : Labels) {os : List OpOutcome}, AllDone os → ∀ (v : Volatile), ∃ os', AllDone os' ∧ ∃ v', v'.held .idx = [v'.now.idx] ∧
      (slCreateLabelsP i (l :: ls)).execV os v = (slCreateLabelsP i ls).execV os' v' := by
    intro l ls os hos v
    rw [slCreateLabelsP]
    unfold TreeProg.andThen
    rw [TreeProg.execV_bind]
    simp only [TreeProg.execV, hos.head, hos.tail.head, hos.tail.tail.head]
    exact ⟨_, hos.tail.tail.tail, _, rfl, rfl⟩
  induction ls generalizing l os v with
  | nil =>
    obtain ⟨os', -, v', h, e⟩ := step l [] hos v
    rw [e]; exact h
  | cons m ls ih =>
    obtain ⟨os', h0, v', -, e⟩ := step l (m :: ls) hos v
    rw [e]; exact ih m h0 v'

theorem slCreateP_flushed {ls : Labels} (hls : ls ≠ []) (i : U64) {os : List OpOutcome} (hos : AllDone os) (v : Volatile)
    (h : v.held .idx = [v.now.idx] ∨ v.now.idx (encodeLabels ls true) = none) :
    ((slCreateP ls i).execV os v).2.held .idx = [((slCreateP ls i).execV os v).2.now.idx] := by
  unfold slCreateP TreeProg.andThen
  rw [TreeProg.execV_bind]
  simp only [TreeProg.execV, hos.head]
  by_cases hs : (v.now.get .idx (encodeLabels ls true)).isSome
  · rw [if_pos hs]
    rcases h with h | h
    · exact h
    · have : v.now.get .idx (encodeLabels ls true) = none := h
      rw [this] at hs; cases hs
  · rw [if_neg hs]
    simp only [TreeProg.execV, hos.tail.head, hos.tail.tail.head]
    obtain ⟨l, ls, rfl⟩ := List.exists_cons_of_ne_nil hls
    exact slCreateLabelsP_flushed i l ls hos.tail.tail.tail _

theorem slInsertP_flushed (c : Chunk Unit) {ls : Labels} (hls : ls ≠ []) (p : TimePoint) {os : List OpOutcome} (hos : AllDone os) (v : Volatile)
    (hin : c.poisoned = false ∧ c.isInRange p.ts = true) (h : v.held .idx = [v.now.idx] ∨ v.now.idx (encodeLabels ls true) = none) :
    ((slInsertP c ls p).execV os v).2.held .idx = [((slInsertP c ls p).execV os v).2.now.idx] := by
  unfold slInsertP
  rw [if_neg (by simp [hin.1]), if_pos hin.2, TreeProg.execV_bind]
  have b1 := (slByLabelsP_avoids .idx ls).held os v
  have b2 := ((slByLabelsP ls).execV_exec os v).1
  have b3 := (slByLabelsP ls).exec_done hos v.now
  rw [(slByLabelsP_reports ls).clean] at b3
  generalize (slByLabelsP ls).execV os v = r1 at b1 b2
  obtain ⟨⟨r, os1⟩, v1⟩ := r1
  simp only at b1 b2
  have hr : r = sledByLabels v.now.idx ls := by rw [← b3.1, ← b2]
  have hos1 : AllDone os1 := by have := b3.2.2; rwa [← b2] at this
  have hv1 : v1.now.idx = v.now.idx := b1.2
  simp only
  have h' : v1.held .idx = [v1.now.idx] ∨ v1.now.idx (encodeLabels ls true) = none := by rw [b1.1, hv1]; exact h
  have hsome : ∀ x, r ≠ .ok none → v1.held .idx = [v1.now.idx] ∨ x := by
    intro x hne
    rcases h' with h' | h'
    · exact .inl h'
    · exfalso; apply hne
      rw [hv1] at h'
      rw [hr]; unfold sledByLabels; rw [h']
  rcases r with o | e | _
  · rcases o with _ | i <;> simp only
    · rw [TreeProg.execV_bind]
      have h2 := slCreateP_flushed hls (idNext c.nextId).1 hos1 v1 h'
      generalize (slCreateP ls (idNext c.nextId).1).execV os1 v1 = r2 at h2
      obtain ⟨⟨r, os2⟩, v2⟩ := r2
      simp only at h2 ⊢
      rcases r with u | e | _
      · simp only
        rw [TreeProg.execV_bind]
        have h3 := (slWriteP_avoids (idNext c.nextId).1 p).held os2 v2
        generalize (slWriteP (idNext c.nextId).1 p).execV os2 v2 = r3 at h3
        obtain ⟨⟨r, os3⟩, v3⟩ := r3
        simp only at h3 ⊢
        have h4 : v3.now.idx = v2.now.idx := h3.2
        show v3.held .idx = [v3.now.idx]
        rw [h3.1, h4, h2]
      · exact h2
      · exact h2
    · rw [TreeProg.execV_bind]
      have h3 := (slWriteP_avoids i p).held os1 v1
      generalize (slWriteP i p).execV os1 v1 = r3 at h3
      obtain ⟨⟨r, os3⟩, v3⟩ := r3
      simp only at h3 ⊢
      have h4 : v3.now.idx = v1.now.idx := h3.2
      have h5 : v1.held .idx = [v1.now.idx] := (hsome False (by simp)).resolve_right id
      rcases r with u | e | _ <;> (show v3.held .idx = [v3.now.idx]; rw [h3.1, h4, h5])
  · exact (hsome False (by simp)).resolve_right id
  · exact (hsome False (by simp)).resolve_right id

end Verif
