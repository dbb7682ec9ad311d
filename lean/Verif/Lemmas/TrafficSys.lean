import Verif.Lemmas.TrafficQuery
namespace Verif
open List

/-! ### The inserting threads -/

abbrev ISys := Sys SChunk (Labels × TimePoint) (Res Unit)

/-- What holds of the inserting threads at every moment. -/
structure SysInv (B : Kit) (lo hi : U64) (todo0 : Nat → Inserts) (S : ISys) : Prop where
  lin : Linear (kitInsert B) (newSled lo hi) todo0 S
  last : ∀ t w pr, S.lock = some (t, w, pr) → SerLast pr ∧
    ∀ u k, pr = .act u k → S.store.store.ser = (chunkOf B lo hi (S.finished.map (·.2.1))).store.ser

theorem Linear.chunk (B : Kit) {lo hi : U64} {todo0 : Nat → Inserts} {S : ISys} (h : Linear (kitInsert B) (newSled lo hi) todo0 S) :
    (seqRun (kitInsert B) (newSled lo hi) (orderOf S.finished)).2 = chunkOf B lo hi (S.finished.map (·.2.1)) := by
  have := (seqRun_log (kitInsert_run B) (newSled lo hi) (orderOf S.finished)).1.1
  rw [h.results] at this
  exact this

theorem SysInv.init (B : Kit) (lo hi : U64) (todo0 : Nat → Inserts) : SysInv B lo hi todo0 (Sys.init (newSled lo hi) todo0) :=
  ⟨linear_exec (kitInsert B) (newSled lo hi) todo0 [], by intro t w pr e; cases e⟩

theorem SysInv.step {B : Kit} {lo hi : U64} {todo0 : Nat → Inserts} {S : ISys} (h : SysInv B lo hi todo0 S) (t : Nat) :
    SysInv B lo hi todo0 (S.step (kitInsert B) t) := by
  refine ⟨linear_step h.lin t, ?_⟩
  unfold Sys.step
  rcases hl : S.lock with _ | ⟨th, o, pr⟩
  · simp only []
    rcases ht : S.todo t with _ | ⟨o, os⟩
    · simp only []
      intro t w pr e
      rw [hl] at e; cases e
    · simp only []
      intro t' w pr e
      simp only [Option.some.injEq, Prod.mk.injEq] at e
      obtain ⟨-, rfl, rfl⟩ := e
      have hst := h.lin.store
      rw [hl] at hst
      simp only at hst
      exact ⟨kitInsert_serLast B _, fun _ _ _ => by rw [hst, h.lin.chunk B]⟩
  · simp only []
    by_cases hth : th = t
    · subst hth
      simp only [if_true]
      obtain ⟨h1, h2⟩ := h.last th o pr hl
      rcases pr with a | ⟨u, k⟩
      · simp only []
        intro t w pr e; cases e
      · simp only []
        intro t w pr e
        simp only [Option.some.injEq, Prod.mk.injEq] at e
        obtain ⟨-, rfl, rfl⟩ := e
        have h3 := h2 u k rfl
        cases h1 with
        | last u a => exact ⟨.ret _, by intro u k e; cases e⟩
        | act hu hk => exact ⟨hk _, fun _ _ _ => by rw [hu, h3]⟩
    · simp only [hth, if_false]
      exact h.last

/-- The moment. -/
def Sys.moment (S : ISys) : Moment := ⟨S.settled, S.started⟩

theorem SysInv.at {B : Kit} {lo hi : U64} {todo0 : Nat → Inserts} {S : ISys} (h : SysInv B lo hi todo0 S)
    (hok : LogOk lo hi S.started) : At B lo hi S.moment S.store := by
  have hst := h.lin.store
  rcases hl : S.lock with _ | ⟨t, w, pr⟩
  · rw [hl] at hst
    simp only at hst
    rw [h.lin.chunk B] at hst
    have e1 : S.settled = S.finished.map (·.2.1) := by unfold Sys.settled; rw [hl]; simp
    have e2 : S.started = S.finished.map (·.2.1) := by unfold Sys.started; rw [hl]; simp
    have hr := hok.rep B
    rw [e2, ← hst] at hr
    exact ⟨Or.inl (e2.trans e1.symm), hok, hr.start_, hr.end_, by rw [hst]; simp only [Sys.moment, e1],
      fun k => Or.inl (by rw [hst]; simp only [Sys.moment, e1])⟩
  · rw [hl] at hst
    simp only at hst
    have e2 : S.started = S.finished.map (·.2.1) ++ [w] := by unfold Sys.started; rw [hl]
    obtain ⟨h1, h2⟩ := h.last t w pr hl
    obtain ⟨n, hn, -⟩ := h.lin.partial_ t w pr hl
    rw [h.lin.chunk B] at hst hn
    rw [e2] at hok
    obtain ⟨hr1, hr2, hcr⟩ := kitInsert_reps B lo hi hok.fine
    have hcr := hcr n
    unfold chunkOf at hn
    rw [hn] at hcr
    rcases pr with a | ⟨u, k⟩
    · have e1 : S.settled = S.finished.map (·.2.1) ++ [w] := by unfold Sys.settled; rw [hl]
      rw [kitInsert_run B] at hst
      simp only [Proc.run] at hst
      have hst2 : S.store = chunkOf B lo hi (S.finished.map (·.2.1) ++ [w]) := by
        unfold chunkOf; rw [kit_snoc]; exact (Prod.ext_iff.mp hst).2
      refine ⟨Or.inl (e2.trans e1.symm), by simp only [Sys.moment]; rw [e2]; exact hok, ?_, ?_, ?_, ?_⟩
      · rw [hst2]; exact hr2.start_
      · rw [hst2]; exact hr2.end_
      · rw [hst2]; simp only [Sys.moment, e1]
      · intro k; left; rw [hst2]; simp only [Sys.moment, e1]
    · have e1 : S.settled = S.finished.map (·.2.1) := by unfold Sys.settled; rw [hl]; simp
      refine ⟨Or.inr ⟨w, by simp only [Sys.moment]; rw [e1, e2]⟩, by simp only [Sys.moment]; rw [e2]; exact hok, ?_, ?_, ?_, ?_⟩
      · rw [hcr.start_]; exact hr1.start_
      · rw [hcr.end_]; exact hr1.end_
      · simp only [Sys.moment, e1]; exact h2 u k rfl
      · intro k; simp only [Sys.moment, e1, e2]; exact hcr.idx k

theorem Sys.settled_started (S : ISys) : S.settled <+: S.started := by
  unfold Sys.settled Sys.started
  rcases S.lock with _ | ⟨t, w, a | ⟨u, k⟩⟩
  · exact List.prefix_refl _
  · exact List.prefix_refl _
  · simp

theorem Sys.moment_le (B : Kit) (S : ISys) (t : Nat) : S.moment.le (S.step (kitInsert B) t).moment := by
  unfold Moment.le Sys.moment Sys.step
  rcases hl : S.lock with _ | ⟨th, o, pr⟩
  · simp only []
    rcases ht : S.todo t with _ | ⟨o, os⟩
    · exact ⟨List.prefix_refl _, List.prefix_refl _⟩
    · simp only [Sys.settled, Sys.started, hl]
      refine ⟨?_, ?_⟩ <;> simp
  · simp only []
    by_cases hth : th = t
    · subst hth
      simp only [if_true]
      rcases pr with a | ⟨u, k⟩
      · simp [Sys.settled, Sys.started, hl]
      · simp [Sys.settled, Sys.started, hl]
    · simp only [hth, if_false]
      exact ⟨List.prefix_refl _, List.prefix_refl _⟩

/-! ### All threads -/

/-- The queries the properties are stated for. -/
structure Ask.Ok (k : Ask) : Prop where
  wf : ∀ l ∈ k.labels, WFLabel l
  range : k.from_.toNat ≤ k.to_.toNat

/-- What holds of a finished query. -/
structure AnswerOk (lo hi : U64) (x : Answer) : Prop where
  no_panic : x.result ≠ .panic
  snap : ∀ ss, x.result = .ok ss → Snapshots lo hi x.before x.after x.ask.labels x.ask.from_ x.ask.to_ ss
  err : ∀ e, x.result = .err e → MayFail lo hi x.before x.after x.begun x.ask.labels x.ask.from_ x.ask.to_ e

/-- What holds of everything at every moment. -/
structure TrInv (B : Kit) (lo hi : U64) (todo0 : Nat → Inserts) (T : Traffic) : Prop where
  sys : SysInv B lo hi todo0 T.sys
  ro : ∀ t k h n p, T.running t = some (k, h, n, p) → ReadOnly p
  since : ∀ t k h n p, T.running t = some (k, h, n, p) → h <+: T.sys.settled ∧ n ≤ T.answered.length ∧
    ∀ (i : Nat) (y : Answer), i < n → T.answered[i]? = some y → y.after <+: h
  run : LogOk lo hi T.sys.started → ∀ t k h n p, T.running t = some (k, h, n, p) → k.Ok →
    Seen Moment.le (At B lo hi) (FairAnswer lo hi h k.labels k.from_ k.to_) T.sys.moment p
  order : ∀ x ∈ T.answered, x.before <+: x.after ∧ x.after <+: x.begun ∧ x.after <+: T.sys.settled ∧ x.begun <+: T.sys.started
  earlier : ∀ (j : Nat) (x : Answer), T.answered[j]? = some x → x.earlier ≤ j ∧
    ∀ (i : Nat) (y : Answer), i < x.earlier → T.answered[i]? = some y → y.after <+: x.before
  ans : LogOk lo hi T.sys.started → ∀ x ∈ T.answered, x.ask.Ok → AnswerOk lo hi x

theorem TrInv.init (B : Kit) (lo hi : U64) (todo0 : Nat → Inserts) (asks : Nat → List Ask) :
    TrInv B lo hi todo0 (Traffic.init (newSled lo hi) todo0 asks) := by
  refine ⟨.init B lo hi todo0, ?_, ?_, ?_, ?_, ?_, ?_⟩
  · intro t k h n p e; cases e
  · intro t k h n p e; cases e
  · intro _ t k h n p e; cases e
  · intro x hx; cases hx
  · intro j x e; simp [Traffic.init] at e
  · intro _ x hx; cases hx

theorem TrInv.step {B : Kit} {lo hi : U64} {todo0 : Nat → Inserts} {T : Traffic} (h : TrInv B lo hi todo0 T) (u : Turn) :
    TrInv B lo hi todo0 (T.step B u) := by
  cases u with
  | insert t =>
    have hle := T.sys.moment_le B t
    refine ⟨h.sys.step t, h.ro, ?_, ?_, ?_, h.earlier, ?_⟩
    · intro t' k h' n p e
      obtain ⟨h1, h2⟩ := h.since t' k h' n p e
      exact ⟨h1.trans hle.1, h2⟩
    · intro hok t' k h' n p e hk
      have hs := h.run (hok.prefix hle.2) t' k h' n p e hk
      exact Seen.mono (le := Moment.le) (fun h1 h2 => Moment.le_trans h1 h2) hs hle
    · intro x hx
      obtain ⟨h1, h2, h3, h4⟩ := h.order x hx
      exact ⟨h1, h2, h3.trans hle.1, h4.trans hle.2⟩
    · intro hok x hx
      exact h.ans (hok.prefix hle.2) x hx
  | query t =>
    rcases hr : T.running t with _ | ⟨k, h', n, a | ⟨u, next⟩⟩
    · rcases ha : T.asks t with _ | ⟨k, ks⟩
      · simpa only [Traffic.step, hr, ha] using h
      · rcases hl : T.sys.lock with _ | x
        swap
        · simpa only [Traffic.step, hr, ha, hl] using h
        rw [show T.step B (.query t) = { T with
          asks := fun u => if u = t then ks else T.asks u
          running := fun u => if u = t then some (k, T.sys.settled, T.answered.length,
            if T.sys.store.poisoned then .ret .panic else kitQuery B k.labels k.from_ k.to_) else T.running u } from by
          simp only [Traffic.step, hr, ha, hl]]
        have hnew : ∀ t' k' h' n' p', (if t' = t then some (k, T.sys.settled, T.answered.length,
            if T.sys.store.poisoned then Proc.ret .panic else kitQuery B k.labels k.from_ k.to_) else T.running t') = some (k', h', n', p') →
            (k' = k ∧ h' = T.sys.settled ∧ n' = T.answered.length ∧
              p' = if T.sys.store.poisoned then Proc.ret .panic else kitQuery B k.labels k.from_ k.to_) ∨ T.running t' = some (k', h', n', p') := by
          intro t' k' h' n' p' e
          split at e
          · left
            simp only [Option.some.injEq, Prod.mk.injEq] at e
            exact ⟨e.1.symm, e.2.1.symm, e.2.2.1.symm, e.2.2.2.symm⟩
          · exact Or.inr e
        refine ⟨h.sys, ?_, ?_, ?_, h.order, h.earlier, h.ans⟩
        · intro t' k' h' n' p' e
          rcases hnew t' k' h' n' p' e with ⟨-, -, -, rfl⟩ | e
          · split
            · exact .ret _
            · exact kitQuery_readOnly B _ _ _
          · exact h.ro t' k' h' n' p' e
        · intro t' k' h' n' p' e
          rcases hnew t' k' h' n' p' e with ⟨-, rfl, rfl, -⟩ | e
          · refine ⟨List.prefix_refl _, Nat.le_refl _, ?_⟩
            intro i y hi hy
            exact (h.order y (List.mem_of_getElem? hy)).2.2.1
          · exact h.since t' k' h' n' p' e
        · intro hok t' k' h' n' p' e hk
          rcases hnew t' k' h' n' p' e with ⟨rfl, rfl, rfl, rfl⟩ | e
          · have hst := h.sys.lin.store
            rw [hl] at hst
            simp only at hst
            rw [h.sys.lin.chunk B] at hst
            have e1 : T.sys.settled = T.sys.finished.map (·.2.1) := by unfold Sys.settled; rw [hl]; simp
            have e2 : T.sys.started = T.sys.finished.map (·.2.1) := by unfold Sys.started; rw [hl]; simp
            have hr' := hok.rep B
            rw [e2, ← hst] at hr'
            have hm : T.sys.moment = ⟨T.sys.settled, T.sys.settled⟩ := by unfold Sys.moment; rw [e2, e1]
            show Seen _ _ _ T.sys.moment _
            rw [hr'.ok, hm]
            exact kitQuery_seen B hk.wf hk.range
          · exact h.run hok t' k' h' n' p' e hk
    · -- the query ends
      rw [show T.step B (.query t) = { T with
        running := fun u => if u = t then none else T.running u
        answered := T.answered ++ [⟨k, a, h', T.sys.settled, T.sys.started, n⟩] } from by simp only [Traffic.step, hr]]
      obtain ⟨hs1, hs2, hs3⟩ := h.since t k h' n _ hr
      have hold : ∀ t' k' h' n' p', (if t' = t then none else T.running t') = some (k', h', n', p') → T.running t' = some (k', h', n', p') := by
        intro t' k' h' n' p' e
        split at e
        · cases e
        · exact e
      refine ⟨h.sys, ?_, ?_, ?_, ?_, ?_, ?_⟩
      · intro t' k' h' n' p' e; exact h.ro t' k' h' n' p' (hold _ _ _ _ _ e)
      · intro t' k' h' n' p' e
        obtain ⟨h1, h2, h3⟩ := h.since t' k' h' n' p' (hold _ _ _ _ _ e)
        refine ⟨h1, by simp only [List.length_append, List.length_singleton]; omega, ?_⟩
        intro i y hi hy
        simp only at hy
        rw [List.getElem?_append_left (by omega)] at hy
        exact h3 i y hi hy
      · intro hok t' k' h' n' p' e; exact h.run hok t' k' h' n' p' (hold _ _ _ _ _ e)
      · intro x hx
        rcases List.mem_append.mp hx with hx | hx
        · exact h.order x hx
        · rw [List.mem_singleton] at hx
          subst hx
          exact ⟨hs1, T.sys.settled_started, List.prefix_refl _, List.prefix_refl _⟩
      · intro j x e
        simp only at e
        by_cases hj : j < T.answered.length
        · rw [List.getElem?_append_left hj] at e
          obtain ⟨h1, h2⟩ := h.earlier j x e
          refine ⟨h1, ?_⟩
          intro i y hi hy
          simp only at hy
          rw [List.getElem?_append_left (by omega)] at hy
          exact h2 i y hi hy
        · rw [List.getElem?_append_right (by omega)] at e
          have hx := List.mem_of_getElem? e
          rw [List.mem_singleton] at hx
          subst hx
          refine ⟨by simp only; omega, ?_⟩
          intro i y hi hy
          simp only at hi hy ⊢
          rw [List.getElem?_append_left (by omega)] at hy
          exact hs3 i y hi hy
      · intro hok x hx hxok
        rcases List.mem_append.mp hx with hx | hx
        · exact h.ans hok x hx hxok
        · rw [List.mem_singleton] at hx
          subst hx
          have hseen := h.run hok t k h' n _ hr hxok
          cases hseen with
          | ret hq =>
            obtain ⟨h1, h2, h3⟩ := hq _ (Moment.le_refl _) T.sys.settled_started hok
            exact ⟨h1, h2, h3⟩
    · -- one read
      rw [show T.step B (.query t) = { T with
        sys := { T.sys with store := u T.sys.store }
        running := fun v => if v = t then some (k, h', n, next T.sys.store) else T.running v } from by simp only [Traffic.step, hr]]
      have hro := h.ro t k h' n _ hr
      cases hro with
      | act hu hk =>
        rw [hu]
        have hnew : ∀ t' k' h'' n' p', (if t' = t then some (k, h', n, next T.sys.store) else T.running t') = some (k', h'', n', p') →
            (k' = k ∧ h'' = h' ∧ n' = n ∧ p' = next T.sys.store) ∨ T.running t' = some (k', h'', n', p') := by
          intro t' k' h' n' p' e
          split at e
          · left
            simp only [Option.some.injEq, Prod.mk.injEq] at e
            exact ⟨e.1.symm, e.2.1.symm, e.2.2.1.symm, e.2.2.2.symm⟩
          · exact Or.inr e
        refine ⟨h.sys, ?_, ?_, ?_, h.order, h.earlier, h.ans⟩
        · intro t' k' h'' n' p' e
          rcases hnew t' k' h'' n' p' e with ⟨-, -, -, rfl⟩ | e
          · exact hk _
          · exact h.ro t' k' h'' n' p' e
        · intro t' k' h'' n' p' e
          rcases hnew t' k' h'' n' p' e with ⟨-, rfl, rfl, -⟩ | e
          · exact h.since t k h'' n' _ hr
          · exact h.since t' k' h'' n' p' e
        · intro hok t' k' h'' n' p' e hkk
          rcases hnew t' k' h'' n' p' e with ⟨rfl, rfl, rfl, rfl⟩ | e
          · have hseen := h.run hok t k' h'' n' _ hr hkk
            cases hseen with
            | act _ hs => exact hs _ _ (Moment.le_refl _) (h.sys.at hok)
          · exact h.run hok t' k' h'' n' p' e hkk

theorem TrInv.exec (B : Kit) (lo hi : U64) (todo0 : Nat → Inserts) (asks : Nat → List Ask) (sched : List Turn) :
    TrInv B lo hi todo0 ((Traffic.init (newSled lo hi) todo0 asks).exec B sched) := by
  induction sched using List.reverseRecOn with
  | nil => exact .init B lo hi todo0 asks
  | append_singleton l t ih =>
    unfold Traffic.exec
    rw [List.foldl_append]
    exact ih.step t

end Verif
