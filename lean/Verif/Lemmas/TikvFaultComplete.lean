import Verif.Lemmas.TikvFaultInv
namespace Verif
open List

/-! ### A series none of whose inserts failed -/

/-- The store has everything about the label set `L`, with points `ps`. -/
structure Whole (ipre spre : Str) (L : Labels) (ps : List TimePoint) (kv : KV) (i : U64) (ls : Labels) : Prop where
  perm : ls.Perm L
  key : kv (ipre ++ encodeLabels L true) = some (toBE i)
  metad : kv (ipre ++ encodeId i) = some (encodeLabels ls false)
  rev : ∀ l ∈ L, ∃ ids : List U64, kv (ipre ++ encodeLabel l) = some (ids.flatMap toBE) ∧ i ∈ ids
  points : kv (tikvKey spre i) = some (ps.flatMap encodePoint)
  nonempty : ps ≠ []

/-- Nothing yet, or everything. -/
def WholeOrNone (ipre spre : Str) (L : Labels) (ps : List TimePoint) (kv : KV) : Prop :=
  (kv (ipre ++ encodeLabels L true) = none ∧ ps = []) ∨ ∃ i ls, Whole ipre spre L (acceptIncreasing ps) kv i ls

/-- Extending entries, and changes elsewhere, keep it. -/
theorem Whole.frame {ipre spre : Str} {L : Labels} {ps : List TimePoint} {kv kv' : KV} {i : U64} {ls : Labels} (h : Whole ipre spre L ps kv i ls)
    (hkey : kv' (ipre ++ encodeLabels L true) = kv (ipre ++ encodeLabels L true))
    (hmeta : kv' (ipre ++ encodeId i) = kv (ipre ++ encodeId i))
    (hrev : ∀ l ∈ L, ∃ j, Extended j (kv (ipre ++ encodeLabel l)) (kv' (ipre ++ encodeLabel l)))
    (hpts : kv' (tikvKey spre i) = kv (tikvKey spre i)) : Whole ipre spre L ps kv' i ls := by
  refine ⟨h.perm, by rw [hkey, h.key], by rw [hmeta, h.metad], ?_, by rw [hpts, h.points], h.nonempty⟩
  intro l hl
  obtain ⟨ids, h1, h2⟩ := h.rev l hl
  obtain ⟨j, hj⟩ := hrev l hl
  rcases hj with hj | hj
  · exact ⟨ids, by rw [hj, h1], h2⟩
  · exact ⟨ids ++ [j], by rw [hj, h1]; simp, by simp [h2]⟩

theorem whole_other {ipre spre : Str} (hp : spre.length + 8 ≤ ipre.length) {lo hi : U64} {c : Created} {ser : U64 → List TimePoint}
    {h : Inserts} {st st' : Chunk Unit × KV} (R : FaultRep ipre spre lo hi c ser h st) {L : Labels} (hL : WFSet L) {ps : List TimePoint}
    (H : WholeOrNone ipre spre L ps st.2) {ls : Labels} (hls : WFSet ls) (hne : ¬ ls.Perm L) {p : TimePoint} {r : Res Unit}
    (hcase : InsertCase ipre spre ls p st st' r) : WholeOrNone ipre spre L ps st'.2 := by
  have hkey : ∀ k, k ≠ [] → ∀ i, ipre ++ k ≠ tikvKey spre i := fun k hk i => (tikvKey_ne_index hp i hk).symm
  have wr : ∀ {kv kv' : KV} {i : U64}, (kv' = kv ∨ kv' = (tikvWrite spre kv i p).2) → ∀ k, k ≠ tikvKey spre i → kv' k = kv k := by
    intro kv kv' i hk k hne
    rcases hk with rfl | rfl
    · rfl
    · unfold tikvWrite
      repeat' split
      all_goals first
        | rfl
        | exact KV.set_other _ _ hne
  rcases hcase with ⟨-, rfl⟩ | ⟨hb, kv1, hc, hn, hw, -⟩ | ⟨j, hb, hn, hw, -⟩
  · exact H
  · have hset : ∀ (kv2 : KV), (∀ k, k ≠ tikvKey spre st.1.nextId → kv2 k = kv1 k) →
        kv2 (ipre ++ encodeLabels L true) = st.2 (ipre ++ encodeLabels L true) := by
      intro kv2 h2
      rw [h2 _ (hkey _ (encodeLabels_ne_nil L) _), hc.other]
      · intro e
        exact hne (perm_of_sortLabels_eq (encodeLabels_inj true hls.wf hL.wf (pre_inj.mp e).symm))
      · exact fun e => encodeId_ne_labels _ L (pre_inj.mp e).symm
      · exact fun l hl e => hL.key_ne_label (hls.wf l hl) (pre_inj.mp e)
    have h2 := wr hw
    rcases H with ⟨H1, H2⟩ | ⟨i, l0, H⟩
    · exact Or.inl ⟨by rw [hset _ h2, H1], H2⟩
    · refine Or.inr ⟨i, l0, H.frame (hset _ h2) ?_ ?_ ?_⟩
      · obtain ⟨s, hs, -, hv⟩ := R.index.byLabels L hL _ H.key
        have hi : i ≠ st.1.nextId := by
          intro e
          have := R.bound s hs
          rw [← toBE_inj hv, e, R.next] at this; omega
        rw [h2 _ (hkey _ (encodeId_ne_nil i) _), hc.other]
        · exact fun e => encodeId_ne_labels _ ls (pre_inj.mp e)
        · exact fun e => hi (encodeId_inj (pre_inj.mp e))
        · exact fun l hl e => encodeId_ne_label i l (pre_inj.mp e)
      · intro l hl
        rw [h2 _ (hkey _ (encodeLabel_ne_nil l) _)]
        by_cases hm : l ∈ ls
        · exact ⟨_, hc.rev l hm⟩
        · refine ⟨0#64, Or.inl (hc.other _ ?_ ?_ ?_)⟩
          · exact fun e => hls.key_ne_label (hL.wf l hl) (pre_inj.mp e).symm
          · exact fun e => encodeId_ne_label _ l (pre_inj.mp e).symm
          · intro l' hl' e
            rw [← encodeLabel_inj (hL.wf l hl) (hls.wf l' hl') (pre_inj.mp e)] at hl'
            exact hm hl'
      · obtain ⟨s, hs, -, hv⟩ := R.index.byLabels L hL _ H.key
        have hi : i ≠ st.1.nextId := by
          intro e
          have := R.bound s hs
          rw [← toBE_inj hv, e, R.next] at this; omega
        rw [h2 _ (fun e => hi (tikvKey_inj e)), hc.other _ (tikvKey_ne_index hp i (encodeLabels_ne_nil ls))
          (tikvKey_ne_index hp i (encodeId_ne_nil _)) fun l _ => tikvKey_ne_index hp i (encodeLabel_ne_nil l)]
  · have h2 := wr hw
    rcases H with ⟨H1, H2⟩ | ⟨i, l0, H⟩
    · exact Or.inl ⟨by rw [h2 _ (hkey _ (encodeLabels_ne_nil L) _), H1], H2⟩
    · refine Or.inr ⟨i, l0, H.frame (h2 _ (hkey _ (encodeLabels_ne_nil L) _)) (h2 _ (hkey _ (encodeId_ne_nil i) _))
        (fun l _ => ⟨0#64, Or.inl (h2 _ (hkey _ (encodeLabel_ne_nil l) _))⟩) (h2 _ ?_)⟩
      intro e
      obtain ⟨s, hs, hsp, hv⟩ := R.index.byLabels L hL _ H.key
      obtain ⟨t, ht, htp, hv'⟩ := R.index.byLabels ls hls _ hb
      have e' : s = t := R.id_unique hs ht (by rw [← toBE_inj hv, ← toBE_inj hv', tikvKey_inj e])
      exact hne (htp.symm.trans (e' ▸ hsp))

/-- An insert of `L` without failures. -/
theorem whole_mine {ipre spre : Str} (hp : spre.length + 8 ≤ ipre.length) {lo hi : U64} {c : Created} {ser : U64 → List TimePoint}
    {h : Inserts} {st : Chunk Unit × KV} (R : FaultRep ipre spre lo hi c ser h st) {L : Labels} (hL : WFSet L) {ps : List TimePoint}
    (H : WholeOrNone ipre spre L ps st.2) {ls : Labels} (hls : WFSet ls) (hperm : ls.Perm L) {p : TimePoint} (hin : st.1.isInRange p.ts = true)
    {os : List OpOutcome} (hd : AllDone os) : WholeOrNone ipre spre L (ps ++ [p]) (faultyInsert ipre spre st ⟨ls, p, os⟩).2.2 := by
  obtain ⟨c0, kv⟩ := st
  have hk : encodeLabels ls true = encodeLabels L true := encodeLabels_perm hls.distinct hperm true
  have e1 : (faultyInsert ipre spre (c0, kv) ⟨ls, p, os⟩).2.2 = ((insertP ipre spre c0 ls p).run kv).2 :=
    ((insertP ipre spre c0 ls p).exec_done hd kv).2.1
  rw [e1]
  have hfine : c0.poisoned = false := R.fine
  unfold insertP
  simp only at hin
  simp only [hfine, hin, Bool.false_eq_true, if_false, if_true]
  rw [KvProg.run_bind, byLabelsP_run]
  unfold tikvByLabels
  rw [hk]
  rcases H with ⟨H1, rfl⟩ | ⟨i, l0, H⟩
  · simp only at H1
    rw [H1]
    simp only
    rw [KvProg.run_bind, createP_run]
    have ha := tikv_after hls ipre (idNext c0.nextId).1 kv
    unfold tikvCreate
    simp only
    rw [KvProg.run_bind, writeP_run]
    simp only [KvProg.run_ret]
    generalize (tikvCreateSteps ipre ls (idNext c0.nextId).1).foldl (fun kv f => f kv) kv = kv1 at ha
    have hnone : kv1 (tikvKey spre (idNext c0.nextId).1) = none := by
      rw [ha.other _ (tikvKey_ne_index hp _ (encodeLabels_ne_nil ls))
          (tikvKey_ne_index hp _ (encodeId_ne_nil _)) fun l _ => tikvKey_ne_index hp _ (encodeLabel_ne_nil l)]
      refine (R.store _).trans ?_
      rw [if_pos]
      by_contra hne
      obtain ⟨s, hs, he, -⟩ := R.sound _ hne
      have := R.bound s hs
      have h2 : (idNext c0.nextId).1 = c0.nextId := rfl
      rw [he, h2] at this
      have h3 : c0.nextId.toNat = c.length + 1 := R.next
      omega
    have hw : (tikvWrite spre kv1 (idNext c0.nextId).1 p).2 = kv1.set (tikvKey spre (idNext c0.nextId).1) (encodePoint p) := by
      unfold tikvWrite; rw [hnone]
    rw [hw]
    have hset : ∀ k, k ≠ [] → kv1.set (tikvKey spre (idNext c0.nextId).1) (encodePoint p) (ipre ++ k) = kv1 (ipre ++ k) :=
      fun k hk => KV.set_other _ _ (tikvKey_ne_index hp _ hk).symm
    refine Or.inr ⟨(idNext c0.nextId).1, ls, hperm, ?_, ?_, ?_, ?_, ?_⟩
    · rw [hset _ (encodeLabels_ne_nil L), ← hk]; exact ha.set
    · rw [hset _ (encodeId_ne_nil _)]; exact ha.metad
    · intro l hl
      have hl' : l ∈ ls := hperm.mem_iff.mpr hl
      have hr := ha.rev l hl'
      rw [hset _ (encodeLabel_ne_nil l)]
      rcases hkl : kv (ipre ++ encodeLabel l) with _ | v
      · refine ⟨[(idNext c0.nextId).1], ?_, by simp⟩
        simp only [tikvCodec, hkl] at hr
        rw [hr]; simp
      · obtain ⟨ids, -, rfl, -, -⟩ := R.index.rev l (hL.wf l hl) v hkl
        refine ⟨ids ++ [(idNext c0.nextId).1], ?_, by simp⟩
        simp only [tikvCodec, hkl] at hr
        rw [hr]; simp
    · rw [KV.set_same]
      simp [acceptIncreasing]
    · simp [acceptIncreasing]
  · have hkey := H.key
    simp only at hkey
    rw [hkey]
    simp only [fromBE_toBE, Res.ofPanic, Res.bind_ok]
    rw [KvProg.run_bind, writeP_run]
    have hgoal : WholeOrNone ipre spre L (ps ++ [p]) (tikvWrite spre kv i p).2 := ?_
    · rcases hw : (tikvWrite spre kv i p).1 with _ | _ | _ <;> exact hgoal
    have hst : StoreInv (tikvKey spre) (upd ser i (acceptIncreasing ps)) kv := by
      intro j
      by_cases hj : j = i
      · subst hj
        simp only [upd, if_true]
        rw [if_neg H.nonempty]; exact H.points
      · simp only [upd, hj, if_false]; exact R.store j
    have hw := tikvWrite_inv hst i p
    have hu : upd ser i (acceptIncreasing ps) i = acceptIncreasing ps := by simp [upd]
    rw [hu] at hw
    have happ := acceptIncreasing_append ps p
    split at hw
    · rename_i hc
      rw [if_pos hc] at happ
      obtain ⟨w1, -⟩ := write_effect hst (Or.inr rfl : (tikvWrite spre kv i p).2 = kv ∨ (tikvWrite spre kv i p).2 = (tikvWrite spre kv i p).2)
      have hidx : ∀ k, k ≠ [] → (tikvWrite spre kv i p).2 (ipre ++ k) = kv (ipre ++ k) := fun k hk => w1 _ (tikvKey_ne_index hp _ hk).symm
      refine Or.inr ⟨i, l0, H.perm, ?_, ?_, ?_, ?_, ?_⟩
      · rw [hidx _ (encodeLabels_ne_nil L)]; exact H.key
      · rw [hidx _ (encodeId_ne_nil _)]; exact H.metad
      · intro l hl; rw [hidx _ (encodeLabel_ne_nil l)]; exact H.rev l hl
      · rw [hw.2 i, happ]
        simp [upd]
      · rw [happ]; simp
    · rename_i hc
      rw [if_neg hc] at happ
      rw [hw]
      refine Or.inr ⟨i, l0, ?_⟩
      rw [happ]; exact H

/-! ### The run -/

/-- The calls of a history. -/
def callsOf (h : List FaultyInsert) : Inserts := h.map fun w => (w.ls, w.p)

theorem FaultRep.new {ipre spre : Str} (lo hi : U64) {kv : KV} (h1 : ∀ k, kv (ipre ++ k) = none) (h2 : ∀ i, kv (tikvKey spre i) = none) :
    FaultRep ipre spre lo hi [] (fun _ => []) [] (Chunk.new () lo hi, kv) where
  lo_eq := rfl
  hi_eq := rfl
  fine := rfl
  next := rfl
  ids := by simp
  bound := by simp
  wf := by simp
  len := by simp
  origin := by simp
  index := ⟨fun ls _ v hv => by simp [h1] at hv, fun i v hv => by simp [h1] at hv, fun l _ v hv => by simp [h1] at hv⟩
  store := fun i => by simp [h2]
  sound := by simp
  incr := by simp [SIncr]

theorem insideOnly_append' (lo hi : U64) (h : Inserts) (w : Labels × TimePoint) :
    insideOnly lo hi (h ++ [w]) = if inside lo hi w.2 then insideOnly lo hi h ++ [w] else insideOnly lo hi h := by
  unfold insideOnly
  rw [List.filter_append]
  by_cases hw : inside lo hi w.2 <;> simp [hw]

theorem faultyRun_append (ipre spre : Str) (lo hi : U64) (kv : KV) (h : List FaultyInsert) (w : FaultyInsert) :
    faultyRun ipre spre lo hi kv (h ++ [w]) = (faultyInsert ipre spre (faultyRun ipre spre lo hi kv h) w).2 := by
  unfold faultyRun; rw [List.foldl_append]; rfl

theorem faultyRun_rep {ipre spre : Str} (hp : spre.length + 8 ≤ ipre.length) (lo hi : U64) {kv : KV} (h1 : ∀ k, kv (ipre ++ k) = none)
    (h2 : ∀ i, kv (tikvKey spre i) = none) (h : List FaultyInsert) (hwf : ∀ w ∈ h, WFSet w.ls) (hlen : h.length < 2 ^ 64 - 1) :
    (∃ c ser, FaultRep ipre spre lo hi c ser (insideOnly lo hi (callsOf h)) (faultyRun ipre spre lo hi kv h)) ∧
      ∀ L, WFSet L → (∀ w ∈ h, w.ls.Perm L → AllDone w.os) →
        WholeOrNone ipre spre L (pointsFor (insideOnly lo hi (callsOf h)) L) (faultyRun ipre spre lo hi kv h).2 := by
  induction h using List.reverseRecOn with
  | nil => exact ⟨⟨_, _, FaultRep.new lo hi h1 h2⟩, fun L _ _ => Or.inl ⟨h1 _, rfl⟩⟩
  | append_singleton h w ih =>
    rw [List.length_append, List.length_singleton] at hlen
    obtain ⟨⟨c, ser, R⟩, hwhole⟩ := ih (fun x hx => hwf x (by simp [hx])) (by omega)
    have hcl : callsOf (h ++ [w]) = callsOf h ++ [(w.ls, w.p)] := by simp [callsOf]
    have hll : (insideOnly lo hi (callsOf h)).length ≤ h.length := by
      unfold insideOnly
      exact (List.length_filter_le _ _).trans (by simp [callsOf])
    rw [faultyRun_append, hcl, insideOnly_append']
    have hww := hwf w (by simp)
    have hstep := R.insert hp (by omega) hww w.p w.os
    obtain ⟨ls, p, os⟩ := w
    by_cases hi' : inside lo hi p = true
    · obtain ⟨-, c', ser', R'⟩ := hstep.2 hi'
      rw [if_pos hi']
      refine ⟨⟨c', ser', R'⟩, ?_⟩
      intro L hL hall
      have H := hwhole L hL fun x hx => hall x (by simp [hx])
      have hin : (faultyRun ipre spre lo hi kv h).1.isInRange p.ts = true := by rw [inside_iff R.lo_eq R.hi_eq p]; exact hi'
      rw [pointsFor_append]
      split
      · rename_i hpm
        exact whole_mine hp R hL H hww hpm hin (hall ⟨ls, p, os⟩ (by simp) hpm)
      · rename_i hpm
        exact whole_other hp R hL H hww hpm (insertP_cases hp R.index R.store R.fine hww hin os)
    · have ho : inside lo hi p = false := by simpa using hi'
      rw [if_neg hi', hstep.1 ho]
      exact ⟨⟨c, ser, R⟩, fun L hL hall => hwhole L hL fun x hx => hall x (by simp [hx])⟩

/-! ### Queries -/

theorem readAll_mem {σ : Type} {C : Comp σ} {s : σ} {a b : U64} {ms : List (U64 × Labels)} {ss : List Series} (h : readAll C s a b ms = .ok ss) :
    (∀ m ∈ ms, ∃ d, C.read s m.1 a b = .ok d ∧ (d ≠ [] → ⟨m.1, m.2, d⟩ ∈ ss)) ∧
      ∀ x ∈ ss, (x.id, x.labels) ∈ ms ∧ C.read s x.id a b = .ok x.points ∧ x.points ≠ [] := by
  induction ms generalizing ss with
  | nil => simp only [readAll] at h; cases h; simp
  | cons m ms ih =>
    obtain ⟨i, ls⟩ := m
    unfold readAll at h
    rcases hr : C.read s i a b with d | e | _
    · rw [hr] at h
      simp only [Res.bind_ok] at h
      rcases hs : readAll C s a b ms with ss' | e | _
      · rw [hs] at h
        simp only [Res.bind_ok, Res.ok.injEq] at h
        obtain ⟨i1, i2⟩ := ih hs
        by_cases hd : d = []
        · subst hd
          simp only [List.length_nil, if_true] at h
          subst h
          refine ⟨?_, fun x hx => ⟨by simp [(i2 x hx).1], (i2 x hx).2⟩⟩
          intro m hm
          rcases List.mem_cons.mp hm with rfl | hm
          · exact ⟨[], hr, fun h => absurd rfl h⟩
          · exact i1 m hm
        · have hl : d.length ≠ 0 := by simpa using hd
          rw [if_neg hl] at h
          subst h
          refine ⟨?_, ?_⟩
          · intro m hm
            rcases List.mem_cons.mp hm with rfl | hm
            · exact ⟨d, hr, fun _ => by simp⟩
            · obtain ⟨d', h1, h2⟩ := i1 m hm
              exact ⟨d', h1, fun h => by simp [h2 h]⟩
          · intro x hx
            rcases List.mem_cons.mp hx with rfl | hx
            · exact ⟨by simp, hr, hd⟩
            · exact ⟨by simp [(i2 x hx).1], (i2 x hx).2⟩
      · rw [hs] at h; cases h
      · rw [hs] at h; cases h
    · rw [hr] at h; cases h
    · rw [hr] at h; cases h

theorem readAll_ne_panic {σ : Type} {C : Comp σ} {s : σ} {a b : U64} {ms : List (U64 × Labels)} (h : ∀ m ∈ ms, C.read s m.1 a b ≠ .panic) :
    readAll C s a b ms ≠ .panic := by
  induction ms with
  | nil => simp [readAll]
  | cons m ms ih =>
    obtain ⟨i, ls⟩ := m
    unfold readAll
    have h1 := h (i, ls) (by simp)
    have h2 := ih fun m hm => h m (by simp [hm])
    rcases hr : C.read s i a b with d | e | _
    · simp only [Res.bind_ok]
      rcases hs : readAll C s a b ms with ss' | e | _
      · simp
      · simp
      · exact absurd hs h2
    · simp
    · exact absurd hr h1

/-- The index decodes; what it lists was created. -/
theorem sound_metadata {ipre : Str} {c : Created} {kv : KV} (h : IndexSound ipre c kv) (hwf : ∀ s ∈ c, WFSet s.1) {q : Labels}
    (hq : ∀ l ∈ q, WFLabel l) :
    ∃ ids : List U64, tikvMetadata ipre kv q = .ok (ids.filterMap (tikvMeta1 ipre kv)) ∧
      (∀ i, i ∈ ids ↔ (q.filterMap fun l => kv (ipre ++ encodeLabel l)) ≠ [] ∧
        ∀ l ∈ q, ∀ v, kv (ipre ++ encodeLabel l) = some v → ∃ js : List U64, v = js.flatMap toBE ∧ i ∈ js) ∧
      ∀ m ∈ ids.filterMap (tikvMeta1 ipre kv), m.1 ∈ ids ∧ ∃ s ∈ c, s.2 = m.1 ∧ m.2 = sortLabels s.1 := by
  have hdec : ∃ ts, Res.mapM decodeIds (q.filterMap fun l => kv (ipre ++ encodeLabel l)) = .ok ts ∧ (∀ t ∈ ts, SAsc t) ∧
      (q.filterMap fun l => kv (ipre ++ encodeLabel l)) = ts.map fun t => t.flatMap toBE := by
    induction q with
    | nil => exact ⟨[], rfl, by simp, rfl⟩
    | cons l q ih =>
      obtain ⟨ts, i1, i2, i3⟩ := ih fun x hx => hq x (by simp [hx])
      rcases hk : kv (ipre ++ encodeLabel l) with _ | v
      · refine ⟨ts, ?_, i2, ?_⟩
        · rw [List.filterMap_cons_none (f := fun l => kv (ipre ++ encodeLabel l)) hk, i1]
        · rw [List.filterMap_cons_none (f := fun l => kv (ipre ++ encodeLabel l)) hk, i3]
      · obtain ⟨ids, -, rfl, hs, -⟩ := h.rev l (hq l (by simp)) v hk
        refine ⟨ids :: ts, ?_, ?_, ?_⟩
        · rw [List.filterMap_cons_some (f := fun l => kv (ipre ++ encodeLabel l)) hk]
          simp [Res.mapM, tikv_decode_join, i1]
        · intro t ht
          rcases List.mem_cons.mp ht with rfl | ht
          · exact hs
          · exact i2 t ht
        · rw [List.filterMap_cons_some (f := fun l => kv (ipre ++ encodeLabel l)) hk, i3]; rfl
  obtain ⟨ts, h1, h2, h3⟩ := hdec
  have hspec := (intersectAll_spec ts h2).2
  refine ⟨intersectAll ts, ?_, ?_, ?_⟩
  · unfold tikvMetadata tikvContains
    rw [h1]; rfl
  · intro i
    rw [hspec, h3]
    refine and_congr (by simp) ⟨?_, ?_⟩
    · intro hall l hl v hv
      have hm : v ∈ ts.map fun t => t.flatMap toBE := by
        rw [← h3]; exact List.mem_filterMap.mpr ⟨l, hl, hv⟩
      obtain ⟨t, ht, rfl⟩ := List.mem_map.mp hm
      exact ⟨t, rfl, hall t ht⟩
    · intro hall t ht
      have hm : t.flatMap toBE ∈ q.filterMap fun l => kv (ipre ++ encodeLabel l) := by
        rw [h3]; exact List.mem_map.mpr ⟨t, ht, rfl⟩
      obtain ⟨l, hl, hv⟩ := List.mem_filterMap.mp hm
      obtain ⟨js, e, hi⟩ := hall l hl _ hv
      have := tikv_decode_join t
      rw [e, tikv_decode_join] at this
      cases this; exact hi
  · intro m hm
    obtain ⟨i, hii, hi⟩ := List.mem_filterMap.mp hm
    unfold tikvMeta1 at hi
    rcases hk : kv (ipre ++ encodeId i) with _ | v
    · rw [hk] at hi; cases hi
    · obtain ⟨s, hs, he, rfl⟩ := h.byId i v hk
      rw [hk] at hi
      have hw := hwf s hs
      simp only [decode_encodeLabels hw.nonempty hw.wf, Option.some.injEq] at hi
      subst hi
      exact ⟨hii, s, hs, he, rfl⟩

theorem specRead_ne_panic (s : List TimePoint) (a b : U64) : specRead s a b ≠ .panic := by
  unfold specRead
  split
  · split <;> simp
  · simp

theorem FaultRep.read {ipre spre : Str} {lo hi : U64} {c : Created} {ser : U64 → List TimePoint} {h : Inserts} {st : Chunk Unit × KV}
    (R : FaultRep ipre spre lo hi c ser h st) (B : BinSearch) (i : U64) {a b : U64} (hab : a.toNat ≤ b.toNat) :
    tikvRead B spre st.2 i a b = specRead (ser i) a b := by
  rw [tikvRead_eq R.store]
  by_cases h0 : ser i = []
  · rw [if_pos h0, h0]; rfl
  · rw [if_neg h0, readSeries_spec (R.incr i) h0 hab]

theorem specRead_ok_eq {s d : List TimePoint} {a b : U64} (h : specRead s a b = .ok d) : d = inRange s a b := by
  unfold specRead at h
  split at h
  · split at h
    · cases h
    · cases h; rfl
  · cases h

/-- Any query under any failures: an error, or series that were created. -/
theorem FaultRep.query {ipre spre : Str} {lo hi : U64} {c : Created} {ser : U64 → List TimePoint} {h : Inserts} {st : Chunk Unit × KV}
    (R : FaultRep ipre spre lo hi c ser h st) (B : BinSearch) {q : Labels} (hq : ∀ l ∈ q, WFLabel l) {a b : U64} (hab : a.toNat ≤ b.toNat)
    (os : List OpOutcome) :
    faultyQuery B ipre spre st q a b os ≠ .panic ∧
      ∀ ss, faultyQuery B ipre spre st q a b os = .ok ss →
        ∀ x ∈ ss, ∃ s ∈ c, s.2 = x.id ∧ x.labels = sortLabels s.1 ∧ x.points = inRange (ser x.id) a b ∧ x.points ≠ [] ∧
          (∃ l ∈ q, l ∈ s.1) ∧ (AllDone os → ∀ l ∈ q, st.2 (ipre ++ encodeLabel l) ≠ none → l ∈ s.1) := by
  by_cases hr : st.1.isWithRange a b = true
  · obtain ⟨-, hx⟩ := queryP_exec B ipre spre st.1 R.fine q a b hr os st.2
    change faultyQuery B ipre spre st q a b os = _ ∨ (∃ q', q' <+ q ∧ _ ∧ ((∃ ms ms', _ ∧ _ ∧ faultyQuery B ipre spre st q a b os = _) ∨
      (_ ∧ faultyQuery B ipre spre st q a b os = _) ∨ ∃ e, _ ∧ faultyQuery B ipre spre st q a b os = _)) at hx
    rcases hx with hx | ⟨q', hq', hall, hx⟩
    · rw [hx]; exact ⟨by simp, by intro ss h; cases h⟩
    · obtain ⟨ids, hm, hids, hin⟩ := sound_metadata R.index R.wf (fun l hl => hq l (hq'.subset hl))
      rcases hx with ⟨ms, ms', h1, h2, h3⟩ | ⟨h1, -⟩ | ⟨e, h1, -⟩
      · rw [hm] at h1; cases h1
        rw [h3]
        refine ⟨readAll_ne_panic fun m _ => ?_, ?_⟩
        · show tikvRead B spre st.2 m.1 a b ≠ .panic
          rw [R.read B m.1 hab]; exact specRead_ne_panic _ _ _
        · intro ss hss x hx
          obtain ⟨g1, g2, g3⟩ := (readAll_mem hss).2 x hx
          obtain ⟨hi, s, hs, he, hl⟩ := hin _ (h2.subset g1)
          have hlab : ∀ l ∈ q', st.2 (ipre ++ encodeLabel l) ≠ none → l ∈ s.1 := by
            intro l hl hne
            rcases hv : st.2 (ipre ++ encodeLabel l) with _ | v
            · exact absurd hv hne
            · obtain ⟨js, e1, hj⟩ := ((hids _).mp hi).2 l hl v hv
              obtain ⟨js', -, e2, -, hin'⟩ := R.index.rev l (hq l (hq'.subset hl)) v hv
              have := tikv_decode_join js
              rw [← e1, e2, tikv_decode_join] at this
              cases this
              obtain ⟨t, ht, he', hlt⟩ := hin' _ hj
              rw [R.id_unique hs ht (by rw [he, he'])]; exact hlt
          refine ⟨s, hs, he, hl, ?_, g3, ?_, ?_⟩
          rotate_left
          · have hne := ((hids _).mp hi).1
            obtain ⟨v, hv⟩ := List.exists_mem_of_ne_nil _ hne
            obtain ⟨l, hl, hv⟩ := List.mem_filterMap.mp hv
            exact ⟨l, hq'.subset hl, hlab l hl (by rw [hv]; simp)⟩
          · intro hd l hl hne
            exact hlab l (by rw [hall hd]; exact hl) hne
          have g2' : tikvRead B spre st.2 x.id a b = .ok x.points := g2
          rw [R.read B x.id hab] at g2'
          exact specRead_ok_eq g2'
      · rw [hm] at h1; cases h1
      · rw [hm] at h1; cases h1
  · have e : faultyQuery B ipre spre st q a b os = .err (.outOfRange st.1.start_ st.1.end_) := by
      unfold faultyQuery queryP
      rw [if_neg (by simp [R.fine]), if_neg hr]; rfl
    rw [e]; exact ⟨by simp, by intro ss h; cases h⟩

/-- A query without failures finds a whole series. -/
theorem FaultRep.finds {ipre spre : Str} {lo hi : U64} {c : Created} {ser : U64 → List TimePoint} {h : Inserts} {st : Chunk Unit × KV}
    (R : FaultRep ipre spre lo hi c ser h st) (B : BinSearch) {L : Labels} (hL : WFSet L) {ps : List TimePoint} {i : U64} {ls : Labels}
    (W : Whole ipre spre L ps st.2 i ls) (hps : SIncr ps) {q : Labels} (hq : ∀ l ∈ q, l ∈ L) (hq0 : q ≠ []) {a b : U64} (hab : a.toNat ≤ b.toNat)
    {os : List OpOutcome} (hd : AllDone os) {ss : List Series} (hss : faultyQuery B ipre spre st q a b os = .ok ss) (hne : inRange ps a b ≠ []) :
    ∃ x ∈ ss, x.labels.Perm L ∧ x.points = inRange ps a b := by
  have e : faultyQuery B ipre spre st q a b os = (st.1.withStore st.2).query (tikvComp B ipre spre) q a b := by
    unfold faultyQuery
    rw [((queryP B ipre spre st.1 q a b).exec_done hd st.2).1]
    have := queryP_run B ipre spre st.1 q a b st.2
    unfold KvProg.run at this
    rw [Prod.ext_iff] at this
    exact this.1
  rw [e] at hss
  unfold Chunk.query at hss
  have hf : (st.1.withStore st.2).poisoned = false := R.fine
  rw [if_neg (by simp [hf])] at hss
  split at hss
  · obtain ⟨ids, hm, hids, -⟩ := sound_metadata R.index R.wf (fun l hl => hL.wf l (hq l hl))
    have hmc : (tikvComp B ipre spre).metadata (st.1.withStore st.2).store q = .ok (ids.filterMap (tikvMeta1 ipre st.2)) := hm
    rw [hmc] at hss
    simp only [Res.bind_ok] at hss
    have hi : i ∈ ids := by
      rw [hids]
      refine ⟨?_, ?_⟩
      · obtain ⟨l, hl⟩ := List.exists_mem_of_ne_nil q hq0
        obtain ⟨js, hj, -⟩ := W.rev l (hq l hl)
        intro h0
        have : js.flatMap toBE ∈ q.filterMap fun l => st.2 (ipre ++ encodeLabel l) := List.mem_filterMap.mpr ⟨l, hl, hj⟩
        rw [h0] at this; cases this
      · intro l hl v hv
        obtain ⟨js, hj, hij⟩ := W.rev l (hq l hl)
        rw [hj] at hv; cases hv
        exact ⟨js, rfl, hij⟩
    obtain ⟨s, hs, -, hsv⟩ := R.index.byId _ _ W.metad
    have hmeta : tikvMeta1 ipre st.2 i = some (i, sortLabels s.1) := by
      have hw := R.wf s hs
      unfold tikvMeta1
      simp only [W.metad, hsv, decode_encodeLabels hw.nonempty hw.wf]
    have hsort : (sortLabels s.1).Perm L := by
      have he := encodeLabels_inj false (fun l hl => hL.wf l (W.perm.mem_iff.mp hl)) (R.wf s hs).wf hsv
      exact (sortLabels_perm s.1).trans ((perm_of_sortLabels_eq he).symm.trans W.perm)
    obtain ⟨d, hd1, hd2⟩ := (readAll_mem hss).1 (i, sortLabels s.1) (List.mem_filterMap.mpr ⟨i, hi, hmeta⟩)
    have hread : tikvRead B spre st.2 i a b = specRead ps a b := by
      have hst : StoreInv (tikvKey spre) (upd ser i ps) st.2 := by
        intro j
        by_cases hj : j = i
        · subst hj
          simp only [upd, if_true]
          rw [if_neg W.nonempty]; exact W.points
        · simp only [upd, hj, if_false]; exact R.store j
      rw [tikvRead_eq hst]
      have hu : upd ser i ps i = ps := by simp [upd]
      rw [hu, if_neg W.nonempty, readSeries_spec hps W.nonempty hab]
    have hd1' : tikvRead B spre st.2 i a b = .ok d := hd1
    rw [hread] at hd1'
    have := specRead_ok_eq hd1'
    subst this
    exact ⟨_, hd2 hne, hsort, rfl⟩
  · cases hss

end Verif
