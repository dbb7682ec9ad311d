import Verif.Lemmas.SledFaultInv
namespace Verif
open List

/-! ### A series none of whose inserts failed -/

/-- The trees have everything about the label set `L`, with points `ps`. -/
structure SlWhole (L : Labels) (ps : List TimePoint) (s : SledStores) (i : U64) (ls : Labels) : Prop where
  perm : ls.Perm L
  key : s.idx (encodeLabels L true) = some (fmtId i)
  metad : s.idx (encodeId i) = some (encodeLabels ls false)
  rev : ∀ l ∈ L, ∃ ids : List U64, s.idx (encodeLabel l) = some (sledCodec.join ids) ∧ i ∈ ids
  points : s.ser (sledKey i) = some (ps.flatMap encodePoint)
  nonempty : ps ≠ []

/-- Nothing yet, or everything. -/
def SlWholeOrNone (L : Labels) (ps : List TimePoint) (s : SledStores) : Prop :=
  (s.idx (encodeLabels L true) = none ∧ ps = []) ∨ ∃ i ls, SlWhole L ps s i ls

/-- Extending entries, and changes elsewhere, keep it. -/
theorem SlWhole.frame {L : Labels} {ps : List TimePoint} {s s' : SledStores} {i : U64} {ls : Labels} (h : SlWhole L ps s i ls)
    (hkey : s'.idx (encodeLabels L true) = s.idx (encodeLabels L true))
    (hmeta : s'.idx (encodeId i) = s.idx (encodeId i))
    (hrev : ∀ l ∈ L, ∃ j, SlExtended j (s.idx (encodeLabel l)) (s'.idx (encodeLabel l)))
    (hpts : s'.ser (sledKey i) = s.ser (sledKey i)) : SlWhole L ps s' i ls := by
  refine ⟨h.perm, by rw [hkey, h.key], by rw [hmeta, h.metad], ?_, by rw [hpts, h.points], h.nonempty⟩
  intro l hl
  obtain ⟨ids, h1, h2⟩ := h.rev l hl
  obtain ⟨j, hj⟩ := hrev l hl
  rcases hj with hj | hj
  · exact ⟨ids, by rw [hj, h1], h2⟩
  · exact ⟨ids ++ [j], by rw [hj, h1, sledCodec.app_some _ _ (List.ne_nil_of_mem h2)], by simp [h2]⟩

theorem slWhole_other {lo hi : U64} {c : Created} {ser : U64 → List TimePoint}
    {h : Inserts} {st st' : Chunk Unit × SledStores} (R : SlFaultRep lo hi c ser h st) {L : Labels} (hL : WFSet L) {ps : List TimePoint}
    (H : SlWholeOrNone L ps st.2) {ls : Labels} (hls : WFSet ls) (hne : ¬ ls.Perm L) {p : TimePoint} {r : Res Unit}
    (hcase : SlInsertCase ls p st st' r) : SlWholeOrNone L ps st'.2 := by
  have wr : ∀ {kv kv' : KV} {i : U64}, (kv' = kv ∨ kv' = (sledWrite kv i p).2) → ∀ k, k ≠ sledKey i → kv' k = kv k := by
    intro kv kv' i hk k hne
    rcases hk with rfl | rfl
    · rfl
    · unfold sledWrite
      split <;> exact KV.set_other _ _ hne
  rcases hcase with ⟨-, rfl⟩ | ⟨hb, hc, hn, hw, -, -⟩ | ⟨j, hb, hn, hix, hw, -⟩
  · exact H
  · have hset : st'.2.idx (encodeLabels L true) = st.2.idx (encodeLabels L true) := by
      rw [hc.other]
      · intro e
        exact hne (perm_of_sortLabels_eq (encodeLabels_inj true hls.wf hL.wf e.symm))
      · exact fun e => encodeId_ne_labels _ L e.symm
      · exact fun l hl e => hL.key_ne_label (hls.wf l hl) e
    have h2 := wr hw
    rcases H with ⟨H1, H2⟩ | ⟨i, l0, H⟩
    · exact Or.inl ⟨by rw [hset, H1], H2⟩
    · obtain ⟨s, hs, -, hv⟩ := R.index.byLabels L hL _ H.key
      have hi : i ≠ st.1.nextId := by
        intro e
        have := R.bound s hs
        rw [← fmtId_inj hv, e, R.next] at this; omega
      refine Or.inr ⟨i, l0, H.frame hset ?_ ?_ (h2 _ fun e => hi (sledKey_inj e))⟩
      · rw [hc.other]
        · exact fun e => encodeId_ne_labels _ ls e
        · exact fun e => hi (encodeId_inj e)
        · exact fun l hl e => encodeId_ne_label i l e
      · intro l hl
        by_cases hm : l ∈ ls
        · exact ⟨_, hc.rev l hm⟩
        · refine ⟨0#64, Or.inl (hc.other _ ?_ ?_ ?_)⟩
          · exact fun e => hls.key_ne_label (hL.wf l hl) e.symm
          · exact fun e => encodeId_ne_label _ l e.symm
          · intro l' hl' e
            rw [← encodeLabel_inj (hL.wf l hl) (hls.wf l' hl') e] at hl'
            exact hm hl'
  · have h2 := wr hw
    rcases H with ⟨H1, H2⟩ | ⟨i, l0, H⟩
    · exact Or.inl ⟨by rw [hix, H1], H2⟩
    · refine Or.inr ⟨i, l0, H.frame (by rw [hix]) (by rw [hix]) (fun l _ => ⟨0#64, Or.inl (by rw [hix])⟩) (h2 _ ?_)⟩
      intro e
      obtain ⟨s, hs, hsp, hv⟩ := R.index.byLabels L hL _ H.key
      obtain ⟨t, ht, htp, hv'⟩ := R.index.byLabels ls hls _ hb
      have e' : s = t := R.id_unique hs ht (by rw [← fmtId_inj hv, ← fmtId_inj hv', sledKey_inj e])
      exact hne (htp.symm.trans (e' ▸ hsp))

/-- An insert of `L` without failures. -/
theorem slWhole_mine {lo hi : U64} {c : Created} {ser : U64 → List TimePoint}
    {h : Inserts} {st : Chunk Unit × SledStores} (R : SlFaultRep lo hi c ser h st) {L : Labels} (hL : WFSet L) {ps : List TimePoint}
    (H : SlWholeOrNone L ps st.2) {ls : Labels} (hls : WFSet ls) (hperm : ls.Perm L) {p : TimePoint} (hin : st.1.isInRange p.ts = true)
    {os : List OpOutcome} (hd : AllDone os) : SlWholeOrNone L (ps ++ [p]) (slFaultyInsert st ⟨ls, p, os⟩).2.2 := by
  have hnx := R.next_empty
  obtain ⟨c0, s⟩ := st
  have hk : encodeLabels ls true = encodeLabels L true := encodeLabels_perm hls.distinct hperm true
  have e1 : (slFaultyInsert (c0, s) ⟨ls, p, os⟩).2.2 = ((slInsertP c0 ls p).run s).2 := ((slInsertP c0 ls p).exec_done hd s).2.1
  rw [e1]
  have hfine : c0.poisoned = false := R.fine
  have hst0 := R.store
  have hix0 := R.index
  simp only at hin hst0 hix0 hnx H
  unfold slInsertP
  simp only [hfine, hin, Bool.false_eq_true, if_false, if_true]
  have hb0 : (slByLabelsP ls).run s = (sledByLabels s.idx ls, s) := by
    unfold TreeProg.run; rw [(slByLabelsP_reports ls).clean, (slByLabelsP_reports ls).same]
  rw [TreeProg.run_bind, hb0]
  unfold sledByLabels
  rw [hk]
  rcases H with ⟨H1, rfl⟩ | ⟨i, l0, H⟩
  · rw [H1]
    simp only
    rw [TreeProg.run_bind, slCreateP_run]
    have hcr : sledCreate s.idx ls (idNext c0.nextId).1 = (.ok (), (sledCreateSteps ls (idNext c0.nextId).1).foldl (fun kv f => f kv) s.idx) := by
      unfold sledCreate; rw [hk, H1]; rfl
    rw [hcr]
    have ha := sled_after hls (idNext c0.nextId).1 s.idx
    simp only
    rw [TreeProg.run_bind, slWriteP_run]
    simp only [TreeProg.run_ret]
    generalize (sledCreateSteps ls (idNext c0.nextId).1).foldl (fun kv f => f kv) s.idx = kv1 at ha
    have hnone : s.ser (sledKey (idNext c0.nextId).1) = none := by
      refine (hst0 _).trans ?_
      rw [if_pos (show ser (idNext c0.nextId).1 = [] from hnx)]
    have hw : (sledWrite s.ser (idNext c0.nextId).1 p).2 = s.ser.set (sledKey (idNext c0.nextId).1) (encodePoint p) := by
      unfold sledWrite; rw [hnone]
    rw [hw]
    refine Or.inr ⟨(idNext c0.nextId).1, ls, hperm, ?_, ?_, ?_, ?_, by simp⟩
    · show kv1 _ = _
      rw [← hk]; exact ha.set
    · exact ha.metad
    · intro l hl
      have hl' : l ∈ ls := hperm.mem_iff.mpr hl
      have hr := ha.rev l hl'
      simp only [show sledCodec.pre = [] from rfl, List.nil_append] at hr
      show ∃ ids, kv1 _ = _ ∧ _
      rcases hkl : s.idx (encodeLabel l) with _ | v
      · refine ⟨[(idNext c0.nextId).1], ?_, by simp⟩
        rw [hr, hkl, sledCodec.app_none]
      · obtain ⟨ids, h0, rfl, -, -⟩ := hix0.rev l (hL.wf l hl) v hkl
        refine ⟨ids ++ [(idNext c0.nextId).1], ?_, by simp⟩
        rw [hr, hkl, sledCodec.app_some _ _ h0]
    · refine (KV.set_same _ _ _).trans ?_
      simp
  · rw [H.key]
    simp only [parseId_fmtId, Res.bind_ok]
    rw [TreeProg.run_bind, slWriteP_run]
    have hw1 : (sledWrite s.ser i p).1 = .ok () := by unfold sledWrite; split <;> rfl
    have hw2 : (sledWrite s.ser i p).2 = s.ser.set (sledKey i) (ps.flatMap encodePoint ++ encodePoint p) := by
      unfold sledWrite; rw [H.points]
    rw [hw1, hw2]
    refine Or.inr ⟨i, l0, H.perm, H.key, H.metad, H.rev, ?_, by simp⟩
    refine (KV.set_same _ _ _).trans ?_
    simp

/-! ### The run -/

theorem SlFaultRep.new (lo hi : U64) : SlFaultRep lo hi [] (fun _ => []) [] (Chunk.new () lo hi, ⟨KV.empty, KV.empty⟩) where
  lo_eq := rfl
  hi_eq := rfl
  fine := rfl
  next := rfl
  ids := by simp
  bound := by simp
  wf := by simp
  len := by simp
  origin := by simp
  index := ⟨fun ls _ v hv => by simp [KV.empty] at hv, fun i v hv => by simp [KV.empty] at hv, fun l _ v hv => by simp [KV.empty] at hv⟩
  store := fun i => by simp [KV.empty]
  sound := by simp

theorem slFaultyRun_append (lo hi : U64) (h : List FaultyInsert) (w : FaultyInsert) :
    slFaultyRun lo hi (h ++ [w]) = (slFaultyInsert (slFaultyRun lo hi h) w).2 := by
  unfold slFaultyRun; rw [List.foldl_append]; rfl

theorem insideOnly_length_le (lo hi : U64) (h : List FaultyInsert) : (insideOnly lo hi (callsOf h)).length ≤ h.length := by
  unfold insideOnly
  exact (List.length_filter_le _ _).trans (by simp [callsOf])

theorem slFaultyRun_rep (lo hi : U64) (h : List FaultyInsert) (hwf : ∀ w ∈ h, WFSet w.ls) (hlen : h.length < 2 ^ 64 - 1) :
    (∃ c ser, SlFaultRep lo hi c ser (insideOnly lo hi (callsOf h)) (slFaultyRun lo hi h)) ∧
      ∀ L, WFSet L → (∀ w ∈ h, w.ls.Perm L → AllDone w.os) →
        SlWholeOrNone L (pointsFor (insideOnly lo hi (callsOf h)) L) (slFaultyRun lo hi h).2 := by
  induction h using List.reverseRecOn with
  | nil => exact ⟨⟨_, _, SlFaultRep.new lo hi⟩, fun L _ _ => Or.inl ⟨rfl, rfl⟩⟩
  | append_singleton h w ih =>
    rw [List.length_append, List.length_singleton] at hlen
    obtain ⟨⟨c, ser, R⟩, hwhole⟩ := ih (fun x hx => hwf x (by simp [hx])) (by omega)
    have hcl : callsOf (h ++ [w]) = callsOf h ++ [(w.ls, w.p)] := by simp [callsOf]
    have hll := insideOnly_length_le lo hi h
    rw [slFaultyRun_append, hcl, insideOnly_append']
    have hww := hwf w (by simp)
    have hstep := R.insert (by omega) hww w.p w.os
    obtain ⟨ls, p, os⟩ := w
    by_cases hi' : inside lo hi p = true
    · obtain ⟨-, c', ser', R', -⟩ := hstep.2 hi'
      rw [if_pos hi']
      refine ⟨⟨c', ser', R'⟩, ?_⟩
      intro L hL hall
      have H := hwhole L hL fun x hx => hall x (by simp [hx])
      have hin : (slFaultyRun lo hi h).1.isInRange p.ts = true := by rw [inside_iff R.lo_eq R.hi_eq p]; exact hi'
      rw [pointsFor_append]
      split
      · rename_i hpm
        exact slWhole_mine R hL H hww hpm hin (hall ⟨ls, p, os⟩ (by simp) hpm)
      · rename_i hpm
        exact slWhole_other R hL H hww hpm (slInsertP_cases R.index R.fine hww hin os)
    · have ho : inside lo hi p = false := by simpa using hi'
      rw [if_neg hi', hstep.1 ho]
      exact ⟨⟨c, ser, R⟩, fun L hL hall => hwhole L hL fun x hx => hall x (by simp [hx])⟩

/-! ### Queries -/

/-- The index decodes; what it lists was created. -/
theorem slSound_metadata {c : Created} {kv : KV} (h : SlIndexSound c kv) (hwf : ∀ s ∈ c, WFSet s.1) {q : Labels}
    (hq : ∀ l ∈ q, WFLabel l) :
    ∃ (ids : List U64) (ms : List (U64 × Labels)), sledMetadata kv q = .ok ms ∧
      (∀ i, i ∈ ids ↔ (q.filterMap fun l => kv (encodeLabel l)) ≠ [] ∧
        ∀ l ∈ q, ∀ v, kv (encodeLabel l) = some v → ∃ js : List U64, js ≠ [] ∧ v = sledCodec.join js ∧ i ∈ js) ∧
      (∀ m ∈ ms, m.1 ∈ ids ∧ ∃ s ∈ c, s.2 = m.1 ∧ m.2 = sortLabels s.1) ∧
      ∀ i ∈ ids, ∀ s ∈ c, s.2 = i → kv (encodeId i) = some (encodeLabels s.1 false) → (i, sortLabels s.1) ∈ ms := by
  have hdec : ∃ ts, Res.mapM (sledGetId kv) q = .ok ts ∧ (∀ t ∈ ts.filterMap id, SAsc t ∧ t ≠ []) ∧
      (q.filterMap fun l => kv (encodeLabel l)) = (ts.filterMap id).map sledCodec.join := by
    induction q with
    | nil => exact ⟨[], rfl, by simp, rfl⟩
    | cons l q ih =>
      obtain ⟨ts, i1, i2, i3⟩ := ih fun x hx => hq x (by simp [hx])
      rcases hk : kv (encodeLabel l) with _ | v
      · have hg : sledGetId kv l = .ok none := by unfold sledGetId; rw [hk]
        refine ⟨none :: ts, by simp [Res.mapM, hg, i1], ?_, ?_⟩
        · rw [List.filterMap_cons_none (f := id) rfl]; exact i2
        · rw [List.filterMap_cons_none (f := fun l => kv (encodeLabel l)) hk, i3, List.filterMap_cons_none (f := id) rfl]
      · obtain ⟨ids, h0, rfl, hs, -⟩ := h.rev l (hq l (by simp)) v hk
        have hg : sledGetId kv l = .ok (some ids) := by unfold sledGetId; rw [hk]; simp only [sled_decode_join ids h0, Res.bind_ok]
        refine ⟨some ids :: ts, by simp [Res.mapM, hg, i1], ?_, ?_⟩
        · rw [List.filterMap_cons_some (f := id) (b := ids) rfl]
          intro t ht
          rcases List.mem_cons.mp ht with rfl | ht
          · exact ⟨hs, h0⟩
          · exact i2 t ht
        · rw [List.filterMap_cons_some (f := fun l => kv (encodeLabel l)) hk, i3, List.filterMap_cons_some (f := id) (b := ids) rfl]; rfl
  obtain ⟨ts, h1, h2, h3⟩ := hdec
  have hspec := (intersectAll_spec (ts.filterMap id) fun t ht => (h2 t ht).1).2
  have hmeta : ∀ ids : List U64, ∃ r, Res.mapM (sledMeta1 kv) ids = .ok r ∧
      (∀ m ∈ r.filterMap id, m.1 ∈ ids ∧ ∃ s ∈ c, s.2 = m.1 ∧ m.2 = sortLabels s.1) ∧
      ∀ i ∈ ids, ∀ s ∈ c, s.2 = i → kv (encodeId i) = some (encodeLabels s.1 false) → (i, sortLabels s.1) ∈ r.filterMap id := by
    intro ids
    induction ids with
    | nil => exact ⟨[], rfl, by simp, by simp⟩
    | cons i ids ih =>
      obtain ⟨r, i1, i2, i3⟩ := ih
      rcases hk : kv (encodeId i) with _ | v
      · have hg : sledMeta1 kv i = .ok none := by unfold sledMeta1; rw [hk]
        refine ⟨none :: r, by simp [Res.mapM, hg, i1], ?_, ?_⟩
        · rw [List.filterMap_cons_none (f := id) rfl]
          exact fun m hm => ⟨List.mem_cons_of_mem _ (i2 m hm).1, (i2 m hm).2⟩
        · rw [List.filterMap_cons_none (f := id) rfl]
          intro j hj s hs he hv
          rcases List.mem_cons.mp hj with rfl | hj
          · rw [hk] at hv; cases hv
          · exact i3 j hj s hs he hv
      · obtain ⟨s, hs, he, rfl⟩ := h.byId i v hk
        have hw := hwf s hs
        have hg : sledMeta1 kv i = .ok (some (i, sortLabels s.1)) := by
          unfold sledMeta1; rw [hk]; simp only [decode_encodeLabels hw.nonempty hw.wf, Res.bind_ok]
        refine ⟨some (i, sortLabels s.1) :: r, by simp [Res.mapM, hg, i1], ?_, ?_⟩
        · rw [List.filterMap_cons_some (f := id) (b := (i, sortLabels s.1)) rfl]
          intro m hm
          rcases List.mem_cons.mp hm with rfl | hm
          · exact ⟨by simp, s, hs, he, rfl⟩
          · exact ⟨List.mem_cons_of_mem _ (i2 m hm).1, (i2 m hm).2⟩
        · rw [List.filterMap_cons_some (f := id) (b := (i, sortLabels s.1)) rfl]
          intro j hj t ht he' hv
          rcases List.mem_cons.mp hj with rfl | hj
          · rw [hk] at hv
            have := encodeLabels_inj false hw.wf (hwf t ht).wf (Option.some.inj hv)
            rw [this]; simp
          · exact List.mem_cons_of_mem _ (i3 j hj t ht he' hv)
  obtain ⟨r, m1, m2, m3⟩ := hmeta (intersectAll (ts.filterMap id))
  refine ⟨intersectAll (ts.filterMap id), r.filterMap id, ?_, ?_, m2, m3⟩
  · unfold sledMetadata sledContains
    rw [h1, Res.bind_ok, Res.bind_ok, m1, Res.bind_ok]
  · intro i
    rw [hspec, h3]
    refine and_congr (by simp) ⟨?_, ?_⟩
    · intro hall l hl v hv
      have hm : v ∈ (ts.filterMap id).map sledCodec.join := by
        rw [← h3]; exact List.mem_filterMap.mpr ⟨l, hl, hv⟩
      obtain ⟨t, ht, rfl⟩ := List.mem_map.mp hm
      exact ⟨t, (h2 t ht).2, rfl, hall t ht⟩
    · intro hall t ht
      have hm : sledCodec.join t ∈ q.filterMap fun l => kv (encodeLabel l) := by
        rw [h3]; exact List.mem_map.mpr ⟨t, ht, rfl⟩
      obtain ⟨l, hl, hv⟩ := List.mem_filterMap.mp hm
      obtain ⟨js, h0, e, hi⟩ := hall l hl _ hv
      have := sled_decode_join t (h2 t ht).2
      rw [e, sled_decode_join js h0] at this
      cases this; exact hi

/-- What can be said about the trees, without the chunk. -/
structure SlSound (c : Created) (ser : U64 → List TimePoint) (h : Inserts) (s : SledStores) : Prop where
  ids : c.Pairwise fun s t => s.2.toNat < t.2.toNat
  wf : ∀ s ∈ c, WFSet s.1
  origin : ∀ s ∈ c, ∃ w ∈ h, w.1 = s.1
  index : SlIndexSound c s.idx
  store : StoreInv sledKey ser s.ser
  sound : ∀ i, ser i ≠ [] → ∃ s ∈ c, s.2 = i ∧ ser i <+ pointsFor h s.1

theorem SlFaultRep.sound' {lo hi : U64} {c : Created} {ser : U64 → List TimePoint} {h : Inserts} {st : Chunk Unit × SledStores}
    (R : SlFaultRep lo hi c ser h st) : SlSound c ser h st.2 := ⟨R.ids, R.wf, R.origin, R.index, R.store, R.sound⟩

theorem SlSound.id_unique {c : Created} {ser : U64 → List TimePoint} {h : Inserts} {s0 : SledStores}
    (R : SlSound c ser h s0) {s t : Labels × U64} (hs : s ∈ c) (ht : t ∈ c) (he : s.2 = t.2) : s = t := by
  have h1 := find_by_id R.ids hs
  have h2 := find_by_id R.ids ht
  rw [he, h2] at h1
  exact (Option.some.inj h1).symm

theorem SlSound.read {c : Created} {ser : U64 → List TimePoint} {h : Inserts} {st : Chunk Unit × SledStores}
    (R : SlSound c ser h st.2) (hincr : ∀ ls, SIncr (pointsFor h ls)) (B : BinSearch) (i : U64) {a b : U64} (hab : a.toNat ≤ b.toNat) :
    sledRead B st.2.ser i a b = specRead (ser i) a b := by
  rw [sledRead_eq R.store]
  by_cases h0 : ser i = []
  · rw [if_pos h0, h0]; rfl
  · obtain ⟨s, -, -, hx⟩ := R.sound i h0
    rw [if_neg h0, readSeries_spec ((hincr s.1).sublist hx) h0 hab]

/-- Any query under any failures: an error, or series that were created. -/
theorem SlSound.query {c : Created} {ser : U64 → List TimePoint} {h : Inserts} {st : Chunk Unit × SledStores}
    (R : SlSound c ser h st.2) (hfine : st.1.poisoned = false) (hincr : ∀ ls, SIncr (pointsFor h ls)) (B : BinSearch) {q : Labels} (hq : ∀ l ∈ q, WFLabel l) {a b : U64}
    (hab : a.toNat ≤ b.toNat) (os : List OpOutcome) :
    slFaultyQuery B st q a b os ≠ .panic ∧
      ∀ ss, slFaultyQuery B st q a b os = .ok ss →
        ∀ x ∈ ss, (∃ s ∈ c, s.2 = x.id ∧ x.labels = sortLabels s.1 ∧ x.points = inRange (ser x.id) a b ∧ x.points ≠ []) ∧
          (∃ l ∈ q, l ∈ x.labels) ∧ ∀ l ∈ q, st.2.idx (encodeLabel l) ≠ none → l ∈ x.labels := by
  have hres := (slQueryP_reports B st.1 q a b).result os st.2
  change slFaultyQuery B st q a b os = _ ∨ slFaultyQuery B st q a b os = _ at hres
  rcases hres with e | e
  · rw [e]; exact ⟨by simp, by intro ss h; cases h⟩
  · rw [e]
    unfold Chunk.query
    rw [if_neg (by simp [Chunk.withStore, hfine])]
    split
    · obtain ⟨ids, ms, hm, hids, hin, -⟩ := slSound_metadata R.index R.wf hq
      have hmc : (sledComp B).metadata (st.1.withStore st.2).store q = .ok ms := hm
      rw [hmc, Res.bind_ok]
      refine ⟨readAll_ne_panic fun m _ => ?_, ?_⟩
      · show sledRead B st.2.ser m.1 a b ≠ .panic
        rw [R.read hincr B m.1 hab]; exact specRead_ne_panic _ _ _
      · intro ss hss x hx
        obtain ⟨g1, g2, g3⟩ := (readAll_mem hss).2 x hx
        obtain ⟨hmem, s, hs, he, hl⟩ := hin _ g1
        have hall : ∀ l ∈ q, st.2.idx (encodeLabel l) ≠ none → l ∈ x.labels := by
          intro l hlq hne
          obtain ⟨v, hv⟩ := Option.ne_none_iff_exists'.mp hne
          obtain ⟨js, h0, e, hi⟩ := ((hids _).mp hmem).2 l hlq v hv
          obtain ⟨js', h0', e', -, hj⟩ := R.index.rev l (hq l hlq) v hv
          have : js' = js := by
            have h1 := sled_decode_join js h0
            rw [← e, e', sled_decode_join js' h0'] at h1
            exact Res.ok.inj h1
          subst this
          obtain ⟨t, ht, he', hlt⟩ := hj _ hi
          have hst : s = t := R.id_unique hs ht (by rw [he, he'])
          have hl : x.labels = sortLabels s.1 := hl
          rw [hl]
          exact (sortLabels_perm s.1).mem_iff.mpr (hst ▸ hlt)
        refine ⟨⟨s, hs, he, hl, ?_, g3⟩, ?_, hall⟩
        · have g2' : sledRead B st.2.ser x.id a b = .ok x.points := g2
          rw [R.read hincr B x.id hab] at g2'
          exact specRead_ok_eq g2'
        · obtain ⟨v, hv⟩ := List.exists_mem_of_ne_nil _ ((hids _).mp hmem).1
          obtain ⟨l, hlq, hv⟩ := List.mem_filterMap.mp hv
          exact ⟨l, hlq, hall l hlq (by rw [hv]; simp)⟩
    · exact ⟨by simp, by intro ss h; cases h⟩

/-- A query that succeeds finds a whole series. -/
theorem SlSound.finds {c : Created} {ser : U64 → List TimePoint} {h : Inserts} {st : Chunk Unit × SledStores}
    (R : SlSound c ser h st.2) (hfine : st.1.poisoned = false) (B : BinSearch) {L : Labels} (hL : WFSet L) {ps : List TimePoint} {i : U64} {ls : Labels}
    (W : SlWhole L ps st.2 i ls) (hps : SIncr ps) {q : Labels} (hq : ∀ l ∈ q, l ∈ L) (hq0 : q ≠ []) {a b : U64} (hab : a.toNat ≤ b.toNat)
    {os : List OpOutcome} {ss : List Series} (hss : slFaultyQuery B st q a b os = .ok ss) (hne : inRange ps a b ≠ []) :
    ∃ x ∈ ss, x.labels.Perm L ∧ x.points = inRange ps a b := by
  have hres := (slQueryP_reports B st.1 q a b).result os st.2
  change slFaultyQuery B st q a b os = _ ∨ slFaultyQuery B st q a b os = _ at hres
  rw [hss] at hres
  rcases hres with hres | hres
  · cases hres
  · have hss := hres.symm
    unfold Chunk.query at hss
    have hf : (st.1.withStore st.2).poisoned = false := hfine
    rw [if_neg (by simp [hf])] at hss
    split at hss
    · obtain ⟨ids, ms, hm, hids, -, hms⟩ := slSound_metadata R.index R.wf (fun l hl => hL.wf l (hq l hl))
      have hmc : (sledComp B).metadata (st.1.withStore st.2).store q = .ok ms := hm
      rw [hmc, Res.bind_ok] at hss
      have hi : i ∈ ids := by
        rw [hids]
        refine ⟨?_, ?_⟩
        · obtain ⟨l, hl⟩ := List.exists_mem_of_ne_nil q hq0
          obtain ⟨js, hj, -⟩ := W.rev l (hq l hl)
          intro h0
          have : sledCodec.join js ∈ q.filterMap fun l => st.2.idx (encodeLabel l) := List.mem_filterMap.mpr ⟨l, hl, hj⟩
          rw [h0] at this; cases this
        · intro l hl v hv
          obtain ⟨js, hj, hij⟩ := W.rev l (hq l hl)
          rw [hj] at hv; cases hv
          exact ⟨js, List.ne_nil_of_mem hij, rfl, hij⟩
      obtain ⟨s, hs, hsi, hsv⟩ := R.index.byId _ _ W.metad
      have hsort : (sortLabels s.1).Perm L := by
        have he := encodeLabels_inj false (fun l hl => hL.wf l (W.perm.mem_iff.mp hl)) (R.wf s hs).wf hsv
        exact (sortLabels_perm s.1).trans ((perm_of_sortLabels_eq he).symm.trans W.perm)
      obtain ⟨d, hd1, hd2⟩ := (readAll_mem hss).1 (i, sortLabels s.1) (hms i hi s hs hsi (by rw [W.metad, hsv]))
      have hread : sledRead B st.2.ser i a b = specRead ps a b := by
        have hst : StoreInv sledKey (upd ser i ps) st.2.ser := by
          intro j
          by_cases hj : j = i
          · subst hj
            simp only [upd, if_true]
            rw [if_neg W.nonempty]; exact W.points
          · simp only [upd, hj, if_false]; exact R.store j
        rw [sledRead_eq hst]
        have hu : upd ser i ps i = ps := by simp [upd]
        rw [hu, if_neg W.nonempty, readSeries_spec hps W.nonempty hab]
      have hd1' : sledRead B st.2.ser i a b = .ok d := hd1
      rw [hread] at hd1'
      have := specRead_ok_eq hd1'
      subst this
      exact ⟨_, hd2 hne, hsort, rfl⟩
    · cases hss

/-- The series of an answer, in terms of the history. -/
theorem SlSound.answer {c : Created} {ser : U64 → List TimePoint} {h : Inserts} {st : Chunk Unit × SledStores}
    (R : SlSound c ser h st.2) (hfine : st.1.poisoned = false) (hincr : ∀ ls, SIncr (pointsFor h ls)) (B : BinSearch) {q : Labels} (hq : ∀ l ∈ q, WFLabel l) {a b : U64}
    (hab : a.toNat ≤ b.toNat) (os : List OpOutcome) :
    slFaultyQuery B st q a b os ≠ .panic ∧
      ∀ ss, slFaultyQuery B st q a b os = .ok ss → ∀ x ∈ ss, ((∃ w ∈ h, x.labels.Perm w.1 ∧ x.labels = sortLabels w.1) ∧ x.points ≠ [] ∧
        x.points <+ inRange (pointsFor h x.labels) a b) ∧ (∃ l ∈ q, l ∈ x.labels) ∧ ∀ l ∈ q, st.2.idx (encodeLabel l) ≠ none → l ∈ x.labels := by
  obtain ⟨g1, g2⟩ := R.query hfine hincr B hq hab os
  refine ⟨g1, ?_⟩
  intro ss hss x hx
  obtain ⟨⟨s, hs, he, hl, hpt, hne⟩, hmatch⟩ := g2 ss hss x hx
  refine ⟨?_, hmatch⟩
  have hsp : s.1.Perm x.labels := by rw [hl]; exact (sortLabels_perm s.1).symm
  refine ⟨?_, hne, ?_⟩
  · obtain ⟨w, hw, hws⟩ := R.origin s hs
    exact ⟨w, hw, by rw [hws]; exact hsp.symm, by rw [hws]; exact hl⟩
  · rw [hpt]
    have hser : ser x.id <+ pointsFor h s.1 := by
      by_cases h0 : ser x.id = []
      · rw [h0]; exact List.nil_sublist _
      · obtain ⟨t, ht, he', hx⟩ := R.sound x.id h0
        rw [R.id_unique hs ht (by rw [he, he'])]; exact hx
    have hpf : pointsFor h s.1 = pointsFor h x.labels := by
      unfold pointsFor
      congr 1
      apply List.filter_congr
      intro w _
      exact decide_eq_decide.mpr ⟨fun h => h.trans hsp, fun h => h.trans hsp.symm⟩
    rw [hpf] at hser
    exact hser.filter _

end Verif
