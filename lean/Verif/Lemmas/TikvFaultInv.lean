import Verif.Lemmas.TikvFaultQuery
namespace Verif
open List

/-! ### What is always true of the index -/

/-- Every entry of the index speaks about series that were created. -/
structure IndexSound (ipre : Str) (c : Created) (kv : KV) : Prop where
  byLabels : ∀ ls, WFSet ls → ∀ v, kv (ipre ++ encodeLabels ls true) = some v → ∃ s ∈ c, s.1.Perm ls ∧ v = toBE s.2
  byId : ∀ i v, kv (ipre ++ encodeId i) = some v → ∃ s ∈ c, s.2 = i ∧ v = encodeLabels s.1 false
  rev : ∀ l, WFLabel l → ∀ v, kv (ipre ++ encodeLabel l) = some v →
    ∃ ids, ids ≠ [] ∧ v = ids.flatMap toBE ∧ SAsc ids ∧ ∀ i ∈ ids, ∃ s ∈ c, s.2 = i ∧ l ∈ s.1

theorem IndexSound.congr {ipre : Str} {c : Created} {kv kv' : KV} (h : IndexSound ipre c kv) (he : ∀ k, k ≠ [] → kv' (ipre ++ k) = kv (ipre ++ k)) :
    IndexSound ipre c kv' :=
  ⟨fun ls hl v hv => h.byLabels ls hl v (by rw [← he _ (encodeLabels_ne_nil ls)]; exact hv),
   fun i v hv => h.byId i v (by rw [← he _ (encodeId_ne_nil i)]; exact hv),
   fun l hl v hv => h.rev l hl v (by rw [← he _ (encodeLabel_ne_nil l)]; exact hv)⟩

theorem IndexSound.create {ipre : Str} {c : Created} {kv kv' : KV} {ls : Labels} {i : U64} (h : IndexSound ipre c kv) (hw : WFSet ls)
    (hnew : ∀ s ∈ c, s.2.toNat < i.toNat) (he : CreateEffect ipre ls i kv kv') : IndexSound ipre (c ++ [(ls, i)]) kv' := by
  have hold : ∀ {P : Labels × U64 → Prop}, (∃ s ∈ c, P s) → ∃ s ∈ c ++ [(ls, i)], P s := by
    rintro P ⟨s, hs, hp⟩; exact ⟨s, by simp [hs], hp⟩
  have hme : (ls, i) ∈ c ++ [(ls, i)] := by simp
  refine ⟨?_, ?_, ?_⟩
  · intro q hq v hv
    by_cases hp : ls.Perm q
    · rw [← encodeLabels_perm hw.distinct hp] at hv
      rcases he.set with h1 | h1
      · rw [h1, encodeLabels_perm hw.distinct hp] at hv
        exact hold (h.byLabels q hq v hv)
      · rw [h1] at hv; cases hv
        exact ⟨_, hme, hp, rfl⟩
    · rw [he.other] at hv
      · exact hold (h.byLabels q hq v hv)
      · intro e
        exact hp (perm_of_sortLabels_eq (encodeLabels_inj true hw.wf hq.wf (pre_inj.mp e).symm))
      · exact fun e => encodeId_ne_labels i q (pre_inj.mp e).symm
      · exact fun l hl e => hq.key_ne_label (hw.wf l hl) (pre_inj.mp e)
  · intro j v hv
    by_cases hj : j = i
    · subst hj
      rcases he.metad with h1 | h1
      · rw [h1] at hv
        exact hold (h.byId j v hv)
      · rw [h1] at hv; cases hv
        exact ⟨_, hme, rfl, rfl⟩
    · rw [he.other] at hv
      · exact hold (h.byId j v hv)
      · exact fun e => encodeId_ne_labels j ls (pre_inj.mp e)
      · exact fun e => hj (encodeId_inj (pre_inj.mp e))
      · exact fun l hl e => encodeId_ne_label j l (pre_inj.mp e)
  · intro l hl v hv
    have hsame : kv (ipre ++ encodeLabel l) = some v → ∃ ids, ids ≠ [] ∧ v = ids.flatMap toBE ∧ SAsc ids ∧
        ∀ j ∈ ids, ∃ s ∈ c ++ [(ls, i)], s.2 = j ∧ l ∈ s.1 := by
      intro hv
      obtain ⟨ids, h0, h1, h2, h3⟩ := h.rev l hl v hv
      exact ⟨ids, h0, h1, h2, fun j hj => hold (h3 j hj)⟩
    by_cases hm : l ∈ ls
    · rcases he.rev l hm with h1 | h1
      · rw [h1] at hv; exact hsame hv
      · rw [h1] at hv
        rcases hk : kv (ipre ++ encodeLabel l) with _ | u
        · rw [hk] at hv
          simp only [Option.getD_none, List.nil_append, Option.some.injEq] at hv
          refine ⟨[i], by simp, by simp [hv], by simp [SAsc], ?_⟩
          intro j hj
          rw [List.mem_singleton] at hj; subst hj
          exact ⟨_, hme, rfl, hm⟩
        · rw [hk] at hv
          simp only [Option.getD_some, Option.some.injEq] at hv
          obtain ⟨ids, h0, h1, h2, h3⟩ := h.rev l hl u hk
          refine ⟨ids ++ [i], by simp, by simp [← hv, h1], ?_, ?_⟩
          · unfold SAsc
            rw [List.pairwise_append]
            refine ⟨h2, by simp, ?_⟩
            intro a ha b hb
            rw [List.mem_singleton] at hb; subst hb
            obtain ⟨s, hs, rfl, -⟩ := h3 a ha
            exact hnew s hs
          · intro j hj
            rcases List.mem_append.mp hj with hj | hj
            · exact hold (h3 j hj)
            · rw [List.mem_singleton] at hj; subst hj
              exact ⟨_, hme, rfl, hm⟩
    · rw [he.other] at hv
      · exact hsame hv
      · exact fun e => hw.key_ne_label hl (pre_inj.mp e).symm
      · exact fun e => encodeId_ne_label i l (pre_inj.mp e).symm
      · intro l' hl' e
        rw [← encodeLabel_inj hl (hw.wf l' hl') (pre_inj.mp e)] at hl'
        exact hm hl'

/-! ### What a write can do -/

theorem write_effect {spre : Str} {ser : U64 → List TimePoint} {kv kv' : KV} {i : U64} {p : TimePoint} (h : StoreInv (tikvKey spre) ser kv)
    (hk : kv' = kv ∨ kv' = (tikvWrite spre kv i p).2) :
    (∀ k, k ≠ tikvKey spre i → kv' k = kv k) ∧
      ∃ ser', StoreInv (tikvKey spre) ser' kv' ∧
        (ser' = ser ∨ (ser' = upd ser i (ser i ++ [p]) ∧ ∀ l, (ser i).getLast? = some l → l.ts.toNat < p.ts.toNat)) := by
  rcases hk with rfl | rfl
  · exact ⟨fun _ _ => rfl, ser, h, Or.inl rfl⟩
  · refine ⟨?_, ?_⟩
    · intro k hk
      unfold tikvWrite
      repeat' split
      all_goals first
        | rfl
        | exact KV.set_other _ _ hk
    · have := tikvWrite_inv h i p
      split at this
      · rename_i hc; exact ⟨_, this.2, Or.inr ⟨rfl, hc⟩⟩
      · rw [this]; exact ⟨ser, h, Or.inl rfl⟩

theorem tikvWrite_no_panic {spre : Str} {ser : U64 → List TimePoint} {kv : KV} (h : StoreInv (tikvKey spre) ser kv) (i : U64) (p : TimePoint) :
    (tikvWrite spre kv i p).1 ≠ .panic := by
  have := tikvWrite_inv h i p
  split at this
  · rw [this.1]; simp
  · rw [this]; simp

/-! ### The insert, case by case -/

/-- What an insert inside the window can do to an unpoisoned chunk. -/
inductive InsertCase (ipre spre : Str) (ls : Labels) (p : TimePoint) (st st' : Chunk Unit × KV) (r : Res Unit) : Prop where
  /-- the lookup of the labels failed -/
  | unknown (hr : r = .err .tikvErr) (hs : st' = st)
  /-- a new series -/
  | fresh (hb : st.2 (ipre ++ encodeLabels ls true) = none) (kv1 : KV) (hc : CreateEffect ipre ls st.1.nextId st.2 kv1)
      (hn : st'.1 = { st.1 with nextId := (idNext st.1.nextId).2 }) (hw : st'.2 = kv1 ∨ st'.2 = (tikvWrite spre kv1 st.1.nextId p).2)
      (hr : r = .err .tikvErr ∨ (r = (tikvWrite spre kv1 st.1.nextId p).1 ∧ st'.2 = (tikvWrite spre kv1 st.1.nextId p).2))
  /-- an existing series -/
  | known (i : U64) (hb : st.2 (ipre ++ encodeLabels ls true) = some (toBE i)) (hn : st'.1 = st.1)
      (hw : st'.2 = st.2 ∨ st'.2 = (tikvWrite spre st.2 i p).2) (hr : r = .ok ())

theorem insertP_cases {ipre spre : Str} (hp : spre.length + 8 ≤ ipre.length) {c : Created} {ser : U64 → List TimePoint} {st : Chunk Unit × KV}
    (hi : IndexSound ipre c st.2) (hst : StoreInv (tikvKey spre) ser st.2)
    (hpo : st.1.poisoned = false) {ls : Labels} (hls : WFSet ls) {p : TimePoint} (hin : st.1.isInRange p.ts = true) (os : List OpOutcome) :
    InsertCase ipre spre ls p st (faultyInsert ipre spre st ⟨ls, p, os⟩).2 (faultyInsert ipre spre st ⟨ls, p, os⟩).1 := by
  obtain ⟨c0, kv⟩ := st
  unfold faultyInsert insertP
  simp only at hpo hin
  simp only [hpo, hin, Bool.false_eq_true, if_false, if_true]
  rw [KvProg.exec_bind]
  obtain ⟨b1, b2⟩ := byLabelsP_exec ipre ls os kv
  rw [b1]
  generalize ((byLabelsP ipre ls).exec os kv).1.2 = os1
  rcases b2 with b2 | b2
  · rw [b2]
    exact .unknown rfl rfl
  · rw [b2]
    unfold tikvByLabels
    rcases hk : kv (ipre ++ encodeLabels ls true) with _ | v
    · simp only
      rw [KvProg.exec_bind, createP_exec_result]
      simp only
      have hc := createP_exec hls ipre (idNext c0.nextId).1 os1 kv
      rw [KvProg.exec_bind]
      generalize ((createP ipre ls (idNext c0.nextId).1).exec os1 kv).1.2 = os2
      generalize ((createP ipre ls (idNext c0.nextId).1).exec os1 kv).2 = kv1 at hc
      obtain ⟨w1, w2⟩ := writeP_exec spre (idNext c0.nextId).1 p os2 kv1
      have hst1 : StoreInv (tikvKey spre) ser kv1 := fun j => by
        rw [hc.other _ (tikvKey_ne_index hp j (encodeLabels_ne_nil ls))
          (tikvKey_ne_index hp j (encodeId_ne_nil _)) fun l _ => tikvKey_ne_index hp j (encodeLabel_ne_nil l)]
        exact hst j
      have hnp : ((writeP spre (idNext c0.nextId).1 p).exec os2 kv1).1.1 ≠ .panic := by
        rcases w2 with h | h
        · rw [h]; simp
        · rw [h.1]; exact tikvWrite_no_panic hst1 _ _
      have hseal : ∀ (w : Res Unit) (c : Chunk Unit), w ≠ .panic → Chunk.seal (w, c) = (w, c) := by
        intro w c hw
        rcases w with u | e | _
        · rfl
        · rfl
        · exact absurd rfl hw
      simp only [KvProg.exec]
      rw [hseal _ _ hnp]
      exact .fresh hk kv1 hc (by simp only [hpo]) w1 w2
    · obtain ⟨s, -, -, rfl⟩ := hi.byLabels ls hls v hk
      simp only [fromBE_toBE, Res.ofPanic, Res.bind_ok]
      rw [KvProg.exec_bind]
      obtain ⟨w1, w2⟩ := writeP_exec spre s.2 p os1 kv
      have hnp : ((writeP spre s.2 p).exec os1 kv).1.1 ≠ .panic := by
        rcases w2 with h | h
        · rw [h]; simp
        · rw [h.1]; exact tikvWrite_no_panic hst _ _
      rcases hr : ((writeP spre s.2 p).exec os1 kv).1.1 with u | e | _
      · simp only [KvProg.exec]
        exact .known s.2 hk rfl w1 rfl
      · simp only [KvProg.exec]
        exact .known s.2 hk rfl w1 rfl
      · exact absurd hr hnp

/-! ### The invariant -/

/-- A chunk on a cluster after a history of calls with failures; `c` are the series created, `ser` what is stored under each id, `h` the
calls with timestamps inside the window. -/
structure FaultRep (ipre spre : Str) (lo hi : U64) (c : Created) (ser : U64 → List TimePoint) (h : Inserts) (st : Chunk Unit × KV) : Prop where
  lo_eq : st.1.start_ = lo
  hi_eq : st.1.end_ = hi
  fine : st.1.poisoned = false
  next : st.1.nextId.toNat = c.length + 1
  ids : c.Pairwise fun s t => s.2.toNat < t.2.toNat
  bound : ∀ s ∈ c, s.2.toNat ≤ c.length
  wf : ∀ s ∈ c, WFSet s.1
  len : c.length ≤ h.length
  origin : ∀ s ∈ c, ∃ w ∈ h, w.1 = s.1
  index : IndexSound ipre c st.2
  store : StoreInv (tikvKey spre) ser st.2
  sound : ∀ i, ser i ≠ [] → ∃ s ∈ c, s.2 = i ∧ ser i <+ pointsFor h s.1
  incr : ∀ i, SIncr (ser i)

theorem pointsFor_mono (h : Inserts) (w : Labels × TimePoint) (ls : Labels) : pointsFor h ls <+ pointsFor (h ++ [w]) ls := by
  rw [pointsFor_append]
  split
  · exact List.sublist_append_left _ _
  · exact List.Sublist.refl _

theorem FaultRep.id_unique {ipre spre : Str} {lo hi : U64} {c : Created} {ser : U64 → List TimePoint} {h : Inserts} {st : Chunk Unit × KV}
    (R : FaultRep ipre spre lo hi c ser h st) {s t : Labels × U64} (hs : s ∈ c) (ht : t ∈ c) (he : s.2 = t.2) : s = t := by
  have h1 := find_by_id R.ids hs
  have h2 := find_by_id R.ids ht
  rw [he, h2] at h1
  exact (Option.some.inj h1).symm

/-- Every insert keeps the invariant, whatever fails; inside the window it never panics. -/
theorem FaultRep.insert {ipre spre : Str} (hp : spre.length + 8 ≤ ipre.length) {lo hi : U64} {c : Created} {ser : U64 → List TimePoint}
    {h : Inserts} {st : Chunk Unit × KV} (R : FaultRep ipre spre lo hi c ser h st) (hlen : h.length + 1 < 2 ^ 64 - 1) {ls : Labels} (hls : WFSet ls)
    (p : TimePoint) (os : List OpOutcome) :
    (inside lo hi p = false → faultyInsert ipre spre st ⟨ls, p, os⟩ = (.err (.outOfRange lo hi), st)) ∧
    (inside lo hi p = true → (faultyInsert ipre spre st ⟨ls, p, os⟩).1 ≠ .panic ∧
      ∃ c' ser', FaultRep ipre spre lo hi c' ser' (h ++ [(ls, p)]) (faultyInsert ipre spre st ⟨ls, p, os⟩).2) := by
  have hin := inside_iff R.lo_eq R.hi_eq p
  refine ⟨?_, ?_⟩
  · intro ho
    unfold faultyInsert insertP
    simp only [R.fine, Bool.false_eq_true, if_false]
    rw [hin, ho]
    simp only [Bool.false_eq_true, if_false, KvProg.exec, R.lo_eq, R.hi_eq]
  · intro hi'
    rw [← hin] at hi'
    have hcase := insertP_cases hp R.index R.store R.fine hls hi' os
    generalize (faultyInsert ipre spre st ⟨ls, p, os⟩).2 = st' at hcase
    generalize (faultyInsert ipre spre st ⟨ls, p, os⟩).1 = r at hcase
    have hsub : ∀ {i : U64} (c' : Created), (∀ s ∈ c, s ∈ c') → (∃ s ∈ c, s.2 = i ∧ ser i <+ pointsFor h s.1) →
        ∃ s ∈ c', s.2 = i ∧ ser i <+ pointsFor (h ++ [(ls, p)]) s.1 := by
      rintro i c' hc ⟨s, hs, he, hx⟩
      exact ⟨s, hc s hs, he, hx.trans (pointsFor_mono _ _ _)⟩
    rcases hcase with ⟨rfl, rfl⟩ | ⟨hb, kv1, hc, hn, hw, hr⟩ | ⟨i, hb, hn, hw, rfl⟩
    · exact ⟨by simp, c, ser, { R with
        len := by have := R.len; simp; omega
        origin := fun s hs => by obtain ⟨w, hw, e⟩ := R.origin s hs; exact ⟨w, by simp [hw], e⟩
        sound := fun i hi => hsub c (fun _ h => h) (R.sound i hi) }⟩
    · obtain ⟨c1, kv'⟩ := st'
      simp only at hn hw hr
      subst hn
      have hnb : ∀ s ∈ c, s.2.toNat < st.1.nextId.toNat := fun s hs => by rw [R.next]; have := R.bound s hs; omega
      have hindex := R.index.create hls hnb hc
      have hst1 : StoreInv (tikvKey spre) ser kv1 := fun j => by
        rw [hc.other _ (tikvKey_ne_index hp j (encodeLabels_ne_nil ls))
          (tikvKey_ne_index hp j (encodeId_ne_nil _)) fun l _ => tikvKey_ne_index hp j (encodeLabel_ne_nil l)]
        exact R.store j
      obtain ⟨w1, ser', w2, w3⟩ := write_effect hst1 hw
      refine ⟨?_, c ++ [(ls, st.1.nextId)], ser', ⟨R.lo_eq, R.hi_eq, R.fine, ?_, ?_, ?_, ?_, ?_, ?_, ?_, w2, ?_, ?_⟩⟩
      · rcases hr with rfl | ⟨rfl, -⟩
        · simp
        · exact tikvWrite_no_panic hst1 _ _
      · show (st.1.nextId + 1#64).toNat = _
        have := R.len
        rw [BitVec.toNat_add, R.next, Nat.mod_eq_of_lt (by show _ + 1 < _; omega), List.length_append]; rfl
      · rw [List.pairwise_append]
        refine ⟨R.ids, by simp, ?_⟩
        intro s hs t ht
        rw [List.mem_singleton] at ht; subst ht
        exact hnb s hs
      · intro s hs
        rw [List.length_append]
        rcases List.mem_append.mp hs with hs | hs
        · have := R.bound s hs; simp; omega
        · rw [List.mem_singleton] at hs; subst hs; simp [R.next]
      · intro s hs
        rcases List.mem_append.mp hs with hs | hs
        · exact R.wf s hs
        · rw [List.mem_singleton] at hs; subst hs; exact hls
      · have := R.len; simp; omega
      · intro s hs
        rcases List.mem_append.mp hs with hs | hs
        · obtain ⟨w, hw, e⟩ := R.origin s hs; exact ⟨w, by simp [hw], e⟩
        · rw [List.mem_singleton] at hs; subst hs; exact ⟨(ls, p), by simp, rfl⟩
      · exact hindex.congr fun k hk => w1 _ (tikvKey_ne_index hp _ hk).symm
      · intro i hi
        have hmono := hsub (i := i) (c ++ [(ls, st.1.nextId)]) (fun s hs => by simp [hs])
        rcases w3 with rfl | ⟨rfl, -⟩
        · exact hmono (R.sound i hi)
        · by_cases e : i = st.1.nextId
          · subst e
            have h0 : ser st.1.nextId = [] := by
              by_contra hne
              obtain ⟨s, hs, he, -⟩ := R.sound _ hne
              have := hnb s hs; rw [he] at this; omega
            refine ⟨(ls, st.1.nextId), by simp, rfl, ?_⟩
            rw [pointsFor_append, if_pos (List.Perm.refl _)]
            simp [upd, h0]
          · simp only [upd, e, if_false] at hi ⊢
            exact hmono (R.sound i hi)
      · intro i
        rcases w3 with rfl | ⟨rfl, hlast⟩
        · exact R.incr i
        · by_cases e : i = st.1.nextId
          · subst e; simp only [upd, if_true]; exact (R.incr _).append hlast
          · simp only [upd, e, if_false]; exact R.incr i
    · obtain ⟨c1, kv'⟩ := st'
      simp only at hn hw
      subst hn
      obtain ⟨w1, ser', w2, w3⟩ := write_effect R.store hw
      obtain ⟨s, hs, hperm, hv⟩ := R.index.byLabels ls hls _ hb
      have hid : i = s.2 := toBE_inj hv
      refine ⟨by simp, c, ser', ⟨R.lo_eq, R.hi_eq, R.fine, R.next, R.ids, R.bound, R.wf, ?_, ?_, ?_, w2, ?_, ?_⟩⟩
      · have := R.len; simp; omega
      · intro t ht; obtain ⟨w, hw, e⟩ := R.origin t ht; exact ⟨w, by simp [hw], e⟩
      · exact R.index.congr fun k hk => w1 _ (tikvKey_ne_index hp _ hk).symm
      · intro j hj
        rcases w3 with rfl | ⟨rfl, -⟩
        · exact hsub c (fun _ h => h) (R.sound j hj)
        · by_cases e : j = i
          · subst e
            refine ⟨s, hs, hid.symm, ?_⟩
            rw [pointsFor_append, if_pos hperm.symm]
            simp only [upd, if_true]
            refine List.Sublist.append ?_ (List.Sublist.refl _)
            by_cases h0 : ser j = []
            · rw [h0]; exact List.nil_sublist _
            · obtain ⟨t, ht, he, hx⟩ := R.sound j h0
              rw [R.id_unique hs ht (by rw [← hid, he])]; exact hx
          · simp only [upd, e, if_false] at hj ⊢
            exact hsub c (fun _ h => h) (R.sound j hj)
      · intro j
        rcases w3 with rfl | ⟨rfl, hlast⟩
        · exact R.incr j
        · by_cases e : j = i
          · subst e; simp only [upd, if_true]; exact (R.incr _).append hlast
          · simp only [upd, e, if_false]; exact R.incr j

end Verif
