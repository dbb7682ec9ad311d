import Verif.Lemmas.PowerLoss
namespace Verif
open List

theorem plInsert_now (st : Chunk Unit × Volatile) (w : FaultyInsert) :
    (plInsert st w).1 = (slFaultyInsert (st.1, st.2.now) w).1 ∧ (plInsert st w).2.1 = (slFaultyInsert (st.1, st.2.now) w).2.1 ∧
    (plInsert st w).2.2.now = (slFaultyInsert (st.1, st.2.now) w).2.2 := by
  have h := (slInsertP st.1 w.ls w.p).execV_exec w.os st.2
  unfold plInsert slFaultyInsert
  exact ⟨by simp only [h.1], by simp only [h.1], h.2⟩

theorem plInsert_pair (st : Chunk Unit × Volatile) (w : FaultyInsert) :
    ((plInsert st w).2.1, (plInsert st w).2.2.now) = (slFaultyInsert (st.1, st.2.now) w).2 := by
  rw [(plInsert_now st w).2.1, (plInsert_now st w).2.2]

/-! ### The invariant -/

/-- A chunk after a history with failures, with everything a loss of power could bring back. -/
structure PlRep (lo hi : U64) (c : Created) (ser : U64 → List TimePoint) (h : Inserts) (st : Chunk Unit × Volatile) : Prop where
  base : SlFaultRep lo hi c ser h (st.1, st.2.now)
  idx : ∀ kv ∈ st.2.held .idx, SlIndexSound c kv
  ser : ∀ kv ∈ st.2.held .ser, ∃ ser', StoreInv sledKey ser' kv ∧ ∀ i, ser' i <+: ser i

theorem PlRep.new (lo hi : U64) : PlRep lo hi [] (fun _ => []) [] (plNew lo hi) := by
  have R := SlFaultRep.new lo hi
  refine ⟨R, ?_, ?_⟩
  · intro kv hkv
    have : kv = KV.empty := by simpa [plNew, Volatile.settled, SledStores.tree, noStores] using hkv
    rw [this]; exact R.index
  · intro kv hkv
    have : kv = KV.empty := by simpa [plNew, Volatile.settled, SledStores.tree, noStores] using hkv
    rw [this]; exact ⟨_, R.store, fun _ => List.prefix_refl _⟩

theorem SlIndexSound.mono {c c' : Created} {kv : KV} (h : SlIndexSound c kv) (hc : ∀ s ∈ c, s ∈ c') : SlIndexSound c' kv := by
  refine ⟨fun ls hls v hv => ?_, fun i v hv => ?_, fun l hl v hv => ?_⟩
  · obtain ⟨s, hs, h⟩ := h.byLabels ls hls v hv; exact ⟨s, hc s hs, h⟩
  · obtain ⟨s, hs, h⟩ := h.byId i v hv; exact ⟨s, hc s hs, h⟩
  · obtain ⟨ids, h0, h1, h2, h3⟩ := h.rev l hl v hv
    refine ⟨ids, h0, h1, h2, fun i hi => ?_⟩
    obtain ⟨s, hs, h⟩ := h3 i hi; exact ⟨s, hc s hs, h⟩

/-- If the lookup of the labels fails nothing happens. -/
theorem slFaultyInsert_lookup {c : Chunk Unit} {s : SledStores} (hf : c.poisoned = false) {p : TimePoint} (hin : c.isInRange p.ts = true) (ls : Labels)
    {os : List OpOutcome} (h : os.headD .done ≠ .done) : slFaultyInsert (c, s) ⟨ls, p, os⟩ = (.err .ioErr, (c, s)) := by
  unfold slFaultyInsert slInsertP
  simp only
  rw [if_neg (by simp [hf]), if_pos hin, TreeProg.exec_bind]
  have : (slByLabelsP ls).exec os s = ((.err .ioErr, os.tail), s) := by
    unfold slByLabelsP TreeProg.andThen
    rw [TreeProg.exec_bind]
    simp only [TreeProg.exec]
  simp only [this, TreeProg.exec]

/-- A lookup that does not fail decides what kind of insert it is. -/
theorem slInsert_not_unknown {c : Chunk Unit} {s : SledStores} (hf : c.poisoned = false) {p : TimePoint} (hin : c.isInRange p.ts = true) {ls : Labels}
    {os : List OpOutcome} (h : os.headD .done = .done) (hn : s.idx (encodeLabels ls true) = none) :
    (slFaultyInsert (c, s) ⟨ls, p, os⟩).2.1.nextId = (idNext c.nextId).2 := by
  unfold slFaultyInsert slInsertP
  simp only
  rw [if_neg (by simp [hf]), if_pos hin, TreeProg.exec_bind]
  have : (slByLabelsP ls).exec os s = ((.ok none, os.tail), s) := by
    unfold slByLabelsP TreeProg.andThen
    rw [TreeProg.exec_bind]
    simp only [TreeProg.exec, h]
    have : s.get .idx (encodeLabels ls true) = none := hn
    simp only [this]; rfl
  simp only [this]
  rw [TreeProg.exec_bind]
  rcases ((slCreateP ls (idNext c.nextId).1).exec os.tail s).1.1 with u | e | _
  · simp only
    rw [TreeProg.exec_bind]
    simp only [TreeProg.exec]
    rcases ((slWriteP (idNext c.nextId).1 p).exec _ _).1.1 with u | e | _ <;> rfl
  · rfl
  · rfl

theorem PlRep.insert {lo hi : U64} {c : Created} {ser : U64 → List TimePoint} {h : Inserts} {st : Chunk Unit × Volatile} (R : PlRep lo hi c ser h st)
    (hlen : h.length + 1 < 2 ^ 64 - 1) {ls : Labels} (hls : WFSet ls) (p : TimePoint) (os : List OpOutcome) :
    (inside lo hi p = false → plInsert st ⟨ls, p, os⟩ = (.err (.outOfRange lo hi), st)) ∧
    (inside lo hi p = true → ((plInsert st ⟨ls, p, os⟩).1 = .ok () ∨ (plInsert st ⟨ls, p, os⟩).1 = .err .ioErr) ∧
      ∃ c' ser', PlRep lo hi c' ser' (h ++ [(ls, p)]) (plInsert st ⟨ls, p, os⟩).2) := by
  have hbase := R.base.insert hlen hls p os
  have hin := inside_iff R.base.lo_eq R.base.hi_eq p
  have hfine : st.1.poisoned = false := R.base.fine
  refine ⟨?_, ?_⟩
  · intro ho
    rw [ho] at hin
    have hin : st.1.isInRange p.ts = false := hin
    have h1 : st.1.start_ = lo := R.base.lo_eq
    have h2 : st.1.end_ = hi := R.base.hi_eq
    unfold plInsert slInsertP
    simp only [hfine, hin, Bool.false_eq_true, if_false, TreeProg.execV, h1, h2]
  · intro hi'
    rw [hi'] at hin
    have hin : st.1.isInRange p.ts = true := hin
    obtain ⟨g1, c', ser', R', G⟩ := hbase.2 hi'
    rw [← plInsert_pair] at R'
    refine ⟨by rw [(plInsert_now st _).1]; exact g1, c', ser', R', ?_, ?_⟩
    · intro kv hkv
      rcases (slInsertP st.1 ls p).held_from os st.2 hkv with hkv | ⟨os', ho, rfl⟩
      · exact (R.idx kv hkv).mono G.mem
      · have hcase := slInsertP_cases R.base.index R.base.fine hls hin os'
        have hst' : ((slInsertP st.1 ls p).exec os' st.2.now).2 = (slFaultyInsert (st.1, st.2.now) ⟨ls, p, os'⟩).2.2 := rfl
        rw [hst']
        show SlIndexSound c' (slFaultyInsert (st.1, st.2.now) ⟨ls, p, os'⟩).2.2.idx
        rcases hcase with ⟨-, hs⟩ | ⟨hb, hc, hn, -, -, -⟩ | ⟨i, hb, hn, hix, -, -⟩
        · rw [hs]; exact R.base.index.mono G.mem
        · have hd : os'.headD .done = .done := by
            by_contra hne
            rw [slFaultyInsert_lookup hfine hin ls hne] at hn
            have := congrArg (fun c : Chunk Unit => c.nextId) hn
            simp only [idNext] at this
            have h2 := R.base.len
            have h3 := R.base.next
            simp only at h3
            have h4 := congrArg BitVec.toNat this
            rw [BitVec.toNat_add, h3, Nat.mod_eq_of_lt (by show _ + 1 < _; omega)] at h4
            simp at h4
          have hnx := slInsert_not_unknown (s := st.2.now) hfine hin (ho ▸ hd) hb
          have hne : (slFaultyInsert (st.1, st.2.now) ⟨ls, p, os⟩).2.1.nextId ≠ st.1.nextId := by
            rw [hnx]
            intro e
            have h2 := R.base.len
            have h3 := R.base.next
            simp only at h3
            have h4 := congrArg BitVec.toNat e
            simp only [idNext] at h4
            rw [BitVec.toNat_add, h3, Nat.mod_eq_of_lt (by show _ + 1 < _; omega)] at h4
            simp at h4
          rw [G.new hne]
          refine R.base.index.create hls ?_ hc
          intro s hs
          have := R.base.bound s hs
          rw [R.base.next]; omega
        · rw [hix]; exact R.base.index.mono G.mem
    · intro kv hkv
      rcases slInsertP_held st.1 ls p os st.2 with e | e
      · have hkv : kv ∈ ((slInsertP st.1 ls p).execV os st.2).2.held .ser := hkv
        rw [e] at hkv
        obtain ⟨s', h1, h2⟩ := R.ser kv hkv
        exact ⟨s', h1, fun i => (h2 i).trans (G.ser i)⟩
      · have hkv : kv ∈ ((slInsertP st.1 ls p).execV os st.2).2.held .ser := hkv
        rw [e] at hkv
        rcases List.mem_append.mp hkv with hkv | hkv
        · obtain ⟨s', h1, h2⟩ := R.ser kv hkv
          exact ⟨s', h1, fun i => (h2 i).trans (G.ser i)⟩
        · rw [List.mem_singleton] at hkv
          rw [hkv]
          exact ⟨ser', R'.store, fun _ => List.prefix_refl _⟩

/-- What is left after a loss of power: a sound index, and of each series a prefix. -/
theorem PlRep.leaves {lo hi : U64} {c : Created} {ser : U64 → List TimePoint} {h : Inserts} {st : Chunk Unit × Volatile} (R : PlRep lo hi c ser h st)
    {s : SledStores} (hs : st.2.Leaves s) : ∃ ser', SlSound c ser' h s ∧ ∀ i, ser' i <+: ser i := by
  have hch : ∀ i, ∃ ps : List TimePoint, s.ser (sledKey i) = (if ps = [] then none else some (ps.flatMap encodePoint)) ∧ ps <+: ser i := by
    intro i
    obtain ⟨kv, hkv, e⟩ := hs .ser (sledKey i)
    obtain ⟨ser', h1, h2⟩ := R.ser kv hkv
    exact ⟨ser' i, by rw [← h1 i]; exact e, h2 i⟩
  choose ser' hser' hpre using hch
  refine ⟨ser', ⟨R.base.ids, R.base.wf, R.base.origin, ?_, hser', ?_⟩, hpre⟩
  · refine ⟨fun ls hls v hv => ?_, fun i v hv => ?_, fun l hl v hv => ?_⟩
    · obtain ⟨kv, hkv, e⟩ := hs .idx (encodeLabels ls true)
      exact (R.idx kv hkv).byLabels ls hls v (e.symm.trans hv)
    · obtain ⟨kv, hkv, e⟩ := hs .idx (encodeId i)
      exact (R.idx kv hkv).byId i v (e.symm.trans hv)
    · obtain ⟨kv, hkv, e⟩ := hs .idx (encodeLabel l)
      exact (R.idx kv hkv).rev l hl v (e.symm.trans hv)
  · intro i hi
    have : ser i ≠ [] := by
      intro h0
      have := hpre i
      rw [h0] at this
      exact hi (List.prefix_nil.mp this)
    obtain ⟨t, ht, he, hx⟩ := R.base.sound i this
    exact ⟨t, ht, he, (hpre i).sublist.trans hx⟩

/-! ### A label set none of whose inserts failed -/

/-- The index entries of `L`. -/
structure SlEntries (L : Labels) (kv : KV) (i : U64) (ls : Labels) : Prop where
  key : kv (encodeLabels L true) = some (fmtId i)
  metad : kv (encodeId i) = some (encodeLabels ls false)
  rev : ∀ l ∈ L, ∃ ids : List U64, kv (encodeLabel l) = some (sledCodec.join ids) ∧ i ∈ ids

/-- Nothing yet, or everything, and this survives a loss of power as far as the index is concerned. -/
def PlWholeOrNone (L : Labels) (ps : List TimePoint) (v : Volatile) : Prop :=
  (v.now.idx (encodeLabels L true) = none ∧ ps = []) ∨ ∃ i ls, SlWhole L ps v.now i ls ∧ ∀ kv ∈ v.held .idx, SlEntries L kv i ls

theorem PlWholeOrNone.base {L : Labels} {ps : List TimePoint} {v : Volatile} (h : PlWholeOrNone L ps v) : SlWholeOrNone L ps v.now := by
  rcases h with h | ⟨i, ls, h, -⟩
  · exact .inl h
  · exact .inr ⟨i, ls, h⟩

theorem SlWhole.entries {L : Labels} {ps : List TimePoint} {s : SledStores} {i : U64} {ls : Labels} (h : SlWhole L ps s i ls) : SlEntries L s.idx i ls :=
  ⟨h.key, h.metad, h.rev⟩

/-- The id and the labels stored with it are determined. -/
theorem SlWhole.determined {L : Labels} {ps ps' : List TimePoint} {s : SledStores} {i i' : U64} {ls ls' : Labels} (h : SlWhole L ps s i ls)
    (h' : SlEntries L s.idx i' ls') : i' = i := by
  have := h'.key
  rw [h.key] at this
  exact (fmtId_inj (Option.some.inj this)).symm

theorem plWhole_other {lo hi : U64} {c : Created} {ser : U64 → List TimePoint} {h : Inserts} {st : Chunk Unit × Volatile} (R : PlRep lo hi c ser h st)
    {L : Labels} (hL : WFSet L) {ps : List TimePoint} (H : PlWholeOrNone L ps st.2) {ls : Labels} (hls : WFSet ls) (hne : ¬ ls.Perm L) {p : TimePoint}
    (hin : st.1.isInRange p.ts = true) (os : List OpOutcome) : PlWholeOrNone L ps (plInsert st ⟨ls, p, os⟩).2.2 := by
  have hw : ∀ os', SlWholeOrNone L ps (slFaultyInsert (st.1, st.2.now) ⟨ls, p, os'⟩).2.2 := fun os' =>
    slWhole_other R.base hL H.base hls hne (slInsertP_cases R.base.index R.base.fine hls hin os')
  have hnow := (plInsert_now st ⟨ls, p, os⟩).2.2
  -- the entries of `L` keep their id and labels
  have hkeep : ∀ os', ∀ i l0, SlEntries L st.2.now.idx i l0 → SlEntries L (slFaultyInsert (st.1, st.2.now) ⟨ls, p, os'⟩).2.2.idx i l0 := by
    intro os' i l0 E
    have hcase := slInsertP_cases R.base.index R.base.fine hls hin os'
    rcases hcase with ⟨-, hs⟩ | ⟨hb, hc, -, -, -, -⟩ | ⟨j, hb, -, hix, -, -⟩
    · rw [hs]; exact E
    · have hset : (slFaultyInsert (st.1, st.2.now) ⟨ls, p, os'⟩).2.2.idx (encodeLabels L true) = st.2.now.idx (encodeLabels L true) := by
        rw [hc.other]
        · intro e
          exact hne (perm_of_sortLabels_eq (encodeLabels_inj true hls.wf hL.wf e.symm))
        · exact fun e => encodeId_ne_labels _ L e.symm
        · exact fun l hl e => hL.key_ne_label (hls.wf l hl) e
      obtain ⟨s, hs, -, hv⟩ := R.base.index.byLabels L hL _ E.key
      have hi : i ≠ st.1.nextId := by
        intro e
        have h1 := R.base.bound s hs
        have h2 := R.base.next
        simp only at h2
        rw [← fmtId_inj hv, e, h2] at h1; omega
      refine ⟨by rw [hset]; exact E.key, ?_, ?_⟩
      · rw [hc.other]
        · exact E.metad
        · exact fun e => encodeId_ne_labels _ ls e
        · exact fun e => hi (encodeId_inj e)
        · exact fun l hl e => encodeId_ne_label i l e
      · intro l hl
        obtain ⟨ids, h1, h2⟩ := E.rev l hl
        by_cases hm : l ∈ ls
        · rcases hc.rev l hm with hj | hj
          · exact ⟨ids, by rw [hj]; exact h1, h2⟩
          · refine ⟨ids ++ [st.1.nextId], ?_, by simp [h2]⟩
            rw [hj]
            have h1' : st.2.now.idx (encodeLabel l) = some (sledCodec.join ids) := h1
            simp only [h1', sledCodec.app_some _ _ (List.ne_nil_of_mem h2)]
        · refine ⟨ids, ?_, h2⟩
          rw [hc.other]
          · exact h1
          · exact fun e => hls.key_ne_label (hL.wf l hl) e.symm
          · exact fun e => encodeId_ne_label _ l e.symm
          · intro l' hl' e
            rw [← encodeLabel_inj (hL.wf l hl) (hls.wf l' hl') e] at hl'
            exact hm hl'
    · rw [hix]; exact E
  rcases H with H | ⟨i, l0, W, E⟩
  · have := hw os
    rw [← hnow] at this
    refine .inl ⟨?_, H.2⟩
    rcases this with this | ⟨i, l0, this⟩
    · exact this.1
    · exact absurd H.2 this.nonempty
  · refine .inr ⟨i, l0, ?_, ?_⟩
    · have h1 := hw os
      rw [← hnow] at h1
      have h2 := hkeep os i l0 W.entries
      rw [← hnow] at h2
      rcases h1 with h1 | ⟨i', l1, h1⟩
      · have := h1.1
        rw [h2.key] at this; cases this
      · have he : i' = i := by
          have := h1.key
          rw [h2.key] at this
          exact (fmtId_inj (Option.some.inj this)).symm
        exact ⟨W.perm, h2.key, h2.metad, h2.rev, he ▸ h1.points, h1.nonempty⟩
    · intro kv hkv
      rcases (slInsertP st.1 ls p).held_from os st.2 hkv with hkv | ⟨os', -, rfl⟩
      · exact E kv hkv
      · exact hkeep os' i l0 W.entries

theorem plWhole_mine {lo hi : U64} {c : Created} {ser : U64 → List TimePoint} {h : Inserts} {st : Chunk Unit × Volatile} (R : PlRep lo hi c ser h st)
    {L : Labels} (hL : WFSet L) {ps : List TimePoint} (H : PlWholeOrNone L ps st.2) {ls : Labels} (hls : WFSet ls) (hperm : ls.Perm L) {p : TimePoint}
    (hin : st.1.isInRange p.ts = true) {os : List OpOutcome} (hd : AllDone os) : PlWholeOrNone L (ps ++ [p]) (plInsert st ⟨ls, p, os⟩).2.2 := by
  have h1 := slWhole_mine R.base hL H.base hls hperm hin hd
  have hnow := (plInsert_now st ⟨ls, p, os⟩).2.2
  rw [← hnow] at h1
  rcases h1 with h1 | ⟨i, l0, h1⟩
  · simp at h1
  · refine .inr ⟨i, l0, h1, ?_⟩
    have hk : encodeLabels ls true = encodeLabels L true := encodeLabels_perm hls.distinct hperm true
    rcases H with H | ⟨i', l1, W, E⟩
    · have := slInsertP_flushed st.1 hls.nonempty p hd st.2 ⟨R.base.fine, hin⟩ (.inr (by rw [hk]; exact H.1))
      intro kv hkv
      have hkv : kv ∈ ((slInsertP st.1 ls p).execV os st.2).2.held .idx := hkv
      rw [this, List.mem_singleton] at hkv
      rw [hkv]
      exact h1.entries
    · -- an existing series: the index does not change
      have hcs : ∀ os', (slFaultyInsert (st.1, st.2.now) ⟨ls, p, os'⟩).2.2.idx = st.2.now.idx := by
        intro os'
        rcases slInsertP_cases R.base.index R.base.fine hls hin os' with ⟨-, hs⟩ | ⟨hb, -⟩ | ⟨j, hb, -, hix, -, -⟩
        · rw [hs]
        · have hb : st.2.now.idx (encodeLabels ls true) = none := hb
          rw [hk, W.key] at hb; cases hb
        · exact hix
      have hE : SlEntries L st.2.now.idx i l0 := by
        have := h1.entries
        rw [hnow, hcs] at this; exact this
      have hi : i = i' := W.determined (ps' := ps) hE
      subst hi
      have hl : l1 = l0 ∨ encodeLabels l1 false = encodeLabels l0 false := by
        right
        have := hE.metad
        rw [W.metad] at this
        exact Option.some.inj this
      have hmd : encodeLabels l1 false = encodeLabels l0 false := by rcases hl with rfl | hl <;> simp_all
      intro kv hkv
      rcases (slInsertP st.1 ls p).held_from os st.2 hkv with hkv | ⟨os', -, rfl⟩
      · have := E kv hkv
        exact ⟨this.key, by rw [this.metad, hmd], this.rev⟩
      · show SlEntries L (slFaultyInsert (st.1, st.2.now) ⟨ls, p, os'⟩).2.2.idx i l0
        rw [hcs]; exact hE

/-- What a loss of power leaves of such a label set: the index entries, and a prefix of the points. -/
theorem PlWholeOrNone.leaves {lo hi : U64} {c : Created} {ser : U64 → List TimePoint} {h : Inserts} {st : Chunk Unit × Volatile} (R : PlRep lo hi c ser h st)
    {L : Labels} {ps : List TimePoint} (H : PlWholeOrNone L ps st.2) {s : SledStores} (hs : st.2.Leaves s) :
    ps = [] ∨ ∃ i ls n, ls.Perm L ∧ SlEntries L s.idx i ls ∧
      s.ser (sledKey i) = if ps.take n = [] then none else some ((ps.take n).flatMap encodePoint) := by
  rcases H with H | ⟨i, ls, W, E⟩
  · exact .inl H.2
  · right
    obtain ⟨kv, hkv, e⟩ := hs .ser (sledKey i)
    obtain ⟨ser', h1, h2⟩ := R.ser kv hkv
    have hps : ser i = ps := by
      have h3 := (R.base.store i).symm.trans W.points
      by_cases h0 : ser i = []
      · rw [if_pos h0] at h3; cases h3
      · rw [if_neg h0] at h3
        have h4 := decodeSeries_points (ser i)
        rw [Option.some.inj h3, decodeSeries_points] at h4
        exact (Res.ok.inj h4).symm
    refine ⟨i, ls, (ser' i).length, W.perm, ⟨?_, ?_, ?_⟩, ?_⟩
    · obtain ⟨kv, hkv, e⟩ := hs .idx (encodeLabels L true)
      exact e.trans (E kv hkv).key
    · obtain ⟨kv, hkv, e⟩ := hs .idx (encodeId i)
      exact e.trans (E kv hkv).metad
    · intro l hl
      obtain ⟨kv, hkv, e⟩ := hs .idx (encodeLabel l)
      obtain ⟨ids, h4, h5⟩ := (E kv hkv).rev l hl
      exact ⟨ids, e.trans h4, h5⟩
    · have : ps.take (ser' i).length = ser' i := by
        rw [← hps]; exact (List.prefix_iff_eq_take.mp (h2 i)).symm
      rw [this, ← h1 i]; exact e

/-! ### Runs -/

theorem plRun_append (lo hi : U64) (h : List FaultyInsert) (w : FaultyInsert) : plRun lo hi (h ++ [w]) = (plInsert (plRun lo hi h) w).2 := by
  unfold plRun; rw [List.foldl_append]; rfl

theorem plRun_now (lo hi : U64) (h : List FaultyInsert) : ((plRun lo hi h).1, (plRun lo hi h).2.now) = slFaultyRun lo hi h := by
  induction h using List.reverseRecOn with
  | nil => rfl
  | append_singleton h w ih => rw [plRun_append, plInsert_pair, ih, slFaultyRun_append]

theorem plRun_rep (lo hi : U64) (h : List FaultyInsert) (hwf : ∀ w ∈ h, WFSet w.ls) (hlen : h.length < 2 ^ 64 - 1) :
    (∃ c ser, PlRep lo hi c ser (insideOnly lo hi (callsOf h)) (plRun lo hi h)) ∧
      ∀ L, WFSet L → (∀ w ∈ h, w.ls.Perm L → AllDone w.os) → PlWholeOrNone L (pointsFor (insideOnly lo hi (callsOf h)) L) (plRun lo hi h).2 := by
  induction h using List.reverseRecOn with
  | nil => exact ⟨⟨_, _, PlRep.new lo hi⟩, fun L _ _ => Or.inl ⟨rfl, rfl⟩⟩
  | append_singleton h w ih =>
    rw [List.length_append, List.length_singleton] at hlen
    obtain ⟨⟨c, ser, R⟩, hwhole⟩ := ih (fun x hx => hwf x (by simp [hx])) (by omega)
    have hcl : callsOf (h ++ [w]) = callsOf h ++ [(w.ls, w.p)] := by simp [callsOf]
    have hll := insideOnly_length_le lo hi h
    rw [plRun_append, hcl, insideOnly_append']
    have hww := hwf w (by simp)
    have hstep := R.insert (by omega) hww w.p w.os
    obtain ⟨ls, p, os⟩ := w
    by_cases hi' : inside lo hi p = true
    · obtain ⟨-, c', ser', R'⟩ := hstep.2 hi'
      rw [if_pos hi']
      refine ⟨⟨c', ser', R'⟩, ?_⟩
      intro L hL hall
      have H := hwhole L hL fun x hx => hall x (by simp [hx])
      have hin : (plRun lo hi h).1.isInRange p.ts = true := by
        have := inside_iff R.base.lo_eq R.base.hi_eq p
        exact this.trans hi'
      rw [pointsFor_append]
      split
      · rename_i hpm
        exact plWhole_mine R hL H hww hpm hin (hall ⟨ls, p, os⟩ (by simp) hpm)
      · rename_i hpm
        exact plWhole_other R hL H hww hpm hin os
    · have ho : inside lo hi p = false := by simpa using hi'
      rw [if_neg hi', hstep.1 ho]
      exact ⟨⟨c, ser, R⟩, fun L hL hall => hwhole L hL fun x hx => hall x (by simp [hx])⟩

/-- Without failures the index is always flushed between inserts. -/
theorem plRun_flushed (lo hi : U64) (h : List FaultyInsert) (hwf : ∀ w ∈ h, WFSet w.ls) (hos : ∀ w ∈ h, AllDone w.os) :
    (plRun lo hi h).2.held .idx = [(plRun lo hi h).2.now.idx] := by
  induction h using List.reverseRecOn with
  | nil => rfl
  | append_singleton h w ih =>
    have ih := ih (fun x hx => hwf x (by simp [hx])) (fun x hx => hos x (by simp [hx]))
    rw [plRun_append]
    by_cases hin : (plRun lo hi h).1.poisoned = false ∧ (plRun lo hi h).1.isInRange w.p.ts = true
    · exact slInsertP_flushed _ (hwf w (by simp)).nonempty w.p (hos w (by simp)) _ hin (.inl ih)
    · have : (plInsert (plRun lo hi h) w).2.2 = (plRun lo hi h).2 := by
        unfold plInsert slInsertP
        simp only
        split
        · rfl
        · rw [if_neg]
          · rfl
          · rename_i hp
            intro hr
            exact hin ⟨by simpa using hp, hr⟩
      rw [this]; exact ih

/-- Loss of power in the middle of an insert is the failure of its remaining operations. -/
theorem plCut_run (lo hi : U64) (h : List FaultyInsert) (w : FaultyInsert) (n : Nat) :
    ∃ os', plCut lo hi h w n = (plRun lo hi (h ++ [⟨w.ls, w.p, os'⟩])).2 := by
  obtain ⟨os', e⟩ := (slInsertP (plRun lo hi h).1 w.ls w.p).cut_execV n w.os (plRun lo hi h).2
  exact ⟨os', by rw [plRun_append]; exact e.symm⟩

end Verif
