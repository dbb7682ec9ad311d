import Verif.Lemmas.ChunkQueryConc
namespace Verif
open List

/-! ### Reads that agree with one state -/

/-- All reads of the reader agree with those on `c`. -/
def Agree {σ β : Type} (I : σ → Prop) (c : σ) (p : Proc σ β) : Prop := AllOut I (fun r => r = (p.run c).1) p

theorem Agree.ret {σ β : Type} (I : σ → Prop) (c : σ) (b : β) : Agree I c (.ret b : Proc σ β) := AllOut.ret rfl

theorem Agree.get {σ α β : Type} {I : σ → Prop} {c : σ} {f : σ → α} {k : α → Proc σ β} (hf : ∀ m, I m → f m = f c)
    (hk : Agree I c (k (f c))) : Agree I c (Proc.get f k) :=
  AllOut.get fun m hm => by rw [hf m hm]; exact hk

theorem containsProc_agree {β : Type} {I : SChunk → Prop} {c : SChunk} {k : Res (List (List U64)) → Proc SChunk β} (ls : Labels)
    (acc : List (List U64)) (hg : ∀ m, I m → ∀ l ∈ ls, sledGetId m.store.idx l = sledGetId c.store.idx l)
    (hk : Agree I c (k ((Res.mapM (sledGetId c.store.idx) ls).bind fun ts => .ok (acc ++ ts.filterMap id)))) :
    Agree I c (containsProc k ls acc) := by
  induction ls generalizing acc with
  | nil => simpa [containsProc, Res.mapM] using hk
  | cons l ls ih =>
    rw [containsProc]
    apply Agree.get (fun m hm => hg m hm l (by simp))
    have hg' : ∀ m, I m → ∀ x ∈ ls, sledGetId m.store.idx x = sledGetId c.store.idx x := fun m hm x hx => hg m hm x (by simp [hx])
    rcases h : sledGetId c.store.idx l with (_ | t) | e | _
    · apply ih _ hg'
      simp only [Res.mapM, h, Res.bind_ok] at hk
      rcases h2 : Res.mapM (sledGetId c.store.idx) ls with ts | e | _ <;> rw [h2] at hk <;> simpa using hk
    · apply ih _ hg'
      simp only [Res.mapM, h, Res.bind_ok] at hk
      rcases h2 : Res.mapM (sledGetId c.store.idx) ls with ts | e | _ <;> rw [h2] at hk <;> simpa using hk
    · simpa [Res.mapM, h] using hk
    · simpa [Res.mapM, h] using hk

theorem metaProc_agree {β : Type} {I : SChunk → Prop} {c : SChunk} {k : Res (List (U64 × Labels)) → Proc SChunk β} (is : List U64)
    (acc : List (U64 × Labels)) (hg : ∀ m, I m → ∀ i ∈ is, sledMeta1 m.store.idx i = sledMeta1 c.store.idx i)
    (hk : Agree I c (k ((Res.mapM (sledMeta1 c.store.idx) is).bind fun ts => .ok (acc ++ ts.filterMap id)))) :
    Agree I c (metaProc k is acc) := by
  induction is generalizing acc with
  | nil => simpa [metaProc, Res.mapM] using hk
  | cons l ls ih =>
    rw [metaProc]
    apply Agree.get (fun m hm => hg m hm l (by simp))
    have hg' : ∀ m, I m → ∀ x ∈ ls, sledMeta1 m.store.idx x = sledMeta1 c.store.idx x := fun m hm x hx => hg m hm x (by simp [hx])
    rcases h : sledMeta1 c.store.idx l with (_ | t) | e | _
    · apply ih _ hg'
      simp only [Res.mapM, h, Res.bind_ok] at hk
      rcases h2 : Res.mapM (sledMeta1 c.store.idx) ls with ts | e | _ <;> rw [h2] at hk <;> simpa using hk
    · apply ih _ hg'
      simp only [Res.mapM, h, Res.bind_ok] at hk
      rcases h2 : Res.mapM (sledMeta1 c.store.idx) ls with ts | e | _ <;> rw [h2] at hk <;> simpa using hk
    · simpa [Res.mapM, h] using hk
    · simpa [Res.mapM, h] using hk

theorem readProc_agree (B : BinSearch) {I : SChunk → Prop} {c : SChunk} {a b : U64} (l : List (U64 × Labels)) (acc : List Series)
    (hg : ∀ m, I m → ∀ x ∈ l, sledRead B m.store.ser x.1 a b = sledRead B c.store.ser x.1 a b) :
    Agree I c (readProc B a b l acc) := by
  induction l generalizing acc with
  | nil => exact .ret _ _ _
  | cons x l ih =>
    obtain ⟨i, ls⟩ := x
    rw [readProc]
    apply Agree.get (fun m hm => hg m hm (i, ls) (by simp))
    rcases sledRead B c.store.ser i a b with d | e | _
    · exact ih _ (fun m hm x hx => hg m hm x (by simp [hx]))
    · exact .ret _ _ _
    · exact .ret _ _ _

theorem queryProc_agree (B : BinSearch) {I : SChunk → Prop} {c : SChunk} {q : Labels} {a b : U64}
    (h0 : ∀ m, I m → m.start_ = c.start_ ∧ m.end_ = c.end_)
    (hget : ∀ m, I m → ∀ l ∈ q, sledGetId m.store.idx l = sledGetId c.store.idx l)
    (hmeta : ∀ m, I m → ∀ ids, sledContains c.store.idx q = .ok ids → ∀ i ∈ ids, sledMeta1 m.store.idx i = sledMeta1 c.store.idx i)
    (hread : ∀ m, I m → ∀ cands, sledMetadata c.store.idx q = .ok cands → ∀ x ∈ cands,
      sledRead B m.store.ser x.1 a b = sledRead B c.store.ser x.1 a b) : Agree I c (queryProc B q a b) := by
  unfold queryProc
  apply Agree.get
  · intro m hm
    simp only [Chunk.isWithRange, (h0 m hm).1, (h0 m hm).2]
  · simp only []
    split
    · apply containsProc_agree _ _ hget
      unfold sledMetadata sledContains at hread
      unfold sledContains at hmeta
      rcases hc : Res.mapM (sledGetId c.store.idx) q with ts | e | _
      · rw [hc] at hmeta hread
        simp only [Res.bind_ok, List.nil_append] at hmeta hread ⊢
        apply metaProc_agree _ _ (fun m hm i hi => hmeta m hm _ rfl i hi)
        rcases hm : Res.mapM (sledMeta1 c.store.idx) (intersectAll (ts.filterMap id)) with ms | e | _
        · rw [hm] at hread
          simp only [Res.bind_ok, List.nil_append] at hread ⊢
          exact readProc_agree B _ _ (fun m hm x hx => hread m hm _ rfl x hx)
        · exact .ret _ _ _
        · exact .ret _ _ _
      · exact .ret _ _ _
      · exact .ret _ _ _
    · exact .ret _ _ _

/-! ### Values of the elementary reads -/

/-- What `get_id` returns for a list of series. -/
def optIds (c : Created) (l : Label) : Option (List U64) := if idsWith c l = [] then none else some (idsWith c l)

theorem sledGetId_of {c : Created} {kv : KV} {l : Label}
    (h : kv (encodeLabel l) = if idsWith c l = [] then none else some (sledCodec.join (idsWith c l))) :
    sledGetId kv l = .ok (optIds c l) := by
  unfold sledGetId optIds
  rw [h]
  by_cases h0 : idsWith c l = []
  · simp [h0]
  · simp only [if_neg h0]
    have e := sled_decode_join _ h0
    simp [e]

theorem sledMeta1_of {c : Created} (hwf : ∀ s ∈ c, WFSet s.1) {kv : KV} {i : U64}
    (h : kv (encodeId i) = (c.find? fun s => decide (s.2 = i)).map fun s => encodeLabels s.1 false) :
    sledMeta1 kv i = .ok ((c.find? fun s => decide (s.2 = i)).map fun s => (i, sortLabels s.1)) := by
  unfold sledMeta1
  rw [h]
  rcases hf : c.find? (fun s => decide (s.2 = i)) with _ | s
  · rw [hf]; rfl
  · have hw := hwf s (List.mem_of_find?_eq_some hf)
    rw [hf, Option.map_some, Option.map_some]
    show (decodeLabels (encodeLabels s.1 false)).bind _ = _
    rw [decode_encodeLabels hw.nonempty hw.wf]
    rfl

/-- The series of a history extended by one insert. -/
theorem numbered_append (h : Inserts) (w : Labels × TimePoint) :
    numbered (h ++ [w]) = numbered h ∨
    numbered (h ++ [w]) = numbered h ++ [(w.1, BitVec.ofNat 64 ((labelSets h).length + 1))] ∧ specByLabels (numbered h) w.1 = none := by
  rw [numbered_eq, numbered_eq, labelSets_append]
  split
  · exact Or.inl rfl
  · right
    rename_i hn
    refine ⟨number_append _ _, ?_⟩
    unfold specByLabels
    rw [Option.map_eq_none_iff, List.find?_eq_none]
    intro x hx hp
    apply hn
    rw [List.any_eq_true]
    exact ⟨x.1, number_mem hx, hp⟩

theorem numbered_sub (h : Inserts) (w : Labels × TimePoint) {x : Labels × U64} (hx : x ∈ numbered h) : x ∈ numbered (h ++ [w]) := by
  rcases numbered_append h w with e | ⟨e, -⟩ <;> rw [e]
  · exact hx
  · simp [hx]

theorem numbered_incr {h : Inserts} (hl : h.length < 2 ^ 64 - 1) : (numbered h).Pairwise fun x y => x.2.toNat < y.2.toNat := by
  have hll := labelSets_length h
  obtain ⟨hids, -⟩ := number_ids (l := labelSets h) (by omega)
  rw [← numbered_eq] at hids
  exact hids

theorem numbered_wf {h : Inserts} (hwf : ∀ w ∈ h, WFSet w.1) : ∀ x ∈ numbered h, WFSet x.1 := by
  intro x hx
  obtain ⟨w, hw, e⟩ := labelSets_mem (number_mem hx)
  rw [← e]; exact hwf w hw

theorem id_unique {c : Created} (hids : c.Pairwise fun s t => s.2.toNat < t.2.toNat) {x y : Labels × U64} (hx : x ∈ c) (hy : y ∈ c)
    (h : x.2 = y.2) : x = y := by
  have h1 := find_by_id hids hx
  have h2 := find_by_id hids hy
  rw [h] at h1
  exact Option.some.inj (h1.symm.trans h2)

theorem idsWith_sasc {c : Created} (hids : c.Pairwise fun s t => s.2.toNat < t.2.toNat) (l : Label) : SAsc (idsWith c l) := by
  unfold idsWith SAsc
  rw [List.pairwise_map]
  exact hids.sublist List.filter_sublist

theorem mem_idsWith {c : Created} {l : Label} {i : U64} : i ∈ idsWith c l ↔ ∃ s ∈ c, l ∈ s.1 ∧ s.2 = i := by
  simp [idsWith, and_assoc]

theorem sledRead_spec (B : BinSearch) {ser : U64 → List TimePoint} {kv : KV} (h : StoreInv sledKey ser kv) {i a b : U64}
    (hs : SIncr (ser i)) (hab : a.toNat ≤ b.toNat) : sledRead B kv i a b = specRead (ser i) a b := by
  rw [sledRead_eq h]
  by_cases h0 : ser i = []
  · rw [if_pos h0, h0]; rfl
  · rw [if_neg h0, readSeries_spec hs h0 hab]

theorem specRead_ok {s : List TimePoint} {a b : U64} {d : List TimePoint} (h : specRead s a b = .ok d) : d = inRange s a b := by
  unfold specRead at h
  split at h
  · split at h
    · cases h
    · cases h; rfl
  · cases h

theorem specRead_no_panic (s : List TimePoint) (a b : U64) : specRead s a b ≠ .panic := by
  unfold specRead
  split
  · split <;> simp
  · simp

/-- Whatever the query reads between two histories, it reports only series of one of them. -/
theorem queryProc_between (B : BinSearch) {h h' : Inserts} {c c' : SChunk}
    (hc : (sledRefines B).Rep (numbered h) (seriesOf sledAccepts h) c.store)
    (hc' : (sledRefines B).Rep (numbered h') (seriesOf sledAccepts h') c'.store)
    (hsub : ∀ x ∈ numbered h, x ∈ numbered h') (hl : h.length < 2 ^ 64 - 1) (hl' : h'.length < 2 ^ 64 - 1)
    (hwf : ∀ w ∈ h, WFSet w.1) (hwf' : ∀ w ∈ h', WFSet w.1) (hincr : ∀ ls, SIncr (pointsFor h ls)) (hincr' : ∀ ls, SIncr (pointsFor h' ls))
    {q : Labels} (hq : ∀ l ∈ q, WFLabel l) {a b : U64} (hab : a.toNat ≤ b.toNat) :
    AllOut (CrashState c c') (fun r => r ≠ .panic ∧ ∀ ss, r = .ok ss → ∀ x ∈ ss,
      (reportedBy h a b x ∨ reportedBy h' a b x) ∧ (∃ l ∈ q, l ∈ x.labels) ∧ ∀ l ∈ knownLabels (numbered h) q, l ∈ x.labels)
      (queryProc B q a b) := by
  have hi := numbered_incr hl
  have hi' := numbered_incr hl'
  unfold queryProc
  apply AllOut.get
  intro m hm
  simp only []
  split
  · apply containsProc_allOut (G := fun l o => o = optIds (numbered h) l ∨ o = optIds (numbered h') l)
    · intro m hm l hlq
      rcases hm.idx (encodeLabel l) with e | e
      · refine ⟨_, sledGetId_of (c := numbered h) ?_, Or.inl rfl⟩
        rw [e]; have := hc.1.rev l (hq l hlq); simpa [sledCodec] using this
      · refine ⟨_, sledGetId_of (c := numbered h') ?_, Or.inr rfl⟩
        rw [e]; have := hc'.1.rev l (hq l hlq); simpa [sledCodec] using this
    · intro os hos
      simp only [List.nil_append]
      -- the lists
      have hts : ∀ t ∈ os.filterMap id, ∃ l ∈ q, (t = idsWith (numbered h) l ∨ t = idsWith (numbered h') l) := by
        intro t ht
        obtain ⟨o, ho, e⟩ := List.mem_filterMap.mp ht
        have : ∀ {q : Labels} {os : List (Option (List U64))},
            List.Forall₂ (fun l o => o = optIds (numbered h) l ∨ o = optIds (numbered h') l) q os →
            ∀ o ∈ os, ∃ l ∈ q, o = optIds (numbered h) l ∨ o = optIds (numbered h') l := by
          intro q os hf
          induction hf with
          | nil => simp
          | cons hx _ ih =>
            intro o ho
            rcases List.mem_cons.mp ho with rfl | ho
            · exact ⟨_, by simp, hx⟩
            · obtain ⟨l, hl, hx⟩ := ih o ho
              exact ⟨l, by simp [hl], hx⟩
        obtain ⟨l, hl, hx⟩ := this hos o ho
        refine ⟨l, hl, ?_⟩
        simp only [id] at e
        rw [e] at hx
        unfold optIds at hx
        rcases hx with hx | hx
        · left; split at hx
          · cases hx
          · exact Option.some.inj hx
        · right; split at hx
          · cases hx
          · exact Option.some.inj hx
      have hsa : ∀ t ∈ os.filterMap id, SAsc t := by
        intro t ht
        obtain ⟨l, -, e | e⟩ := hts t ht
        · rw [e]; exact idsWith_sasc hi l
        · rw [e]; exact idsWith_sasc hi' l
      have hkn : ∀ l ∈ knownLabels (numbered h) q, ∃ t ∈ os.filterMap id, t = idsWith (numbered h) l ∨ t = idsWith (numbered h') l := by
        intro l hl
        obtain ⟨hlq, hany⟩ := List.mem_filter.mp hl
        have : ∀ {q : Labels} {os : List (Option (List U64))},
            List.Forall₂ (fun l o => o = optIds (numbered h) l ∨ o = optIds (numbered h') l) q os →
            l ∈ q → ∃ o ∈ os, o = optIds (numbered h) l ∨ o = optIds (numbered h') l := by
          intro q os hf
          induction hf with
          | nil => simp
          | cons hx _ ih =>
            intro hl
            rcases List.mem_cons.mp hl with rfl | hl
            · exact ⟨_, by simp, hx⟩
            · obtain ⟨o, ho, hx⟩ := ih hl
              exact ⟨o, by simp [ho], hx⟩
        obtain ⟨o, ho, hx⟩ := this hos hlq
        have hne : idsWith (numbered h) l ≠ [] := by
          intro e; rw [idsWith_eq_nil] at e; rw [e] at hany; cases hany
        have hne' : idsWith (numbered h') l ≠ [] := by
          intro e
          obtain ⟨i, hi⟩ := List.exists_mem_of_ne_nil _ hne
          obtain ⟨s, hs, h1, h2⟩ := mem_idsWith.mp hi
          have : i ∈ idsWith (numbered h') l := mem_idsWith.mpr ⟨s, hsub s hs, h1, h2⟩
          rw [e] at this; simp at this
        unfold optIds at hx
        rw [if_neg hne, if_neg hne'] at hx
        rcases hx with hx | hx
        · exact ⟨_, List.mem_filterMap.mpr ⟨o, ho, hx⟩, Or.inl rfl⟩
        · exact ⟨_, List.mem_filterMap.mpr ⟨o, ho, hx⟩, Or.inr rfl⟩
      have hint := (intersectAll_spec _ hsa).2
      apply metaProc_allOut (G := fun i o => ∀ y, o = some y → ∃ s ∈ numbered h', s.2 = i ∧ y = (i, sortLabels s.1))
      · intro m hm i hii
        rcases hm.idx (encodeId i) with e | e
        · refine ⟨_, sledMeta1_of (numbered_wf hwf) ?_, ?_⟩
          · rw [e]; have := hc.1.byId i; simpa [sledCodec] using this
          · intro y hy
            obtain ⟨s, hs, e⟩ := Option.map_eq_some_iff.mp hy
            exact ⟨s, hsub s (List.mem_of_find?_eq_some hs), by simpa using List.find?_some hs, e.symm⟩
        · refine ⟨_, sledMeta1_of (numbered_wf hwf') ?_, ?_⟩
          · rw [e]; have := hc'.1.byId i; simpa [sledCodec] using this
          · intro y hy
            obtain ⟨s, hs, e⟩ := Option.map_eq_some_iff.mp hy
            exact ⟨s, List.mem_of_find?_eq_some hs, by simpa using List.find?_some hs, e.symm⟩
      · intro ms hms
        simp only [List.nil_append]
        have hcand : ∀ x ∈ ms.filterMap id, ∃ s ∈ numbered h', s.2 = x.1 ∧ x.2 = sortLabels s.1 ∧
            x.1 ∈ intersectAll (os.filterMap id) := by
          intro x hx
          obtain ⟨o, ho, e⟩ := List.mem_filterMap.mp hx
          simp only [id] at e
          have : ∀ {is : List U64} {ms : List (Option (U64 × Labels))},
              List.Forall₂ (fun i o => ∀ y, o = some y → ∃ s ∈ numbered h', s.2 = i ∧ y = (i, sortLabels s.1)) is ms →
              ∀ o ∈ ms, ∃ i ∈ is, ∀ y, o = some y → ∃ s ∈ numbered h', s.2 = i ∧ y = (i, sortLabels s.1) := by
            intro is ms hf
            induction hf with
            | nil => simp
            | cons hx _ ih =>
              intro o ho
              rcases List.mem_cons.mp ho with rfl | ho
              · exact ⟨_, by simp, hx⟩
              · obtain ⟨l, hl, hx⟩ := ih o ho
                exact ⟨l, by simp [hl], hx⟩
          obtain ⟨i, hii, hy⟩ := this hms o ho
          obtain ⟨s, hs, h1, h2⟩ := hy x e
          subst h2
          exact ⟨s, hs, h1, rfl, hii⟩
        apply readProc_allOut
        · simp
        · intro m hm x hx
          obtain ⟨s, hs, h1, h2, h3⟩ := hcand x hx
          -- labels
          have hlab : (∃ l ∈ q, l ∈ x.2) ∧ ∀ l ∈ knownLabels (numbered h) q, l ∈ x.2 := by
            obtain ⟨hne, hall⟩ := (hint x.1).mp h3
            have key : ∀ l, x.1 ∈ idsWith (numbered h') l → l ∈ x.2 := by
              intro l hl
              obtain ⟨s', hs', hls, e⟩ := mem_idsWith.mp hl
              have := id_unique hi' hs hs' (by rw [h1, e])
              rw [h2, this]
              exact (sortLabels_perm s'.1).mem_iff.mpr hls
            have key' : ∀ l, x.1 ∈ idsWith (numbered h) l → l ∈ x.2 := by
              intro l hl
              obtain ⟨s', hs', hls, e⟩ := mem_idsWith.mp hl
              exact key l (mem_idsWith.mpr ⟨s', hsub s' hs', hls, e⟩)
            constructor
            · obtain ⟨t, ht⟩ := List.exists_mem_of_ne_nil _ hne
              obtain ⟨l, hl, e | e⟩ := hts t ht
              · exact ⟨l, hl, key' l (by rw [← e]; exact hall t ht)⟩
              · exact ⟨l, hl, key l (by rw [← e]; exact hall t ht)⟩
            · intro l hl
              obtain ⟨t, ht, e | e⟩ := hkn l hl
              · exact key' l (by rw [← e]; exact hall t ht)
              · exact key l (by rw [← e]; exact hall t ht)
          -- points
          have hser : ∀ (g : Inserts) (d : SledStores), g.length < 2 ^ 64 - 1 → (∀ ls, SIncr (pointsFor g ls)) →
              (∀ x ∈ numbered g, x ∈ numbered h') →
              (sledRefines B).Rep (numbered g) (seriesOf sledAccepts g) d →
              sledRead B d.ser x.1 a b ≠ .panic ∧ ∀ dd, sledRead B d.ser x.1 a b = .ok dd → dd ≠ [] → reportedBy g a b ⟨x.1, x.2, dd⟩ := by
            intro g d hgl hgi hgs hg
            have hsi : SIncr (seriesOf sledAccepts g x.1) := by
              unfold seriesOf
              split
              · rw [keepBy_sled]; exact hgi _
              · exact Pairwise.nil
            rw [sledRead_spec B hg.2 hsi hab]
            refine ⟨specRead_no_panic _ _ _, ?_⟩
            intro dd hdd hne
            have hdd' := specRead_ok hdd
            have hnn : seriesOf sledAccepts g x.1 ≠ [] := by
              intro e; rw [e] at hdd'; exact hne (by rw [hdd']; rfl)
            rcases hf : (numbered g).find? (fun s => decide (s.2 = x.1)) with _ | s'
            · exact absurd (by unfold seriesOf; rw [hf]) hnn
            · have hs' := List.mem_of_find?_eq_some hf
              have hid : s'.2 = x.1 := by simpa using List.find?_some hf
              have hss := id_unique hi' hs (hgs s' hs') (by rw [h1, hid])
              subst hss
              refine ⟨s, hs', ?_⟩
              have : seriesOf sledAccepts g x.1 = pointsFor g s.1 := by
                rw [← hid, seriesOf_mem hgl hs', keepBy_sled]
              rw [this] at hdd'
              rw [hdd', h1, h2]
          have h4 := hser h c.store hl hincr hsub hc
          have h5 := hser h' c'.store hl' hincr' (fun _ h => h) hc'
          have hcase : m.store.ser = c.store.ser ∨ m.store.ser = c'.store.ser := by
            rcases hm.ser with e | e
            · exact Or.inl e
            · exact Or.inr (by rw [e])
          rcases hcase with e | e <;> rw [e]
          · exact ⟨h4.1, fun d hd hne => ⟨Or.inl (h4.2 d hd hne), hlab⟩⟩
          · exact ⟨h5.1, fun d hd hne => ⟨Or.inr (h5.2 d hd hne), hlab⟩⟩
  · exact .ret ⟨by simp, by intro ss e; cases e⟩

end Verif
