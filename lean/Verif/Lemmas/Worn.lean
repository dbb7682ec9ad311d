import Verif.Lemmas.Kept
import Verif.Lemmas.PowerLossInv
/-! The stores of a chunk as a loss of power left them, found again by a later process. -/
namespace Verif
open List

/-- Each entry of the stores is as it was at some moment between two: after the inserts `g0` or later, after the inserts `g` or earlier. -/
structure Worn (B : BinSearch) (lo hi : U64) (g0 g : Inserts) (s : SledStores) : Prop where
  ok : LogOk lo hi g
  pre : g0 <+: g
  entry : ∀ t k, ∃ g', g0 <+: g' ∧ g' <+: g ∧ s.tree t k = (chunkOf (Kit.sled B) lo hi g').store.tree t k

/-- The trees after inserts. -/
theorem chunkOf_trees (B : BinSearch) {lo hi : U64} {g : Inserts} (h : LogOk lo hi g) :
    IndexInv sledCodec (numbered (insideOnly lo hi g)) (chunkOf (Kit.sled B) lo hi g).store.idx ∧
    StoreInv sledKey (seriesOf sledAccepts (insideOnly lo hi g)) (chunkOf (Kit.sled B) lo hi g).store.ser := (h.rep (Kit.sled B)).rep

variable {B : BinSearch} {lo hi shown : U64} {g0 g : Inserts} {s : SledStores}

theorem Worn.empty (B : BinSearch) (lo hi : U64) : Worn B lo hi [] [] noStores := by
  refine ⟨⟨⟨by simp, by simp⟩, fun ls => List.Pairwise.nil⟩, List.prefix_refl _, fun t k => ⟨[], List.prefix_refl _, List.prefix_refl _, ?_⟩⟩
  cases t <;> rfl

theorem seriesOf_points {h : Inserts} (hl : h.length < 2 ^ 64 - 1) {x : Labels × U64} (hx : x ∈ numbered h) : seriesOf sledAccepts h x.2 = pointsFor h x.1 := by
  rw [seriesOf_mem hl hx, keepBy_sled]

/-- What such stores are. -/
theorem Worn.sound (h : Worn B lo hi g0 g s) : ∃ ser, SlSound (numbered (insideOnly lo hi g)) ser (insideOnly lo hi g) s ∧
    ∀ x ∈ numbered (insideOnly lo hi g0), pointsFor (insideOnly lo hi g0) x.1 <+: ser x.2 ∧ ser x.2 <+: pointsFor (insideOnly lo hi g) x.1 := by
  have hlen := insideOnly_len (lo := lo) (hi := hi) h.ok.fine
  have hinc := numbered_incr hlen
  have hlen' : ∀ {g'}, g' <+: g → (insideOnly lo hi g').length < 2 ^ 64 - 1 := fun hp => insideOnly_len (h.ok.prefix hp).fine
  have hser : ∀ i, ∃ ps : List TimePoint, s.ser (sledKey i) = (if ps = [] then none else some (ps.flatMap encodePoint)) ∧
      ∃ g', g0 <+: g' ∧ g' <+: g ∧ ps = seriesOf sledAccepts (insideOnly lo hi g') i := by
    intro i
    obtain ⟨g', h1, h2, e⟩ := h.entry .ser (sledKey i)
    exact ⟨seriesOf sledAccepts (insideOnly lo hi g') i, by rw [← (chunkOf_trees B (h.ok.prefix h2)).2 i]; exact e, g', h1, h2, rfl⟩
  choose ser hst g' hg0 hg hps using hser
  have hwf : ∀ x ∈ numbered (insideOnly lo hi g), WFSet x.1 := numbered_wf fun w hw => h.ok.fine.wf w (List.mem_of_mem_filter hw)
  refine ⟨ser, ⟨hinc, hwf, fun x hx => numbered_inserted hx, ⟨?_, ?_, ?_⟩, hst, ?_⟩, ?_⟩
  · intro ls hls v hv
    obtain ⟨k, -, h2, e⟩ := h.entry .idx (encodeLabels ls true)
    have e : s.idx _ = _ := e
    rw [hv] at e
    have e' : some v = (specByLabels (numbered (insideOnly lo hi k)) ls).map fmtId := e.trans ((chunkOf_trees B (h.ok.prefix h2)).1.byLabels ls hls)
    unfold specByLabels at e'
    rw [Option.map_map] at e'
    obtain ⟨x, hx, e''⟩ := Option.map_eq_some_iff.mp e'.symm
    exact ⟨x, numbered_pre (insideOnly_prefix h2) (List.mem_of_find?_eq_some hx), by simpa using List.find?_some hx, e''.symm⟩
  · intro i v hv
    obtain ⟨k, -, h2, e⟩ := h.entry .idx (encodeId i)
    have e : s.idx _ = _ := e
    rw [hv] at e
    obtain ⟨x, hx, e''⟩ := Option.map_eq_some_iff.mp (e.trans ((chunkOf_trees B (h.ok.prefix h2)).1.byId i)).symm
    exact ⟨x, numbered_pre (insideOnly_prefix h2) (List.mem_of_find?_eq_some hx), by simpa using List.find?_some hx, e''.symm⟩
  · intro l hl v hv
    obtain ⟨k, -, h2, e⟩ := h.entry .idx (encodeLabel l)
    have e : s.idx _ = _ := e
    rw [hv] at e
    have e' : some v = _ := e.trans ((chunkOf_trees B (h.ok.prefix h2)).1.rev l hl)
    split at e'
    · cases e'
    · rename_i hne
      refine ⟨_, hne, Option.some.inj e', idsWith_sasc (numbered_incr (hlen' h2)) l, fun i hi' => ?_⟩
      obtain ⟨x, hx, hlx, rfl⟩ := mem_idsWith.mp hi'
      exact ⟨x, numbered_pre (insideOnly_prefix h2) hx, rfl, hlx⟩
  · intro i hi'
    rw [hps i] at hi' ⊢
    unfold seriesOf at hi'
    rcases hf : (numbered (insideOnly lo hi (g' i))).find? (fun s => decide (s.2 = i)) with _ | x
    · rw [hf] at hi'; exact absurd rfl hi'
    · have hx := List.mem_of_find?_eq_some hf
      have hxi : x.2 = i := by simpa using List.find?_some hf
      refine ⟨x, numbered_pre (insideOnly_prefix (hg i)) hx, hxi, ?_⟩
      rw [← hxi, seriesOf_points (by rw [hxi]; exact hlen' (hg i)) (by rw [hxi]; exact hx)]
      rw [hxi]
      exact (pointsFor_pre (insideOnly_prefix (hg i)) x.1).sublist
  · intro x hx
    have hx' := numbered_pre (insideOnly_prefix (lo := lo) (hi := hi) (hg0 x.2)) hx
    rw [hps x.2, seriesOf_points (hlen' (hg x.2)) hx']
    exact ⟨pointsFor_pre (insideOnly_prefix (hg0 x.2)) _, pointsFor_pre (insideOnly_prefix (hg x.2)) _⟩

/-- What the metadata lookup lists, it lists once. -/
theorem sledMetadata_once {c : Created} {kv : KV} (h : SlIndexSound c kv) {q : Labels} (hq : ∀ l ∈ q, WFLabel l) {ms : List (U64 × Labels)}
    (hm : sledMetadata kv q = .ok ms) : (ms.map (·.1)).Nodup := by
  have hdec : ∃ ts, Res.mapM (sledGetId kv) q = .ok ts ∧ ∀ t ∈ ts.filterMap id, SAsc t := by
    clear hm
    induction q with
    | nil => exact ⟨[], rfl, by simp⟩
    | cons l q ih =>
      obtain ⟨ts, i1, i2⟩ := ih fun x hx => hq x (by simp [hx])
      rcases hk : kv (encodeLabel l) with _ | v
      · have hg : sledGetId kv l = .ok none := by unfold sledGetId; rw [hk]
        refine ⟨none :: ts, by simp [Res.mapM, hg, i1], ?_⟩
        rw [List.filterMap_cons_none (f := id) rfl]; exact i2
      · obtain ⟨ids, h0, rfl, hs, -⟩ := h.rev l (hq l (by simp)) v hk
        have hg : sledGetId kv l = .ok (some ids) := by unfold sledGetId; rw [hk]; simp only [sled_decode_join ids h0, Res.bind_ok]
        refine ⟨some ids :: ts, by simp [Res.mapM, hg, i1], ?_⟩
        rw [List.filterMap_cons_some (f := id) (b := ids) rfl]
        intro t ht
        rcases List.mem_cons.mp ht with rfl | ht
        · exact hs
        · exact i2 t ht
  obtain ⟨ts, h1, h2⟩ := hdec
  have hs := (intersectAll_spec (ts.filterMap id) h2).1
  unfold sledMetadata sledContains at hm
  rw [h1, Res.bind_ok, Res.bind_ok] at hm
  generalize intersectAll (ts.filterMap id) = ids at hs hm
  have hnd : ids.Nodup := hs.imp fun hlt e => by rw [e] at hlt; omega
  have hmap : ∀ (ids : List U64) r, Res.mapM (sledMeta1 kv) ids = .ok r → List.Forall₂ (fun i o => ∀ y, o = some y → y.1 = i) ids r := by
    intro ids
    induction ids with
    | nil => intro r hr; simp only [Res.mapM] at hr; cases hr; exact .nil
    | cons i ids ih =>
      intro r hr
      unfold Res.mapM at hr
      rcases h1 : sledMeta1 kv i with o | e | _
      · rw [h1, Res.bind_ok] at hr
        rcases h2 : Res.mapM (sledMeta1 kv) ids with r' | e | _
        · rw [h2, Res.bind_ok] at hr
          cases hr
          refine .cons ?_ (ih r' h2)
          rintro y rfl
          unfold sledMeta1 at h1
          split at h1
          · rename_i v hv
            rcases hd : decodeLabels v with ls | e | _
            · rw [hd, Res.bind_ok] at h1
              injection h1 with h1; injection h1 with h1; rw [← h1]
            · rw [hd] at h1; cases h1
            · rw [hd] at h1; cases h1
          · cases h1
        · rw [h2] at hr; cases hr
        · rw [h2] at hr; cases hr
      · rw [h1] at hr; cases hr
      · rw [h1] at hr; cases hr
  rcases h3 : Res.mapM (sledMeta1 kv) ids with r | e | _
  · rw [h3, Res.bind_ok] at hm
    cases hm
    exact hnd.sublist (forall₂_fst_sublist (hmap ids r h3))
  · rw [h3] at hm; cases hm
  · rw [h3] at hm; cases hm

theorem readAll_ids {σ : Type} {C : Comp σ} {st : σ} {a b : U64} {ms : List (U64 × Labels)} {ss : List Series} (h : readAll C st a b ms = .ok ss) :
    ss.map (·.id) <+ ms.map (·.1) := by
  induction ms generalizing ss with
  | nil => simp only [readAll] at h; cases h; simp
  | cons m ms ih =>
    obtain ⟨i, ls⟩ := m
    unfold readAll at h
    rcases hr : C.read st i a b with d | e | _
    · rw [hr, Res.bind_ok] at h
      rcases h2 : readAll C st a b ms with r | e | _
      · rw [h2, Res.bind_ok] at h
        cases h
        split
        · exact (ih h2).cons _
        · exact (ih h2).cons_cons _
      · rw [h2] at h; cases h
      · rw [h2] at h; cases h
    · rw [hr] at h; cases h
    · rw [hr] at h; cases h

/-- A query of the chunk found again. -/
theorem Worn.query (h : Worn B lo hi g0 g s) {q : Labels} (hq : ∀ l ∈ q, WFLabel l) {a b : U64} (hab : a.toNat ≤ b.toNat) :
    (foundAgain s lo shown).query (kitComp (Kit.sled B)) q a b ≠ .panic ∧ ∀ ss, (foundAgain s lo shown).query (kitComp (Kit.sled B)) q a b = .ok ss →
      (ss.map (·.labels)).Nodup ∧ ∀ x ∈ ss, (∃ w ∈ g, x.labels = sortLabels w.1) ∧ ∀ p ∈ x.points, ∃ w ∈ g, w.2 = p ∧ x.labels = sortLabels w.1 ∧
        a.toNat ≤ p.ts.toNat ∧ p.ts.toNat ≤ b.toNat := by
  obtain ⟨ser, R, -⟩ := h.sound
  rcases hr : (foundAgain s lo shown).isWithRange a b
  · rw [found_out q hr]; exact ⟨by simp, by simp⟩
  · have e : (foundAgain s lo shown).query (kitComp (Kit.sled B)) q a b = (sledMetadata s.idx q).bind (readAll (kitComp (Kit.sled B)) s a b) := by
      unfold Chunk.query
      rw [hr]; rfl
    obtain ⟨ids, ms, hm, hids, hin, -⟩ := slSound_metadata R.index R.wf hq
    have hread : ∀ i, (kitComp (Kit.sled B)).read s i a b = specRead (ser i) a b := fun i =>
      SlSound.read (st := (Chunk.new () lo hi, s)) R h.ok.incr B i hab
    rw [e, hm, Res.bind_ok]
    refine ⟨readAll_ne_panic fun m _ => ?_, ?_⟩
    · rw [hread]; exact specRead_ne_panic _ _ _
    intro ss hss
    have hnd := (sledMetadata_once R.index hq hm).sublist (readAll_ids hss)
    have hx : ∀ x ∈ ss, ∃ t ∈ numbered (insideOnly lo hi g), t.2 = x.id ∧ x.labels = sortLabels t.1 ∧ x.points = inRange (ser x.id) a b := by
      intro x hx
      obtain ⟨g1, g2, -⟩ := (readAll_mem hss).2 x hx
      obtain ⟨-, t, ht, he, hl⟩ := hin _ g1
      rw [hread] at g2
      exact ⟨t, ht, he, hl, specRead_ok_eq g2⟩
    refine ⟨?_, ?_⟩
    · rw [List.Nodup, List.pairwise_map] at hnd ⊢
      refine hnd.imp_of_mem ?_
      intro x y hxm hym hne e
      obtain ⟨t, ht, he, hl, -⟩ := hx x hxm
      obtain ⟨u, hu, he', hl', -⟩ := hx y hym
      have := perm_unique ht hu (perm_of_sortLabels_eq (by rw [← hl, ← hl', e]))
      exact hne (by rw [← he, ← he', this])
    · intro x hxm
      obtain ⟨t, ht, he, hl, hp⟩ := hx x hxm
      obtain ⟨w, hw, hwt⟩ := R.origin t ht
      refine ⟨⟨w, List.mem_of_mem_filter hw, by rw [hl, hwt]⟩, fun p hpm => ?_⟩
      rw [hp] at hpm
      obtain ⟨hp1, hp2⟩ := List.mem_filter.mp hpm
      obtain ⟨u, hu, he', hsub⟩ := R.sound x.id (List.ne_nil_of_mem hp1)
      have htu : t = u := R.id_unique ht hu (by rw [he, he'])
      subst htu
      obtain ⟨w', hw', rfl⟩ := List.mem_map.mp (hsub.subset hp1)
      obtain ⟨hw1, hw2⟩ := List.mem_filter.mp hw'
      have hw3 := List.mem_of_mem_filter hw1
      simp only [Bool.and_eq_true, decide_eq_true_eq] at hp2 hw2
      exact ⟨w', hw3, rfl, by rw [hl, sortLabels_perm_eq (h.ok.fine.wf w' hw3).distinct hw2], hp2.1, hp2.2⟩

theorem Worn.frozen (h : Worn B lo hi g0 g s) {K : Labels → Prop} (hK : ∀ w ∈ g, K (sortLabels w.1)) :
    Frozen (Kit.sled B) K (foundAgain s lo shown) (contribution (Kit.sled B) (foundAgain s lo shown)) := by
  refine ⟨rfl, fun q hq a b hab => (h.query hq hab).1, fun _ _ _ _ _ => rfl, ?_, ?_, ?_⟩
  · intro q _ a b _ hr
    unfold contribution
    rw [found_out q hr]; rfl
  · intro q hq a b hab
    unfold contribution
    rcases hres : (foundAgain s lo shown).query (kitComp (Kit.sled B)) q a b with ss | e | _
    · exact ((h.query hq hab).2 ss hres).1
    · exact List.nodup_nil
    · exact List.nodup_nil
  · intro q hq a b hab x hx
    unfold contribution at hx
    rcases hres : (foundAgain s lo shown).query (kitComp (Kit.sled B)) q a b with ss | e | _
    · rw [hres] at hx
      obtain ⟨w, hw, e⟩ := (((h.query hq hab).2 ss hres).2 x hx).1
      rw [e]; exact hK w hw
    · rw [hres] at hx; cases hx
    · rw [hres] at hx; cases hx

theorem Worn.honest (h : Worn B lo hi g0 g s) {q : Labels} (hq : ∀ l ∈ q, WFLabel l) {a b : U64} (hab : a.toNat ≤ b.toNat)
    {x : Series} (hx : x ∈ contribution (Kit.sled B) (foundAgain s lo shown) q a b) {p : TimePoint} (hp : p ∈ x.points) :
    ∃ w ∈ g, w.2 = p ∧ x.labels = sortLabels w.1 ∧ a.toNat ≤ p.ts.toNat ∧ p.ts.toNat ≤ b.toNat := by
  unfold contribution at hx
  rcases hres : (foundAgain s lo shown).query (kitComp (Kit.sled B)) q a b with ss | e | _
  · rw [hres] at hx
    exact (((h.query hq hab).2 ss hres).2 x hx).2 p hp
  · rw [hres] at hx; cases hx
  · rw [hres] at hx; cases hx

/-- An insert before the earlier moment is found by a query from time 0 on, if the later ones are of the same series or have none of the labels. -/
theorem Worn.shows (h : Worn B lo hi g0 g s) {q : Labels} (hq : ∀ l ∈ q, WFLabel l) (hne : q ≠ []) {w : Labels × TimePoint}
    (hw : w ∈ g0) (hin : inside lo hi w.2 = true) (hsub : ∀ l ∈ q, l ∈ w.1) {b : U64} (hcov : ∀ v ∈ g, v.2.ts.toNat ≤ b.toNat)
    (hlater : ∀ g1, g = g0 ++ g1 → ∀ v ∈ g1, v.1.Perm w.1 ∨ ∀ l ∈ q, l ∉ v.1) :
    ∃ x ∈ contribution (Kit.sled B) (foundAgain s lo shown) q 0#64 b, x.labels = sortLabels w.1 ∧ w.2 ∈ x.points := by
  have hab : (0#64 : U64).toNat ≤ b.toNat := by simp
  have hwg := h.pre.subset hw
  have hwb := hcov w hwg
  have hwf : WFSet w.1 := h.ok.fine.wf w hwg
  have hin' := hin
  unfold inside at hin'
  simp only [Bool.and_eq_true, decide_eq_true_eq] at hin'
  have hr : (foundAgain s lo shown).isWithRange 0#64 b = true := by
    simp only [foundAgain, Chunk.isWithRange, Chunk.close, Chunk.new, isDurationOverlap, Bool.false_eq_true, if_false, Bool.not_eq_true', Bool.or_eq_false_iff,
      decide_eq_false_iff_not]
    exact ⟨by omega, by simp⟩
  obtain ⟨ser, R, hser⟩ := h.sound
  have hwi : w ∈ insideOnly lo hi g0 := List.mem_filter.mpr ⟨hw, hin⟩
  have hinc := numbered_incr (insideOnly_len (lo := lo) (hi := hi) h.ok.fine)
  obtain ⟨t, ht, htp⟩ := numbered_has (ls := w.1) ⟨w, hwi, List.Perm.refl _⟩
  have htg := numbered_pre (insideOnly_prefix (lo := lo) (hi := hi) h.pre) ht
  -- the entries
  have hrev : ∀ l ∈ q, ∃ js : List U64, js ≠ [] ∧ s.idx (encodeLabel l) = some (sledCodec.join js) ∧ t.2 ∈ js ∧
      ∀ j ∈ js, ∃ u ∈ numbered (insideOnly lo hi g0), u.2 = j := by
    intro l hl
    obtain ⟨k, h1, h2, e⟩ := h.entry .idx (encodeLabel l)
    have e : s.idx _ = _ := e
    have e' : s.idx (encodeLabel l) = _ := e.trans ((chunkOf_trees B (h.ok.prefix h2)).1.rev l (hq l hl))
    have hm : t.2 ∈ idsWith (numbered (insideOnly lo hi k)) l := mem_idsWith.mpr
      ⟨t, numbered_pre (insideOnly_prefix h1) ht, htp.mem_iff.mpr (hsub l hl), rfl⟩
    rw [if_neg (List.ne_nil_of_mem hm)] at e'
    refine ⟨_, List.ne_nil_of_mem hm, e', hm, fun j hj => ?_⟩
    obtain ⟨u, hu, hlu, rfl⟩ := mem_idsWith.mp hj
    obtain ⟨v, hv, hvu⟩ := numbered_inserted hu
    have hvk := List.mem_of_mem_filter hv
    have hvin := (List.mem_filter.mp hv).2
    obtain ⟨r, rfl⟩ := h1
    rcases List.mem_append.mp hvk with hv0 | hvr
    · obtain ⟨u', hu', hp'⟩ := numbered_has (h := insideOnly lo hi g0) (ls := u.1) ⟨v, List.mem_filter.mpr ⟨hv0, hvin⟩, by rw [hvu]⟩
      have := perm_unique (numbered_pre (insideOnly_prefix (List.prefix_append _ _)) hu') hu hp'
      exact ⟨u', hu', by rw [this]⟩
    · obtain ⟨r', e2⟩ := h2
      rcases hlater (r ++ r') (by rw [← e2, List.append_assoc]) v (List.mem_append_left _ hvr) with hp | hp
      · have := perm_unique (numbered_pre (insideOnly_prefix (List.prefix_append _ _)) ht) hu (htp.trans (by rw [← hvu]; exact hp.symm))
        exact ⟨t, ht, by rw [this]⟩
      · exact absurd (by rw [hvu]; exact hlu) (hp l hl)
  have hmeta : ∀ u ∈ numbered (insideOnly lo hi g0), s.idx (encodeId u.2) = some (encodeLabels u.1 false) := by
    intro u hu
    obtain ⟨k, h1, h2, e⟩ := h.entry .idx (encodeId u.2)
    have e : s.idx _ = _ := e
    have e' : s.idx (encodeId u.2) = _ := e.trans ((chunkOf_trees B (h.ok.prefix h2)).1.byId u.2)
    rw [e', find_by_id (numbered_incr (insideOnly_len (h.ok.prefix h2).fine)) (numbered_pre (insideOnly_prefix h1) hu)]
    rfl
  obtain ⟨ids, ms, hm, hids, hin2, hall⟩ := slSound_metadata R.index R.wf hq
  have hread : ∀ i, (kitComp (Kit.sled B)).read s i 0#64 b = specRead (ser i) 0#64 b := fun i =>
    SlSound.read (st := (Chunk.new () lo hi, s)) R h.ok.incr B i hab
  have hidmem : ∀ i ∈ ids, ∃ u ∈ numbered (insideOnly lo hi g0), u.2 = i := by
    intro i hi'
    obtain ⟨l, hl⟩ := List.exists_mem_of_ne_nil q hne
    obtain ⟨js, j0, j1, -, j3⟩ := hrev l hl
    obtain ⟨js', k0, k1, k2⟩ := ((hids i).mp hi').2 l hl _ j1
    have : js = js' := by
      have h1 := sled_decode_join js j0
      rw [k1, sled_decode_join js' k0] at h1
      exact (Res.ok.inj h1).symm
    exact j3 i (by rw [this]; exact k2)
  have hok : ∀ u ∈ numbered (insideOnly lo hi g0), specRead (ser u.2) 0#64 b = .ok (inRange (ser u.2) 0#64 b) := by
    intro u hu
    obtain ⟨p1, p2⟩ := hser u hu
    have hne' : ser u.2 ≠ [] := by
      intro e
      rw [e] at p1
      obtain ⟨v, hv, e⟩ := numbered_inserted hu
      exact pointsFor_ne_nil.mpr ⟨v, hv, by rw [e]⟩ (List.prefix_nil.mp p1)
    unfold specRead
    rcases h1 : (ser u.2).head? with _ | f
    · rw [List.head?_eq_none_iff] at h1; exact absurd h1 hne'
    rcases h2 : (ser u.2).getLast? with _ | l
    · rw [List.getLast?_eq_none_iff] at h2; exact absurd h2 hne'
    simp only []
    rw [if_neg]
    rintro (h3 | h3)
    · obtain ⟨v, hv, e⟩ := List.mem_map.mp (p2.subset (List.mem_of_mem_head? h1))
      have := hcov v (List.mem_of_mem_filter (List.mem_of_mem_filter hv))
      rw [e] at this
      omega
    · simp at h3
  have hti : t.2 ∈ ids := by
    rw [hids]
    refine ⟨?_, ?_⟩
    · obtain ⟨l, hl⟩ := List.exists_mem_of_ne_nil q hne
      obtain ⟨js, -, hj, -⟩ := hrev l hl
      intro h0
      have : sledCodec.join js ∈ q.filterMap fun l => s.idx (encodeLabel l) := List.mem_filterMap.mpr ⟨l, hl, hj⟩
      rw [h0] at this; cases this
    · intro l hl v hv
      obtain ⟨js, j0, hj, hij, -⟩ := hrev l hl
      rw [hj] at hv; cases hv
      exact ⟨js, j0, rfl, hij⟩
  have htm := hall t.2 hti t htg rfl (hmeta t ht)
  have e : (foundAgain s lo shown).query (kitComp (Kit.sled B)) q 0#64 b = (sledMetadata s.idx q).bind (readAll (kitComp (Kit.sled B)) s 0#64 b) := by
    unfold Chunk.query
    rw [hr]; rfl
  have hreads : ∀ ms : List (U64 × Labels), (∀ m ∈ ms, ∃ d, (kitComp (Kit.sled B)).read s m.1 0#64 b = .ok d) →
      ∃ ss, readAll (kitComp (Kit.sled B)) s 0#64 b ms = .ok ss := by
    intro ms
    induction ms with
    | nil => intro _; exact ⟨[], rfl⟩
    | cons m ms ih =>
      intro hall
      obtain ⟨ss, hs⟩ := ih fun x hx => hall x (by simp [hx])
      obtain ⟨d, hd⟩ := hall m (by simp)
      obtain ⟨i, ls⟩ := m
      unfold readAll
      rw [hd, Res.bind_ok, hs, Res.bind_ok]
      exact ⟨_, rfl⟩
  obtain ⟨ss, hss⟩ := hreads ms (by
    intro m hmm
    obtain ⟨u, hu, e1⟩ := hidmem _ (hin2 m hmm).1
    exact ⟨_, by rw [hread, ← e1]; exact hok u hu⟩)
  unfold contribution
  rw [e, hm, Res.bind_ok, hss]
  obtain ⟨d, hd, hd2⟩ := (readAll_mem hss).1 _ htm
  rw [hread] at hd
  simp only at hd
  rw [hok t ht] at hd
  have hwd : w.2 ∈ d := by
    rw [← Res.ok.inj hd]
    refine List.mem_filter.mpr ⟨(hser t ht).1.subset ?_, by simpa using hwb⟩
    exact List.mem_map.mpr ⟨w, List.mem_filter.mpr ⟨hwi, by simpa using htp.symm⟩, rfl⟩
  exact ⟨_, hd2 (List.ne_nil_of_mem hwd), (sortLabels_perm_eq hwf.distinct htp.symm).symm, hwd⟩

end Verif
