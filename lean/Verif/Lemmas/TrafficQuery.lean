import Verif.Lemmas.Traffic
namespace Verif
open List

theorem forall₂_mem_left {α β : Type} {R : α → β → Prop} {l : List α} {l' : List β} (h : List.Forall₂ R l l') {x : α} (hx : x ∈ l) :
    ∃ y, (x, y) ∈ l.zip l' ∧ y ∈ l' ∧ R x y := by
  induction h with
  | nil => simp at hx
  | cons hr _ ih =>
    rcases List.mem_cons.mp hx with rfl | hx
    · exact ⟨_, by simp, by simp, hr⟩
    · obtain ⟨y, h1, h2, h3⟩ := ih hx
      exact ⟨y, by simp [h1], by simp [h2], h3⟩

theorem forall₂_mem_right {α β : Type} {R : α → β → Prop} {l : List α} {l' : List β} (h : List.Forall₂ R l l') {y : β} (hy : y ∈ l') :
    ∃ x ∈ l, R x y := by
  induction h with
  | nil => simp at hy
  | cons hr _ ih =>
    rcases List.mem_cons.mp hy with rfl | hy
    · exact ⟨_, by simp, hr⟩
    · obtain ⟨x, h1, h2⟩ := ih hy
      exact ⟨x, by simp [h1], h2⟩

theorem forall₂_fst_sublist {is : List U64} {ms : List (Option (U64 × Labels))} (h : List.Forall₂ (fun i o => ∀ y, o = some y → y.1 = i) is ms) :
    (ms.filterMap id).map (·.1) <+ is := by
  induction h with
  | nil => simp
  | @cons i o is ms hr _ ih =>
    rcases o with _ | y
    · simpa using ih.cons i
    · have := hr y rfl
      simp only [List.filterMap_cons, id, List.map_cons]
      rw [this]
      exact ih.cons_cons i

theorem numbered_inserted {h : Inserts} {s : Labels × U64} (hs : s ∈ numbered h) : ∃ w ∈ h, w.1 = s.1 := labelSets_mem (number_mem hs)

theorem numbered_has {h : Inserts} {ls : Labels} (hex : ∃ w ∈ h, w.1.Perm ls) : ∃ s ∈ numbered h, s.1.Perm ls := by
  obtain ⟨i, hi⟩ := exists_id hex
  unfold specByLabels at hi
  obtain ⟨s, hs, -⟩ := Option.map_eq_some_iff.mp hi
  exact ⟨s, List.mem_of_find?_eq_some hs, by simpa using List.find?_some hs⟩

theorem pointsFor_labels_perm (h : Inserts) {x y : Labels} (hp : x.Perm y) : pointsFor h x = pointsFor h y := by
  unfold pointsFor
  congr 1
  apply List.filter_congr
  intro w _
  exact decide_eq_decide.mpr ⟨fun h => h.trans hp, fun h => h.trans hp.symm⟩

theorem pointsFor_ne_nil {h : Inserts} {ls : Labels} : pointsFor h ls ≠ [] ↔ ∃ w ∈ h, w.1.Perm ls := by
  unfold pointsFor
  rw [ne_eq, List.map_eq_nil_iff, List.filter_eq_nil_iff]
  simp

/-- What is stated of a result. -/
def FairAnswer (lo hi : U64) (before : Inserts) (q : Labels) (a b : U64) (m : Moment) (r : Res (List Series)) : Prop :=
  m.settled <+: m.started → LogOk lo hi m.started →
    r ≠ .panic ∧ (∀ ss, r = .ok ss → Snapshots lo hi before m.settled q a b ss) ∧
    ∀ e, r = .err e → MayFail lo hi before m.settled m.started q a b e

theorem MayFail.mono {lo hi : U64} {before a1 a2 b1 b2 : Inserts} {q : Labels} {a b : U64} {e : MErr}
    (h : MayFail lo hi before a1 b1 q a b e) (ha : a1 <+: a2) (hb : b1 <+: b2) : MayFail lo hi before a2 b2 q a b e := by
  rcases h with h | ⟨g, h1, h2, h3⟩ | ⟨h0, g, w, h1, h2, h3⟩
  · exact Or.inl h
  · exact Or.inr (Or.inl ⟨g, h1, h2.trans ha, h3⟩)
  · exact Or.inr (Or.inr ⟨h0, g, w, h1, h2.trans hb, h3⟩)

theorem At.getId {B : Kit} {lo hi : U64} {m : Moment} {s : SChunk} (h : At B lo hi m s) {l : Label} (hl : WFLabel l) :
    ∃ g, m.settled <+: g ∧ g <+: m.started ∧ B.getId s.store.idx l = .ok (optIds (numbered (insideOnly lo hi g)) l) := by
  rcases h.idx (encodeLabel l) with e | e
  · refine ⟨m.settled, List.prefix_refl _, h.pre, kitGetId_of B ?_⟩
    rw [e]; have := ((h.ok.prefix h.pre).rep B).rep.1.rev l hl; simpa [B.codec_pre] using this
  · refine ⟨m.started, h.pre, List.prefix_refl _, kitGetId_of B ?_⟩
    rw [e]; have := (h.ok.rep B).rep.1.rev l hl; simpa [B.codec_pre] using this

theorem At.meta {B : Kit} {lo hi : U64} {m : Moment} {s : SChunk} (h : At B lo hi m s) (i : U64) :
    ∃ g, m.settled <+: g ∧ g <+: m.started ∧ B.meta1 s.store.idx i =
      .ok (((numbered (insideOnly lo hi g)).find? fun s => decide (s.2 = i)).map fun s => (i, sortLabels s.1)) := by
  rcases h.idx (encodeId i) with e | e
  · refine ⟨m.settled, List.prefix_refl _, h.pre, kitMeta1_of B (numbered_wf (insideOnly_wf (h.ok.prefix h.pre).fine)) ?_⟩
    rw [e]; have := ((h.ok.prefix h.pre).rep B).rep.1.byId i; simpa [B.codec_pre] using this
  · refine ⟨m.started, h.pre, List.prefix_refl _, kitMeta1_of B (numbered_wf (insideOnly_wf h.ok.fine)) ?_⟩
    rw [e]; have := (h.ok.rep B).rep.1.byId i; simpa [B.codec_pre] using this

theorem At.read {B : Kit} {lo hi : U64} {m : Moment} {s : SChunk} (h : At B lo hi m s) (i : U64) {a b : U64} (hab : a.toNat ≤ b.toNat) :
    B.read s.store.ser i a b = specRead (seriesOf sledAccepts (insideOnly lo hi m.settled) i) a b := by
  have hinc := (h.ok.prefix h.pre).incr
  have hs : SIncr (seriesOf sledAccepts (insideOnly lo hi m.settled) i) := by
    unfold seriesOf
    split
    · rw [keepBy_sled]; exact hinc _
    · exact Pairwise.nil
  have e := (kitRefines B).read (i := i) ((h.ok.prefix h.pre).rep B).rep (a := a) (b := b) (by rw [seriesOf_incr _ hinc]; exact hs) hab
  rw [seriesOf_incr _ hinc] at e
  rw [h.ser]
  exact e

theorem kitQuery_seen (B : Kit) {lo hi : U64} {before : Inserts} {q : Labels} (hq : ∀ l ∈ q, WFLabel l) {a b : U64}
    (hab : a.toNat ≤ b.toNat) :
    Seen Moment.le (At B lo hi) (FairAnswer lo hi before q a b) ⟨before, before⟩ (kitQuery B q a b) := by
  unfold kitQuery
  apply Seen.get
  intro m0 s0 hm0 hs0
  simp only [hs0.start_, hs0.end_, Chunk.isWithRange_eq]
  split
  rotate_left
  · rename_i hov
    refine .ret fun m _ _ _ => ⟨by simp, by intro ss e; (simp at e), ?_⟩
    intro e he
    cases he
    exact Or.inl ⟨by simpa using hov, rfl⟩
  apply kitContains_seen B Moment.le_refl Moment.le_trans
    (G := fun m l o => ∃ g, before <+: g ∧ g <+: m.started ∧ o = optIds (numbered (insideOnly lo hi g)) l)
    (fun l o hle ⟨g, h1, h2, h3⟩ => ⟨g, h1, h2.trans hle.2, h3⟩)
  · intro m s hm hs l hl
    obtain ⟨g, h1, h2, h3⟩ := hs.getId (hq l hl)
    exact ⟨_, h3, g, (hm0.1.trans hm.1).trans h1, h2, rfl⟩
  intro m1 os hm1 hos
  simp only [List.nil_append]
  -- the lists of ids
  have hts : ∀ t ∈ os.filterMap id, ∃ l ∈ q, ∃ g, before <+: g ∧ g <+: m1.started ∧ t = idsWith (numbered (insideOnly lo hi g)) l := by
    intro t ht
    obtain ⟨o, ho, e⟩ := List.mem_filterMap.mp ht
    obtain ⟨l, hl, g, h1, h2, h3⟩ := forall₂_mem_right hos ho
    refine ⟨l, hl, g, h1, h2, ?_⟩
    simp only [id] at e
    rw [e] at h3
    unfold optIds at h3
    split at h3
    · cases h3
    · exact Option.some.inj h3
  have hkn : ∀ l ∈ q, (∃ s ∈ numbered (insideOnly lo hi before), l ∈ s.1) → ∃ t ∈ os.filterMap id, ∃ g, before <+: g ∧ g <+: m1.started ∧
      t = idsWith (numbered (insideOnly lo hi g)) l := by
    intro l hl ⟨s, hs, hls⟩
    obtain ⟨o, -, ho, g, h1, h2, h3⟩ := forall₂_mem_left hos hl
    have hne : idsWith (numbered (insideOnly lo hi g)) l ≠ [] :=
      List.ne_nil_of_mem (mem_idsWith.mpr ⟨s, numbered_pre (insideOnly_prefix h1) hs, hls, rfl⟩)
    unfold optIds at h3
    rw [if_neg hne] at h3
    exact ⟨_, List.mem_filterMap.mpr ⟨o, ho, h3⟩, g, h1, h2, rfl⟩
  have hsa : LogOk lo hi m1.started → ∀ t ∈ os.filterMap id, SAsc t := by
    intro hok t ht
    obtain ⟨l, -, g, -, h2, e⟩ := hts t ht
    rw [e]
    exact idsWith_sasc (numbered_incr (insideOnly_len (hok.prefix h2).fine)) l
  apply kitMeta_seen B Moment.le_refl Moment.le_trans
    (G := fun m i o => ∃ g, before <+: g ∧ g <+: m.started ∧
      o = ((numbered (insideOnly lo hi g)).find? fun s => decide (s.2 = i)).map fun s => (i, sortLabels s.1))
    (fun l o hle ⟨g, h1, h2, h3⟩ => ⟨g, h1, h2.trans hle.2, h3⟩)
  · intro m s hm hs i _
    obtain ⟨g, h1, h2, h3⟩ := hs.meta i
    exact ⟨_, h3, g, ((hm0.1.trans hm1.1).trans hm.1).trans h1, h2, rfl⟩
  intro m2 ms hm2 hms
  simp only [List.nil_append]
  -- the candidates
  have hcand : ∀ x ∈ ms.filterMap id, x.1 ∈ intersectAll (os.filterMap id) ∧
      ∃ s ∈ numbered (insideOnly lo hi m2.started), s.2 = x.1 ∧ x.2 = sortLabels s.1 := by
    intro x hx
    obtain ⟨o, ho, e⟩ := List.mem_filterMap.mp hx
    simp only [id] at e
    obtain ⟨i, hi', g, h1, h2, h3⟩ := forall₂_mem_right hms ho
    rw [e] at h3
    obtain ⟨s, hs, e2⟩ := Option.map_eq_some_iff.mp h3.symm
    have hid : s.2 = i := by simpa using List.find?_some hs
    subst e2
    exact ⟨hi', s, numbered_pre (insideOnly_prefix h2) (List.mem_of_find?_eq_some hs), hid, rfl⟩
  have hall : LogOk lo hi m2.started → ∀ s ∈ numbered (insideOnly lo hi before), s.2 ∈ intersectAll (os.filterMap id) →
      (s.2, sortLabels s.1) ∈ ms.filterMap id := by
    intro hok s hs hi'
    obtain ⟨o, -, ho, g, h1, h2, h3⟩ := forall₂_mem_left hms hi'
    rw [find_by_id (numbered_incr (insideOnly_len (hok.prefix h2).fine)) (numbered_pre (insideOnly_prefix h1) hs)] at h3
    exact List.mem_filterMap.mpr ⟨o, ho, h3⟩
  have hfst : (ms.filterMap id).map (·.1) <+ intersectAll (os.filterMap id) := by
    apply forall₂_fst_sublist
    refine hms.imp ?_
    rintro i o ⟨g, -, -, h3⟩ y rfl
    obtain ⟨s, hs, e2⟩ := Option.map_eq_some_iff.mp h3.symm
    rw [← e2]
  generalize hC : ms.filterMap id = cands at hcand hall hfst
  -- labels of candidates
  have hlab : ∀ m : Moment, m2.started <+: m.started → LogOk lo hi m.started → ∀ s ∈ numbered (insideOnly lo hi m.started),
      s.2 ∈ intersectAll (os.filterMap id) → (∃ l ∈ q, l ∈ s.1) ∧
      ∀ l ∈ q, (∃ s ∈ numbered (insideOnly lo hi before), l ∈ s.1) → l ∈ s.1 := by
    intro m hmm hok s hs hi'
    have h1s : m1.started <+: m.started := hm2.2.trans hmm
    obtain ⟨hne, hin⟩ := ((intersectAll_spec _ (hsa (hok.prefix h1s))).2 s.2).mp hi'
    have key : ∀ l, ∀ g, g <+: m1.started → s.2 ∈ idsWith (numbered (insideOnly lo hi g)) l → l ∈ s.1 := by
      intro l g hg hl
      obtain ⟨s', hs', hls, e⟩ := mem_idsWith.mp hl
      rw [id_unique (numbered_incr (insideOnly_len hok.fine)) hs (numbered_pre (insideOnly_prefix (hg.trans h1s)) hs') e.symm]
      exact hls
    constructor
    · obtain ⟨t, ht⟩ := List.exists_mem_of_ne_nil _ hne
      obtain ⟨l, hl, g, -, h2, e⟩ := hts t ht
      exact ⟨l, hl, key l g h2 (by rw [← e]; exact hin t ht)⟩
    · intro l hl hex
      obtain ⟨t, ht, g, -, h2, e⟩ := hkn l hl hex
      exact key l g h2 (by rw [← e]; exact hin t ht)
  have hb2 : before <+: m2.settled := (hm0.1.trans hm1.1).trans hm2.1
  apply kitRead_seen B Moment.le_refl Moment.le_trans
    (G := fun m x d => ∃ g, before <+: g ∧ g <+: m.settled ∧ ∃ s ∈ numbered (insideOnly lo hi g), s.2 = x.1 ∧
      d = inRange (pointsFor (insideOnly lo hi g) s.1) a b)
    (fun l o hle ⟨g, h1, h2, h3⟩ => ⟨g, h1, h2.trans hle.1, h3⟩)
  · intro m s hm hs x hx
    obtain ⟨hxi, s1, hs1, hid1, -⟩ := hcand x hx
    have hs1' := numbered_pre (insideOnly_prefix (lo := lo) (hi := hi) hm.2) hs1
    have hinc := numbered_incr (insideOnly_len (lo := lo) (hi := hi) hs.ok.fine)
    have hl1 := (hlab m hm.2 hs.ok s1 hs1' (by rw [hid1]; exact hxi)).1
    rw [hs.read x.1 hab]
    rcases hf : (numbered (insideOnly lo hi m.settled)).find? (fun s => decide (s.2 = x.1)) with _ | s2
    · -- the series is being made
      right
      have hser : seriesOf sledAccepts (insideOnly lo hi m.settled) x.1 = [] := by unfold seriesOf; rw [hf]
      refine ⟨.notFound, by rw [hser]; rfl, fun m' hm' hpre hok => ⟨by simp, by intro ss e; (simp at e), ?_⟩⟩
      intro e he
      cases he
      refine MayFail.mono (Or.inr (Or.inr ⟨rfl, ?_⟩)) hm'.1 hm'.2
      have hnot : s1 ∉ numbered (insideOnly lo hi m.settled) := by
        intro hmem
        rw [List.find?_eq_none] at hf
        exact hf s1 hmem (by simp [hid1])
      rcases hs.one with e | ⟨w, e⟩
      · rw [e] at hs1'; exact absurd hs1' hnot
      · rw [e, insideOnly_append] at hs1'
        split at hs1'
        · rename_i hin
          rcases numbered_append (insideOnly lo hi m.settled) w with e2 | ⟨e2, e3⟩
          · rw [e2] at hs1'; exact absurd hs1' hnot
          · rw [e2] at hs1'
            rcases List.mem_append.mp hs1' with h | h
            · exact absurd h hnot
            · rw [List.mem_singleton.mp h] at hl1
              refine ⟨m.settled, w, hb2.trans hm.1, by rw [e]; exact List.prefix_refl _, hin, hl1, ?_⟩
              intro v hv hp
              obtain ⟨i, hi'⟩ := exists_id ⟨v, hv, hp⟩
              rw [e3] at hi'; cases hi'
        · exact absurd hs1' hnot
    · have hs2 := List.mem_of_find?_eq_some hf
      have hid2 : s2.2 = x.1 := by simpa using List.find?_some hf
      have he12 : s1 = s2 := id_unique hinc hs1' (numbered_pre (insideOnly_prefix hs.pre) hs2) (by rw [hid1, hid2])
      subst he12
      have hser : seriesOf sledAccepts (insideOnly lo hi m.settled) x.1 = pointsFor (insideOnly lo hi m.settled) s1.1 := by
        unfold seriesOf; rw [hf]; simp only []; rw [keepBy_sled]
      rw [hser]
      unfold specRead
      rcases h1 : (pointsFor (insideOnly lo hi m.settled) s1.1).head? with _ | f
      · exfalso
        rw [List.head?_eq_none_iff] at h1
        obtain ⟨w, hw, e⟩ := numbered_inserted hs2
        exact pointsFor_ne_nil.mpr ⟨w, hw, by rw [e]⟩ h1
      · rcases h2 : (pointsFor (insideOnly lo hi m.settled) s1.1).getLast? with _ | l
        · rw [List.getLast?_eq_none_iff] at h2
          rw [h2] at h1; cases h1
        · simp only []
          split
          · rename_i hout
            right
            refine ⟨_, rfl, fun m' hm' hpre hok => ⟨by simp, by intro ss e; (simp at e), ?_⟩⟩
            intro e he
            cases he
            refine MayFail.mono (Or.inr (Or.inl ?_)) hm'.1 hm'.2
            obtain ⟨w, hw, e⟩ := numbered_inserted hs2
            exact ⟨m.settled, hb2.trans hm.1, List.prefix_refl _, w, hw, by rw [e]; exact hl1, f, l, by rw [e]; exact h1, by rw [e]; exact h2,
              hout, rfl⟩
          · left
            exact ⟨_, rfl, m.settled, hb2.trans hm.1, List.prefix_refl _, s1, hs2, hid1, rfl⟩
  -- the end
  intro m ds hm hds hpre hok
  refine ⟨by simp, ?_, by intro e he; (simp at he)⟩
  intro ss hss
  rw [List.nil_append] at hss
  cases hss
  have hinc := numbered_incr (insideOnly_len (lo := lo) (hi := hi) hok.fine)
  have hmem : ∀ x ∈ (cands.zip ds).filterMap (fun y => if y.2.length = 0 then none else some (⟨y.1.1, y.1.2, y.2⟩ : Series)),
      ∃ s ∈ numbered (insideOnly lo hi m.started), s.2 = x.id ∧ x.labels = sortLabels s.1 ∧ s.2 ∈ intersectAll (os.filterMap id) ∧
      ∃ g, before <+: g ∧ g <+: m.settled ∧ s ∈ numbered (insideOnly lo hi g) ∧ x.points = inRange (pointsFor (insideOnly lo hi g) s.1) a b ∧
        x.points ≠ [] := by
    intro x hx
    obtain ⟨⟨y, d⟩, hy, e⟩ := List.mem_filterMap.mp hx
    obtain ⟨g, h1, h2, s, hs, hid, hd⟩ := List.forall₂_zip hds hy
    simp only at e hid hd
    split at e
    · cases e
    · rename_i hne
      cases e
      obtain ⟨hxi, s1, hs1, hid1, hl1⟩ := hcand y (List.of_mem_zip hy).1
      have hs1' := numbered_pre (insideOnly_prefix (lo := lo) (hi := hi) hm.2) hs1
      have : s1 = s := id_unique hinc hs1' (numbered_pre (insideOnly_prefix (h2.trans hpre)) hs) (by rw [hid1, hid])
      subst this
      exact ⟨s1, hs1', hid1, hl1, by rw [hid1]; exact hxi, g, h1, h2, hs, hd, by intro e; apply hne; rw [show d = [] from e]; rfl⟩
  refine ⟨?_, ?_, ?_, ?_, ?_, ?_⟩
  rotate_left
  · intro x hx
    obtain ⟨s, hs, hid, hl, -, g, h1, h2, h3, h4, h5⟩ := hmem x hx
    obtain ⟨w, hw, e⟩ := numbered_inserted h3
    exact ⟨w, (insideOnly_prefix h2).subset hw, by rw [hl, e]⟩
  rotate_right
  · intro x hx
    obtain ⟨s, hs, hid, hl, -, g, h1, h2, h3, h4, h5⟩ := hmem x hx
    have hp : s.1.Perm x.labels := by rw [hl]; exact (sortLabels_perm s.1).symm
    obtain ⟨w, hw, e⟩ := numbered_inserted h3
    exact ⟨g, h1, h2, ⟨w, hw, by rw [e]; exact hp⟩, by rw [h4, pointsFor_labels_perm _ hp], h5⟩
  · intro x hx
    obtain ⟨s, hs, hid, hl, hi', -⟩ := hmem x hx
    obtain ⟨l, hlq, hls⟩ := (hlab m hm.2 hok s hs hi').1
    exact ⟨l, hlq, by rw [hl]; exact (sortLabels_perm s.1).mem_iff.mpr hls⟩
  · intro x hx l hlq ⟨w, hw, hlw⟩
    obtain ⟨s, hs, hid, hl, hi', -⟩ := hmem x hx
    obtain ⟨s', hs', hp⟩ := numbered_has (ls := w.1) ⟨w, hw, List.Perm.refl _⟩
    rw [hl]
    exact (sortLabels_perm s.1).mem_iff.mpr ((hlab m hm.2 hok s hs hi').2 l hlq ⟨s', hs', hp.mem_iff.mpr hlw⟩)
  · intro ls hall' hne hq0
    have hpn : pointsFor (insideOnly lo hi before) ls ≠ [] := by intro e; rw [e] at hne; exact hne rfl
    obtain ⟨s, hs, hp⟩ := numbered_has (pointsFor_ne_nil.mp hpn)
    have hok1 : LogOk lo hi m1.started := hok.prefix (hm2.2.trans hm.2)
    have hi' : s.2 ∈ intersectAll (os.filterMap id) := by
      refine ((intersectAll_spec _ (hsa hok1)).2 s.2).mpr ⟨?_, ?_⟩
      · obtain ⟨l, hl⟩ := List.exists_mem_of_ne_nil _ hq0
        obtain ⟨t, ht, -⟩ := hkn l hl ⟨s, hs, hp.mem_iff.mpr (hall' l hl)⟩
        exact List.ne_nil_of_mem ht
      · intro t ht
        obtain ⟨l, hl, g, h1, -, e⟩ := hts t ht
        rw [e]
        exact mem_idsWith.mpr ⟨s, numbered_pre (insideOnly_prefix h1) hs, hp.mem_iff.mpr (hall' l hl), rfl⟩
    have hc := hall (hok.prefix hm.2) s hs hi'
    obtain ⟨d, hz, -, g, h1, h2, s', hs', hid, hd⟩ := forall₂_mem_left hds hc
    have hss : s = s' := id_unique hinc (numbered_pre (insideOnly_prefix ((h1.trans h2).trans hpre)) hs)
      (numbered_pre (insideOnly_prefix (h2.trans hpre)) hs') hid.symm
    subst hss
    have hdne : d ≠ [] := by
      intro e
      rw [e] at hd
      have h6 := (inRange_pre (pointsFor_pre (insideOnly_prefix (lo := lo) (hi := hi) h1) s.1) a b).sublist
      rw [← hd, pointsFor_labels_perm _ hp] at h6
      exact hne (List.sublist_nil.mp h6)
    refine ⟨⟨s.2, sortLabels s.1, d⟩, List.mem_filterMap.mpr ⟨((s.2, sortLabels s.1), d), hz, ?_⟩, (sortLabels_perm s.1).trans hp⟩
    simp only
    rw [if_neg (by intro e; exact hdne (List.length_eq_zero_iff.mp e))]
  · -- ids increase
    have hids : (((cands.zip ds).filterMap (fun y => if y.2.length = 0 then none else some (⟨y.1.1, y.1.2, y.2⟩ : Series))).map (·.id)).Pairwise
        (fun i j => i.toNat < j.toNat) := by
      have hsub : ((cands.zip ds).filterMap (fun y => if y.2.length = 0 then none else some (⟨y.1.1, y.1.2, y.2⟩ : Series))).map (·.id) <+
          cands.map (·.1) := by
        clear hmem hds hfst hlab hcand hall hC
        induction cands generalizing ds with
        | nil => simp
        | cons x cands ih =>
          rcases ds with _ | ⟨d, ds⟩
          · simp
          · rw [List.zip_cons_cons, List.filterMap_cons]
            simp only
            split
            · exact (ih ds).cons _
            · rename_i hx
              split at hx
              · cases hx
              · cases hx
                exact (ih ds).cons_cons _
      exact ((intersectAll_spec _ (hsa (hok.prefix (hm2.2.trans hm.2)))).1).sublist (hsub.trans hfst)
    rw [List.pairwise_map] at hids
    refine hids.imp_of_mem ?_
    intro x y hx hy hlt hp
    obtain ⟨s, hs, hid, hl, -⟩ := hmem x hx
    obtain ⟨s', hs', hid', hl', -⟩ := hmem y hy
    have hpp : s.1.Perm s'.1 := ((sortLabels_perm s.1).symm.trans (by rw [← hl, ← hl']; exact hp)).trans (sortLabels_perm s'.1)
    have : s = s' := perm_unique hs hs' hpp
    rw [← hid, ← hid', this] at hlt
    omega

end Verif
