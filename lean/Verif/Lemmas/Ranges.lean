import Verif.Spec.Ranges
import Verif.Lemmas.Clock
import Verif.Lemmas.Unordered
namespace Verif
open List

/-! ### Reading one series, any range -/

theorem trips_not_outside {a b : U64} {s : Series} (h : s.trips a b = true) : outside a b s = false := by
  unfold Series.trips at h
  unfold outside
  rcases hf : s.points.head? with _ | f
  · rw [hf] at h; simp at h
  rcases hl : s.points.getLast? with _ | l
  · rw [hf, hl] at h; simp at h
  rw [hf, hl] at h
  simp only [Bool.and_eq_true, decide_eq_true_eq] at h
  simp only [Bool.or_eq_false_iff, decide_eq_false_iff_not]
  omega

theorem readSeries_any {B : BinSearch} {s : Series} (hs : SIncr s.points) (hne : s.points ≠ []) (a b : U64) :
    readSeries B s.points a b = if s.trips a b then .panic else if outside a b s then .err (spanError s) else .ok (inRange s.points a b) := by
  rcases hf : s.points.head? with _ | f
  · rw [List.head?_eq_none_iff] at hf; exact absurd hf hne
  rcases hl : s.points.getLast? with _ | l
  · rw [List.getLast?_eq_none_iff] at hl; exact absurd hl hne
  have hp : s.trips a b = true ↔ readSeries B s.points a b = .panic := by
    rw [readSeries_panic_iff hs hf hl]
    unfold Series.trips
    rw [hf, hl]
    simp only [Bool.and_eq_true, decide_eq_true_eq, List.any_eq_true]
    constructor
    · rintro ⟨⟨h1, h2⟩, h3⟩; exact ⟨h1, h2, h3⟩
    · rintro ⟨h1, h2, h3⟩; exact ⟨⟨h1, h2⟩, h3⟩
  by_cases ht : s.trips a b = true
  · rw [if_pos ht]; exact hp.mp ht
  · rw [if_neg ht]
    have hnp : readSeries B s.points a b ≠ .panic := fun h => ht (hp.mpr h)
    rw [readSeries_eq hs hf hl] at hnp ⊢
    by_cases ho : f.ts.toNat > b.toNat ∨ l.ts.toNat < a.toNat
    · rw [if_pos ho]
      have : outside a b s = true := by unfold outside; rw [hf, hl]; simpa using ho
      rw [if_pos this]
      unfold spanError; rw [hf, hl]
    · rw [if_neg ho] at hnp ⊢
      have : ¬ outside a b s = true := by unfold outside; rw [hf, hl]; simpa using ho
      rw [if_neg this]
      by_cases hc : cntLt s.points a ≤ cntLe s.points b
      · rw [if_pos hc]
        by_cases hab : a.toNat ≤ b.toNat
        · rw [slice_eq hs hab]
        · have h1 : inRange s.points a b = [] := by
            unfold inRange
            rw [List.filter_eq_nil_iff]
            intro p _
            simp; omega
          have h2 : cntLe s.points b ≤ cntLt s.points a := by
            unfold cntLe cntLt
            refine List.countP_mono_left ?_
            intro p _ hp
            simp only [decide_eq_true_eq] at hp ⊢
            omega
          rw [h1, List.drop_eq_nil_of_le (by rw [List.length_take]; omega)]
      · rw [if_neg hc] at hnp; exact absurd rfl hnp

/-- Reading the matching series of a chunk. -/
theorem queryBy_any {B : BinSearch} {a b : U64} (l : List Series) (hs : ∀ x ∈ l, SIncr x.points ∧ x.points ≠ []) :
    queryBy B a b l = if tripsOn a b l = true then .panic else specQuery a b l := by
  induction l with
  | nil => rfl
  | cons x l ih =>
    have ih := ih fun y hy => hs y (by simp [hy])
    obtain ⟨h1, h2⟩ := hs x (by simp)
    have hto : tripsOn a b (x :: l) = if outside a b x || x.trips a b then x.trips a b else tripsOn a b l := by
      unfold tripsOn; rw [List.find?_cons]
      cases outside a b x || x.trips a b <;> simp
    rw [queryBy, readSeries_any h1 h2, hto]
    by_cases ht : x.trips a b = true
    · simp [ht, Res.bind]
    · by_cases ho : outside a b x = true
      · have : specQuery a b (x :: l) = .err (spanError x) := by unfold specQuery; rw [List.find?_cons, ho]
        rw [this]
        simp [ht, ho, Res.bind]
      · have hn : ¬ (outside a b x || x.trips a b) = true := by simp [ht, ho]
        rw [if_neg ht, if_neg ho, Res.bind_ok, ih]
        simp only [if_neg hn]
        by_cases hc : tripsOn a b l = true
        · rw [if_pos hc, if_pos hc]; rfl
        · rw [if_neg hc, if_neg hc]
          unfold specQuery
          rw [List.find?_cons, Bool.eq_false_iff.mpr ho]
          simp only []
          rcases l.find? (outside a b) with _ | y
          · simp only [Res.bind_ok, restrict, List.map_cons, List.filter_cons]
            by_cases h0 : inRange x.points a b = []
            · simp [h0]
            · have : ¬ (inRange x.points a b).length = 0 := by simpa using h0
              rw [if_neg this]
              simp [h0]
          · simp only [Res.bind_err]

/-! ### Chunks and databases -/

theorem matched_incr {h : Inserts} (hincr : ∀ ls, SIncr (pointsFor h ls)) {q : Labels} {x : Series} (hx : x ∈ matched sledAccepts h q) : SIncr x.points := by
  unfold matched at hx
  split at hx
  · simp at hx
  · obtain ⟨s, hs, rfl⟩ := List.mem_map.mp hx
    simp only [keepBy_sled]
    exact hincr _

theorem shows_ranged {B : BinSearch} {c : Chunk SledStores} {g : Gen} (h : Shows B c g) (hlen : g.h.length + 1 < 2 ^ 64) (hwf : ∀ w ∈ g.h, WFSet w.1)
    (hincr : ∀ ls, SIncr (pointsFor g.h ls)) {q : Labels} (hq : ∀ l ∈ q, WFLabel l) (a b : U64) :
    ((c.view (sledComp B)).within a b = true ∧ (c.view (sledComp B)).query q a b = .panic ↔ g.trips q a b = true) ∧
    ((c.view (sledComp B)).query q a b = .panic ↔ g.trips q a b = true) ∧
    okSeries ((c.view (sledComp B)).query q a b) = (if g.trips q a b then [] else g.answer q a b) ∧
    (if (c.view (sledComp B)).within a b then okSeries ((c.view (sledComp B)).query q a b) else []) = if g.trips q a b then [] else g.answer q a b := by
  have hll := labelSets_length g.h
  have hqy : c.query (sledComp B) q a b =
      if overlaps g.lo g.shown a b then queryBy B a b (matched sledAccepts g.h q) else .err (.outOfRange g.lo g.shown) := by
    unfold Chunk.query
    rw [Chunk.isWithRange_eq]
    rw [h.ok, h.start_, h.end_]
    simp only [Bool.false_eq_true, if_false]
    by_cases ho : overlaps g.lo g.shown a b
    · simp only [ho, if_true]
      obtain ⟨hids, -⟩ := number_ids (l := labelSets g.h) (by omega)
      rw [← numbered_eq] at hids
      have hwf' : ∀ x ∈ numbered g.h, WFSet x.1 := by
        intro x hx
        obtain ⟨w, hw, e⟩ := labelSets_mem (number_mem hx)
        rw [← e]; exact hwf w hw
      rw [(sledRefines B).metadata h.holds hwf' hids hq, Res.bind_ok]
      have e : specMetadata (numbered g.h) q = (matched sledAccepts g.h q).map fun x => (x.id, x.labels) := by
        unfold specMetadata matched
        by_cases hk : knownLabels (numbered g.h) q = []
        · simp [hk]
        · rw [if_neg hk, if_neg hk, List.map_map]; rfl
      rw [e, readAll_by]
      intro x hx
      have hne := (matched_points hx).1
      unfold matched at hx
      split at hx
      · simp at hx
      · obtain ⟨s, hs, rfl⟩ := List.mem_map.mp hx
        have := seriesOf_mem (acc := sledAccepts) (h := g.h) (by omega) (List.mem_filter.mp hs).1
        simp only [sledComp] at hne ⊢
        rw [sledRead_eq h.holds.2, this, if_neg hne]
    · simp [ho]
  have hw : (c.view (sledComp B)).within a b = overlaps g.lo g.shown a b := by
    show c.isWithRange a b = _
    rw [Chunk.isWithRange_eq, h.start_, h.end_]
  rw [hw]
  change (_ ∧ c.query (sledComp B) q a b = .panic ↔ _) ∧ (c.query (sledComp B) q a b = .panic ↔ _) ∧ okSeries (c.query (sledComp B) q a b) = _ ∧
    (if _ then okSeries (c.query (sledComp B) q a b) else []) = _
  rw [hqy, queryBy_any _ fun x hx => ⟨matched_incr hincr hx, (matched_points hx).1⟩]
  unfold Gen.trips Gen.answer Desc.answer
  simp only []
  by_cases ho : overlaps g.lo g.shown a b
  · simp only [ho, if_true, Bool.true_and, true_and]
    have : specQuery a b (matched sledAccepts g.h q) ≠ .panic := by unfold specQuery; split <;> simp
    cases tripsOn a b (matched sledAccepts g.h q) <;> simp [okSeries, this]
  · simp [ho, okSeries]

/-- The query on the running database, any range. -/
theorem ranged_query {B : BinSearch} (H : Hash) {db : LiveDb} {g : Gens} (hcur : Shows B db.cur g.cur) (hsec : Forall₂ (Shows B) db.secondary g.old)
    (hlen : ∀ c ∈ g.all, c.h.length + 1 < 2 ^ 64) (hwf : ∀ c ∈ g.all, ∀ w ∈ c.h, WFSet w.1) (hincr : ∀ c ∈ g.all, ∀ ls, SIncr (pointsFor c.h ls))
    {q : Labels} (hq : ∀ l ∈ q, WFLabel l) (a b : U64) (hg : H.Good fun ls => ∃ c ∈ g.all, ∃ s ∈ c.answer q a b, s.labels = ls) :
    ((∃ c ∈ g.all, c.trips q a b = true) → db.query B H q a b = .panic) ∧
    ((∀ c ∈ g.all, c.trips q a b = false) → ∃ r, db.query B H q a b = .ok r ∧ IsMerge (g.all.map fun c => c.answer q a b) r) := by
  have hca := shows_ranged hcur (hlen _ (by simp [Gens.all])) (hwf _ (by simp [Gens.all])) (hincr _ (by simp [Gens.all])) hq a b
  have hall : ∀ c x, Shows B c x → x ∈ g.old → _ := fun c x hs hx =>
    shows_ranged hs (hlen _ (by simp [Gens.all, hx])) (hwf _ (by simp [Gens.all, hx])) (hincr _ (by simp [Gens.all, hx])) hq a b
  constructor
  · rintro ⟨x, hx, ht⟩
    unfold LiveDb.query dbQuery
    rcases List.mem_append.mp hx with hx | hx
    · obtain ⟨c, hc, hs⟩ := forall₂_get hsec x hx
      have hp := (hall c x hs hx).1.mpr ht
      cases queryCurrent H (db.cur.view (sledComp B)) q a b with
      | none => rfl
      | some m =>
        simp only []
        have : ∀ (vs : List View) (m : HMap) (v : View), v ∈ vs → v.within a b = true → v.query q a b = .panic → querySecondary H q a b vs m = none := by
          intro vs
          induction vs with
          | nil => intro m v hv; simp at hv
          | cons y vs ih =>
            intro m v hv h1 h2
            rw [querySecondary]
            rcases List.mem_cons.mp hv with rfl | hv
            · rw [if_pos h1, h2]
            · split
              · split
                · split
                  · rfl
                  · exact ih _ v hv h1 h2
                · exact ih _ v hv h1 h2
                · rfl
              · exact ih _ v hv h1 h2
        rw [this _ m (c.view (sledComp B)) (by
          rw [List.mem_reverse]; exact List.mem_map_of_mem hc) hp.1 hp.2]
    · rw [List.mem_singleton] at hx; subst hx
      have hp := hca.2.1.mpr ht
      unfold queryCurrent
      rw [hp]
  · intro hno
    have hnc := hno g.cur (by simp [Gens.all])
    have hu : usedResults (db.cur.view (sledComp B)) (db.secondary.map fun c => c.view (sledComp B)) q a b = g.all.map fun c => c.answer q a b := by
      unfold usedResults Gens.all
      rw [List.map_append, List.map_map]
      congr 1
      · have hs := hsec
        have hno : ∀ c ∈ g.old, c.trips q a b = false := fun c hc => hno c (by simp [Gens.all, hc])
        clear hsec
        revert hall hno
        generalize db.secondary = l at hs
        generalize g.old = m at hs
        intro hall hno
        induction hs with
        | nil => rfl
        | cons h1 _ ih =>
          rw [List.map_cons, List.map_cons, ih (fun c x hs hx => hall c x hs (by simp [hx])) fun c hc => hno c (by simp [hc])]
          congr 1
          have := (hall _ _ h1 (by simp)).2.2.2
          rw [hno _ (by simp)] at this
          exact this
      · rw [List.map_singleton]; congr 1
        have := hca.2.2.1
        rw [hnc] at this
        exact this
    rw [← hu]
    refine dbQuery_merge H _ _ q a b ?_ ?_ hg ?_ ?_
    · intro h; rw [hca.2.1.mp h] at hnc; cases hnc
    · intro v hv _ hpn
      obtain ⟨c, hc, rfl⟩ := List.mem_map.mp hv
      obtain ⟨x, hx, hs⟩ := forall₂_get hsec.flip c hc
      have := hno x (by simp [Gens.all, hx])
      rw [(hall c x hs hx).2.1.mp hpn] at this
      cases this
    · intro v hv s hs
      rcases List.mem_cons.mp hv with rfl | hv
      · rw [hca.2.2.1, hnc] at hs
        exact ⟨g.cur, by simp [Gens.all], s, hs, rfl⟩
      · obtain ⟨c, hc, rfl⟩ := List.mem_map.mp hv
        obtain ⟨x, hx, hsh⟩ := forall₂_get hsec.flip c hc
        rw [(hall c x hsh hx).2.2.1, hno x (by simp [Gens.all, hx])] at hs
        exact ⟨x, by simp [Gens.all, hx], s, hs, rfl⟩
    · intro r hr
      rw [hu, List.mem_map] at hr
      obtain ⟨c, hc, rfl⟩ := hr
      exact answer_nodup _ _ _ _ _

/-! ### The machine -/

/-- A read on the running machine, any ranges. -/
theorem read_ranged {B : BinSearch} (H : Hash) {rt : PbRt} {n : Nat} (hn : n + 1 < 2 ^ 64) {h : Host} {s : Site} (hr : HostLoose B rt n h s)
    {qs : List PQuery} (hincr : ∀ c ∈ s.g.all, ∀ ls, SIncr (pointsFor c.h ls))
    (hq : ∀ q ∈ qs, (∀ x ∈ q.matchers, WFLabel ⟨x.name, x.value⟩) ∧ H.Good fun ls => ∃ c ∈ s.g.all, ∃ w ∈ c.h, sortLabels w.1 = ls) :
    (qs.any (fatal s.g) = true → serverQuery (liveApi B H) h.db qs = .panic) ∧ (qs.any (fatal s.g) = false →
      ∃ rs, serverQuery (liveApi B H) h.db qs = .ok rs ∧ Forall₂ (IsResult s.g) qs (rs.map (·.map wireSeries)) ∧ ∀ r ∈ rs, ∀ x ∈ r, SeriesOk rt.utf8 x) := by
  have one : ∀ q ∈ qs, (fatal s.g q = true → answerQuery (liveApi B H) h.db q = .panic) ∧ (fatal s.g q = false →
      ∃ r, answerQuery (liveApi B H) h.db q = .ok (r.map toSeries) ∧
        IsMerge (s.g.all.map fun c => c.answer (q.matchers.map fun x => ⟨x.name, x.value⟩) (asU64 q.start_) (asU64 q.end_)) r) := by
    intro q hm
    obtain ⟨q1, q3⟩ := hq q hm
    obtain ⟨e1, e2⟩ := ranged_query H (db := h.db) (g := s.g) ⟨hr.life.cur.start_, hr.life.cur.end_.trans hr.life.shown.symm, hr.life.cur.ok, hr.life.cur.rep⟩
      hr.life.secondary (fun c hc => by have := hr.len c hc; omega) hr.wf hincr (q := q.matchers.map fun x => ⟨x.name, x.value⟩)
      (by intro l hl; obtain ⟨x, hx, rfl⟩ := List.mem_map.mp hl; exact q1 x hx) (asU64 q.start_) (asU64 q.end_) (by
        rintro k k' ⟨c, hc, x, hx, rfl⟩ ⟨c', hc', x', hx', rfl⟩ ht
        obtain ⟨w, hw, e⟩ := answer_from hx
        obtain ⟨w', hw', e'⟩ := answer_from hx'
        exact q3 _ _ ⟨c, hc, w, hw, e⟩ ⟨c', hc', w', hw', e'⟩ ht)
    have ha : answerQuery (liveApi B H) h.db q = (match h.db.query B H (q.matchers.map fun x => (⟨x.name, x.value⟩ : Label)) (asU64 q.start_) (asU64 q.end_) with
        | .ok r => Res.ok (r.map toSeries) | .err _ => .ok [] | .panic => .panic) := rfl
    constructor
    · intro hf
      unfold fatal at hf
      rw [List.any_eq_true] at hf
      rw [ha, e1 hf]
    · intro hf
      unfold fatal at hf
      rw [List.any_eq_false] at hf
      obtain ⟨r, e3, e4⟩ := e2 fun c hc => Bool.eq_false_iff.mpr (hf c hc)
      exact ⟨r, by rw [ha, e3], e4⟩
  clear hq
  unfold serverQuery
  induction qs with
  | nil => exact ⟨by simp, fun _ => ⟨[], rfl, .nil, by simp⟩⟩
  | cons q qs ih =>
    obtain ⟨i1, i2⟩ := ih fun x hx => one x (by simp [hx])
    obtain ⟨o1, o2⟩ := one q (by simp)
    rw [List.any_cons, Res.mapM]
    cases hf : fatal s.g q with
    | true => exact ⟨fun _ => by rw [o1 hf]; rfl, fun h => by simp at h⟩
    | false =>
      obtain ⟨r, ha, e2⟩ := o2 hf
      simp only [Bool.false_or]
      refine ⟨fun h => by rw [ha, Res.bind_ok, i1 h]; rfl, fun h => ?_⟩
      obtain ⟨rs, h1, h2, h3⟩ := i2 h
      refine ⟨r.map toSeries :: rs, by rw [ha, Res.bind_ok, h1, Res.bind_ok], .cons ⟨r, e2, ?_⟩ h2, ?_⟩
      · simp only []
        rw [List.map_map]
        refine List.map_congr_left fun e _ => ?_
        show wireSeries (toSeries e) = _
        unfold wireSeries toSeries
        simp only [List.map_map]
        rfl
      · intro r' hr' x hx
        rcases List.mem_cons.mp hr' with rfl | hr'
        · obtain ⟨⟨ls, ps⟩, he, rfl⟩ := List.mem_map.mp hx
          refine toSeries_ok ?_
          obtain ⟨hne, -⟩ := (e2.entries ls ps).mp he
          obtain ⟨y, hy⟩ := List.exists_mem_of_ne_nil _ hne
          unfold seriesWith at hy
          obtain ⟨z, hz, hyz⟩ := List.mem_flatMap.mp hy
          obtain ⟨c, hc, rfl⟩ := List.mem_map.mp hz
          rw [List.mem_filter, decide_eq_true_eq] at hyz
          obtain ⟨hya, rfl⟩ := hyz
          obtain ⟨w, hw, e⟩ := answer_from hya
          intro l hl
          have hl : l ∈ y.labels := hl
          rw [← e] at hl
          exact hr.utf8 c hc w hw l ((sortLabels_mem _ _).mp hl)
        · exact h3 r' hr' x hx

/-- One happening. -/
theorem HostLoose.face {B : BinSearch} (H : Hash) {rt : PbRt} (sn : Snappy) {P : Paths} (hP : P.read ≠ P.write) {base : Str} (hb : ∀ b ∈ base, isCont b = false)
    {size : U64} {n : Nat} {h : Host} {s : Site} (hr : HostLoose B rt n h s) {e : HostEvent} {e' : Happening} (hm : Means sn rt.utf8 P e e')
    (hp : Ranged H rt size s e') (hlen : n + sent [e'] < 2 ^ 64 - 1) :
    ∃ x h', h.step B H (pbFormats sn rt) P base size e = (x, h') ∧ Replied sn rt.utf8 s e' x ∧ HostLoose B rt (n + sent [e']) h' (s.faces size e') := by
  by_cases hread : ∃ qs, e' = .call (.read qs)
  · obtain ⟨qs, rfl⟩ := hread
    obtain ⟨hu, db⟩ := h
    obtain ⟨su, g⟩ := s
    have hup : hu = su := hr.up
    subst hup
    cases e with
    | tick r => exact hm.elim
    | restart o k n => exact hm.elim
    | request r =>
      have hs : sent [.call (.read qs)] = 0 := rfl
      rw [hs] at hlen ⊢
      cases hu with
      | false => exact ⟨none, ⟨false, db⟩, rfl, by simp [Replied, Answered], by simpa [Site.faces] using hr⟩
      | true =>
        obtain ⟨p1, p2, p3⟩ := hp rfl
        obtain ⟨url, rb⟩ := r
        obtain ⟨hurl, body, bytes, hbody, hd, hw⟩ := hm
        simp only [] at hurl hbody
        subst hurl hbody
        obtain ⟨f1, f2⟩ := read_ranged H (by omega) hr p2 p3
        have hd' : (pbFormats sn rt).decompress body = some bytes := hd
        cases hf : qs.any (fatal g) with
        | true =>
          have e1 := f1 hf
          have hpr : process (liveApi B H) (pbFormats sn rt) P db ⟨P.read, some body⟩ = (none, db) := by
            simp only [process, hd', C59_read sn rt hw p1, if_true]
            simp only [] at e1
            rw [e1]
            rfl
          refine ⟨none, ⟨false, db⟩, ?_, by simp [Replied, hf], ?_⟩
          · simp only [Host.step, if_true]
            rw [hpr]
          · simp only [Site.faces, hf, Bool.and_self, if_true]
            exact ⟨rfl, hr.life, hr.wf, hr.utf8, hr.len⟩
        | false =>
          obtain ⟨rs, e1, e2, e3⟩ := f2 hf
          have hpr := C47_response (liveApi B H) (pbFormats sn rt) P db body bytes ⟨qs, false⟩ rs hd (C59_read sn rt hw p1) rfl e1
          refine ⟨some ⟨200, sn.compress (encResponse rs)⟩, ⟨true, db⟩, ?_, ?_, by simpa [Site.faces, hf] using hr⟩
          · simp only [Host.step, if_true]
            rw [hpr]
            rfl
          · simp only [Replied, hf, Bool.and_false, Bool.false_eq_true, if_false]
            refine ⟨_, encResponse rs, rfl, sn.undo _, _, e2, fun hl => ?_⟩
            obtain ⟨out, o1, o2⟩ := C60_response_partial sn rt rs e3 hl
            have : out = encResponse rs := by
              have : sn.decompress (sn.compress (encResponse rs)) = some out := o1
              rw [sn.undo] at this
              exact (Option.some.inj this).symm
            rw [← this]
            exact o2
  · have h1 : Timely H rt size s e' := by
      cases e' with
      | call c => cases c <;> first | exact hp | exact absurd ⟨_, rfl⟩ hread
      | tick r => exact hp
      | restart o k n => exact hp
    obtain ⟨x, h', k1, k2, k3⟩ := hr.step H sn hP hb hm h1 hlen
    refine ⟨x, h', k1, ?_, ?_⟩
    · cases e' with
      | call c => cases c <;> first | exact k2 | exact absurd ⟨_, rfl⟩ hread
      | tick r => exact k2
      | restart o k n => exact k2
    · cases e' with
      | call c => cases c <;> first | exact k3 | exact absurd ⟨_, rfl⟩ hread
      | tick r => exact k3
      | restart o k n => exact k3

/-- A history. -/
theorem HostLoose.faced {B : BinSearch} (H : Hash) {rt : PbRt} (sn : Snappy) {P : Paths} (hP : P.read ≠ P.write) {base : Str} (hb : ∀ b ∈ base, isCont b = false)
    {size : U64} {es : List HostEvent} {hs : List Happening} (hm : Forall₂ (Means sn rt.utf8 P) es hs) {n : Nat} {h : Host} {s : Site}
    (hr : HostLoose B rt n h s) (hp : RangedAll H rt size s hs) (hlen : n + sent hs < 2 ^ 64 - 1) :
    ∃ xs h', h.run B H (pbFormats sn rt) P base size es = (xs, h') ∧ xs.length = hs.length ∧
      (∀ (i : Nat) (hi : i < hs.length) (hx : i < xs.length), Replied sn rt.utf8 (s.faced size (hs.take i)) hs[i] xs[i]) ∧
      HostLoose B rt (n + sent hs) h' (s.faced size hs) := by
  induction hm generalizing n h s with
  | nil => exact ⟨[], h, rfl, rfl, by simp, hr⟩
  | @cons e e' es hs h1 _ ih =>
    rw [sent_cons] at hlen ⊢
    obtain ⟨x, h', e1, e2, e3⟩ := hr.face H sn hP hb h1 hp.1 (by omega)
    obtain ⟨xs, h'', i1, i2, i3, i4⟩ := ih e3 hp.2 (by omega)
    refine ⟨x :: xs, h'', by simp [Host.run, e1, i1], by simp [i2], ?_, by rw [← Nat.add_assoc]; exact i4⟩
    intro i hi hx
    cases i with
    | zero => exact e2
    | succ i => exact i3 i (by simpa using hi) (by simpa using hx)

/-! ### Facts about the specification -/

/-- The chunks are those of C94. -/
theorem Site.faces_g (size : U64) (s : Site) (e : Happening) : (s.faces size e).g = (s.goes size e).g := by
  cases e with
  | call c =>
    cases c with
    | read qs =>
      simp only [Site.faces, Site.goes, Site.next]
      split <;> split <;> rfl
    | write m => rfl
    | garbage => rfl
    | badRead => rfl
    | other => rfl
  | tick r => rfl
  | restart o k n => rfl

theorem RangedAll.take {H : Hash} {rt : PbRt} {size : U64} {hs : List Happening} {s : Site} (h : RangedAll H rt size s hs) (n : Nat) :
    RangedAll H rt size s (hs.take n) := by
  induction hs generalizing s n with
  | nil => simpa using h
  | cons e es ih =>
    cases n with
    | zero => exact True.intro
    | succ n => exact ⟨h.1, ih h.2 n⟩

theorem Site.faced_append (size : U64) (s : Site) (hs hs' : List Happening) : s.faced size (hs ++ hs') = (s.faced size hs).faced size hs' := by
  unfold Site.faced; rw [List.foldl_append]

theorem Site.faced_sound {H : Hash} {rt : PbRt} {size : U64} {hs : List Happening} {s : Site} (hp : RangedAll H rt size s hs)
    (h : ∀ c ∈ s.g.all, ∀ w ∈ c.h, WFSet w.1 ∧ inside c.lo c.hi w.2 = true) :
    ∀ c ∈ (s.faced size hs).g.all, ∀ w ∈ c.h, WFSet w.1 ∧ inside c.lo c.hi w.2 = true := by
  induction hs generalizing s with
  | nil => exact h
  | cons e es ih =>
    refine ih hp.2 fun c hc w hw => ?_
    rw [Site.faces_g] at hc
    rcases Site.next_chunk ((s.goes_perm size e).mem_iff.mp hc) with ⟨c0, hc0, e1, e2, h3⟩ | h0
    · rw [e1, e2]
      rcases h3 w hw with h4 | ⟨m, rfl, hu, rfl, h4⟩
      · exact h c0 hc0 w h4
      · obtain ⟨x, hx, y, -, rfl, hi⟩ := newPoints_mem.mp h4
        have hp1 : Timely H rt size s (.call (.write m)) := hp.1
        exact ⟨hp1 hu x (takeUntil_mem hx), hi⟩
    · rw [h0] at hw; simp at hw

theorem Site.faced_keeps {size : U64} {hs : List Happening} {s : Site} {w : Labels × TimePoint} (h : ∃ c ∈ s.g.all, w ∈ c.h) :
    ∃ c ∈ (s.faced size hs).g.all, w ∈ c.h := by
  induction hs generalizing s with
  | nil => exact h
  | cons e es ih =>
    obtain ⟨c, hc, hw⟩ := Site.next_keeps (size := size) e h
    refine ih ⟨c, ?_, hw⟩
    rw [Site.faces_g]
    exact (s.goes_perm size e).mem_iff.mpr hc

/-- No chunk contributes to an inverted range. -/
theorem answer_inverted (c : Gen) (q : Labels) {a b : U64} (h : b.toNat < a.toNat) : c.answer q a b = [] := by
  unfold Gen.answer Desc.answer
  split
  · unfold specQuery
    split
    · rfl
    · simp only [okSeries, restrict]
      rw [List.filter_eq_nil_iff]
      intro x hx
      obtain ⟨y, -, rfl⟩ := List.mem_map.mp hx
      have : inRange y.points a b = [] := by
        unfold inRange
        rw [List.filter_eq_nil_iff]
        intro p _
        simp; omega
      simp [this]
  · rfl

/-- A range that is not inverted is never fatal. -/
theorem fatal_inverted {g : Gens} {q : PQuery} (h : fatal g q = true) : (asU64 q.end_).toNat < (asU64 q.start_).toNat := by
  unfold fatal Gen.trips tripsOn at h
  rw [List.any_eq_true] at h
  obtain ⟨c, -, hc⟩ := h
  rw [Bool.and_eq_true] at hc
  have hc := hc.2
  split at hc
  · unfold Series.trips at hc
    split at hc
    · simp only [Bool.and_eq_true, decide_eq_true_eq, List.any_eq_true] at hc
      obtain ⟨-, p, -, h1, h2⟩ := hc
      omega
    · cases hc
  · cases hc

end Verif
