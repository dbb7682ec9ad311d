import Verif.Spec.ServerLife
import Verif.Lemmas.Life
import Verif.Props.Proto
import Verif.Props.ReadBody
namespace Verif
open List

/-- The generations with more points in the current one. -/
def Gens.add (g : Gens) (h : Inserts) : Gens := { g with cur := { g.cur with h := g.cur.h ++ h } }

theorem refused_iff (c : Gen) (s : PSeries) : Refused c s ↔ ∃ p ∈ s.samples.map ofSample, onBoundary c.lo c.hi p := by
  unfold Refused onBoundary
  simp only [List.mem_map]
  constructor
  · rintro ⟨x, hx, h⟩; exact ⟨_, ⟨x, hx, rfl⟩, h⟩
  · rintro ⟨_, ⟨x, hx, rfl⟩, h⟩; exact ⟨x, hx, h⟩

theorem takeUntil_len (c : Gen) (m : List PSeries) : (newPoints c (takeUntilRefused c m)).length ≤ (m.map fun s => s.samples.length).sum := by
  induction m with
  | nil => simp [takeUntilRefused, newPoints]
  | cons s m ih =>
    have hl : ((s.samples.map Sample.point).filter (inside c.lo c.hi)).length ≤ s.samples.length :=
      (List.length_filter_le _ _).trans (by simp)
    unfold newPoints at ih ⊢
    rw [takeUntilRefused]
    by_cases h : Refused c s
    · simp only [if_pos h, List.flatMap_cons, List.flatMap_nil, List.length_append, List.length_map, List.length_nil, List.map_cons, List.sum_cons]; omega
    · simp only [if_neg h, List.flatMap_cons, List.length_append, List.length_map, List.map_cons, List.sum_cons]; omega

theorem newPoints_wf {c : Gen} {m : List PSeries} {K : Labels → Prop} (h : ∀ s ∈ m, K s.labels) : ∀ w ∈ newPoints c (takeUntilRefused c m), K w.1 := by
  induction m with
  | nil => simp [takeUntilRefused, newPoints]
  | cons s m ih =>
    intro w hw
    have ih := ih fun x hx => h x (by simp [hx])
    unfold newPoints at ih hw
    rw [takeUntilRefused] at hw
    have hs : w ∈ ((s.samples.map Sample.point).filter (inside c.lo c.hi)).map (fun p => (s.labels, p)) → K w.1 := by
      intro hw; obtain ⟨p, -, rfl⟩ := List.mem_map.mp hw; exact h s (by simp)
    by_cases hr : Refused c s
    · rw [if_pos hr] at hw
      simp only [List.flatMap_cons, List.flatMap_nil, List.append_nil] at hw
      exact hs hw
    · rw [if_neg hr] at hw
      rw [List.flatMap_cons] at hw
      rcases List.mem_append.mp hw with hw | hw
      · exact hs hw
      · exact ih w hw

theorem serverWrite_live (B : BinSearch) (H : Hash) (m : List PSeries) {db : LiveDb} {g : Gens} (h : LifeRep B db g) (hm : ∀ s ∈ m, WFSet s.labels)
    (hlen : g.cur.h.length + (m.map fun s => s.samples.length).sum < 2 ^ 64 - 1) :
    ∃ db', serverWrite (liveApi B H) db m = (if ∃ s ∈ m, Refused g.cur s then .err .internal else .ok (), db') ∧
      LifeRep B db' (g.add (newPoints g.cur (takeUntilRefused g.cur m))) := by
  induction m generalizing db g with
  | nil => exact ⟨db, by simp [serverWrite], by simpa [takeUntilRefused, newPoints, Gens.add] using h⟩
  | cons s m ih =>
    simp only [List.map_cons, List.sum_cons] at hlen
    have hw := writeTimePoints_rep h.cur (hm s (by simp)) (s.samples.map ofSample) (by simp only [List.length_map]; omega)
    have hst : ∃ db', db.step B [] 0#64 (.write s.labels (s.samples.map ofSample)) = some db' ∧
        LifeRep B db' (g.step 0#64 (.write s.labels (s.samples.map ofSample))) := by
      refine h.step (by simp) (hm s (by simp)) ?_
      simp only [written, List.length_map]; omega
    obtain ⟨db', e1, e2⟩ := hst
    have e3 : { db with cur := (writeTimePoints (sledComp B) db.cur s.labels (s.samples.map ofSample)).2 } = db' := Option.some.inj e1
    have hg : g.step 0#64 (.write s.labels (s.samples.map ofSample)) = g.add (newPoints g.cur [s]) := by
      simp only [Gens.step, Gens.add, newPoints, List.flatMap_cons, List.flatMap_nil, List.append_nil]; rfl
    rw [hg] at e2
    have hstep : (liveApi B H).write db s.labels (s.samples.map ofSample) =
        (if Refused g.cur s then .err .internal else .ok (), db') := by
      refine Prod.ext ?_ e3
      show (writeTimePoints (sledComp B) db.cur s.labels (s.samples.map ofSample)).1 = _
      by_cases hr : Refused g.cur s
      · rw [if_pos hr]; exact hw.2.2 ((refused_iff _ _).mp hr)
      · rw [if_neg hr]
        exact hw.2.1 fun p hp hb => hr ((refused_iff _ _).mpr ⟨p, hp, hb⟩)
    have hstep : (liveApi B H).write db (ofSeries s).1 (ofSeries s).2 = (if Refused g.cur s then .err .internal else .ok (), db') := hstep
    rw [serverWrite, hstep]
    by_cases hr : Refused g.cur s
    · refine ⟨db', ?_, ?_⟩
      · rw [if_pos hr, if_pos ⟨s, by simp, hr⟩]
      · rw [takeUntilRefused, if_pos hr]; exact e2
    · have hn : (newPoints g.cur [s]).length ≤ s.samples.length := by
        have := takeUntil_len g.cur [s]
        rw [takeUntilRefused, if_neg hr, takeUntilRefused] at this
        simpa using this
      obtain ⟨db2, h1, h2⟩ := ih e2 (fun x hx => hm x (by simp [hx])) (by
        show (g.cur.h ++ newPoints g.cur [s]).length + _ < _
        rw [List.length_append]; omega)
      refine ⟨db2, ?_, ?_⟩
      · rw [if_neg hr]
        have : (∃ x ∈ s :: m, Refused g.cur x) ↔ ∃ x ∈ m, Refused g.cur x := by simp [hr]
        simp only [this]
        exact h1
      · rw [takeUntilRefused, if_neg hr]
        have : (g.add (newPoints g.cur [s])).add (newPoints (g.add (newPoints g.cur [s])).cur (takeUntilRefused (g.add (newPoints g.cur [s])).cur m)) =
            g.add (newPoints g.cur (s :: takeUntilRefused g.cur m)) := by
          have e : ∀ m, takeUntilRefused (g.add (newPoints g.cur [s])).cur m = takeUntilRefused g.cur m := by
            intro m
            induction m with
            | nil => rfl
            | cons y m ih =>
              have : Refused (g.add (newPoints g.cur [s])).cur y ↔ Refused g.cur y := Iff.rfl
              rw [takeUntilRefused, takeUntilRefused, ih]
              simp only [this]
          rw [e]
          unfold Gens.add newPoints
          simp [List.append_assoc]
        rw [← this]; exact h2

/-! ### UTF-8 -/

theorem isLabel_utf8 {utf8 : Str → Bool} (h0 : utf8 [] = true) {l : Label} {s : Str} (h : IsLabel utf8 l s) : LabelOk utf8 l := by
  unfold IsLabel at h
  induction h with
  | nil => exact ⟨h0, h0⟩
  | snoc _ hf ih =>
    cases hf with
    | name _ _ hu => exact ⟨hu, ih.2⟩
    | value _ _ hu => exact ⟨ih.1, hu⟩
    | other _ => exact ih

theorem isSeries_utf8 {utf8 : Str → Bool} (h0 : utf8 [] = true) {m : PSeries} {s : Str} (h : IsSeries utf8 m s) : ∀ l ∈ m.labels, LabelOk utf8 l := by
  unfold IsSeries at h
  induction h with
  | nil => simp
  | snoc _ hf ih =>
    cases hf with
    | label _ _ hl =>
      intro x hx
      rcases List.mem_append.mp hx with hx | hx
      · exact ih x hx
      · rw [List.mem_singleton] at hx; subst hx; exact isLabel_utf8 h0 hl
    | sample _ _ _ => exact ih
    | other _ => exact ih

theorem isWrite_utf8 {utf8 : Str → Bool} (h0 : utf8 [] = true) {m : List PSeries} {s : Str} (h : IsWrite utf8 m s) :
    ∀ x ∈ m, ∀ l ∈ x.labels, LabelOk utf8 l := by
  unfold IsWrite at h
  induction h with
  | nil => simp
  | snoc _ hf ih =>
    cases hf with
    | series _ _ hl =>
      intro x hx
      rcases List.mem_append.mp hx with hx | hx
      · exact ih x hx
      · rw [List.mem_singleton] at hx; subst hx; exact isSeries_utf8 h0 hl
    | other _ => exact ih

/-! ### The invariant -/

/-- The machine is as specified. -/
structure HostRep (B : BinSearch) (rt : PbRt) (n : Nat) (h : Host) (s : Site) : Prop where
  up : h.up = s.up
  life : LifeRep B h.db s.g
  wf : ∀ c ∈ s.g.all, ∀ w ∈ c.h, WFSet w.1
  utf8 : ∀ c ∈ s.g.all, ∀ w ∈ c.h, ∀ l ∈ w.1, LabelOk rt.utf8 l
  len : ∀ c ∈ s.g.all, c.h.length ≤ n

theorem fresh_hostRep (B : BinSearch) (rt : PbRt) (size now : U64) : HostRep B rt 0 (Host.fresh size now) (Site.fresh size now) :=
  ⟨rfl, fresh_rep B size now, by simp [Site.fresh, Gens.all, Gens.fresh, Gen.new], by simp [Site.fresh, Gens.all, Gens.fresh, Gen.new],
    by simp [Site.fresh, Gens.all, Gens.fresh, Gen.new]⟩

/-- Any property of the label sets of all generations survives a step. -/
theorem Gens.step_all {size : U64} {g : Gens} {K : Inserts → Prop} (h0 : K []) (h : ∀ c ∈ g.all, K c.h) :
    (∀ r, ∀ c ∈ (g.step size (.tick r)).all, K c.h) ∧ ∀ o k n, ∀ c ∈ (g.step size (.restart o k n)).all, K c.h := by
  constructor
  · intro r c hc
    rcases List.mem_append.mp hc with hc | hc
    · exact h c hc
    · simp only [Gens.step, List.mem_singleton] at hc; subst hc; exact h0
  · intro o k n c hc
    rcases List.mem_append.mp hc with hc | hc
    · obtain ⟨c', hc', rfl⟩ := List.mem_map.mp hc
      exact h c' hc'
    · simp only [Gens.step, List.mem_singleton] at hc; subst hc; exact h0

theorem toSeries_ok {utf8 : Str → Bool} {e : Labels × List TimePoint} (h : ∀ l ∈ e.1, LabelOk utf8 l) : SeriesOk utf8 (toSeries e) := by
  refine ⟨h, ?_⟩
  intro x hx
  obtain ⟨p, -, rfl⟩ := List.mem_map.mp hx
  exact ⟨by have := BitVec.le_toInt p.ts; simpa [toSample, asI64] using this, by have := BitVec.toInt_lt (x := p.ts); simpa [toSample, asI64] using this⟩

/-- A read on the running machine. -/
theorem read_live {B : BinSearch} (H : Hash) {rt : PbRt} {n : Nat} (hn : n + 1 < 2 ^ 64) {h : Host} {s : Site} (hr : HostRep B rt n h s)
    {qs : List PQuery} (hincr : ∀ c ∈ s.g.all, ∀ ls, SIncr (pointsFor c.h ls))
    (hq : ∀ q ∈ qs, (∀ x ∈ q.matchers, WFLabel ⟨x.name, x.value⟩) ∧ (asU64 q.start_).toNat ≤ (asU64 q.end_).toNat ∧
            H.Good fun ls => ∃ c ∈ s.g.all, ∃ w ∈ c.h, sortLabels w.1 = ls) :
    ∃ rs, serverQuery (liveApi B H) h.db qs = .ok rs ∧ Forall₂ (IsResult s.g) qs (rs.map (·.map wireSeries)) ∧ ∀ r ∈ rs, ∀ x ∈ r, SeriesOk rt.utf8 x := by
  unfold serverQuery
  induction qs with
  | nil => exact ⟨[], rfl, .nil, by simp⟩
  | cons q qs ih =>
    obtain ⟨rs, h1, h2, h3⟩ := ih fun x hx => hq x (by simp [hx])
    obtain ⟨q1, q2, q3⟩ := hq q (by simp)
    obtain ⟨r, e1, e2⟩ := hr.life.query H (fun c hc => by have := hr.len c hc; omega) hr.wf hincr (q := q.matchers.map fun x => ⟨x.name, x.value⟩)
      (by intro l hl; obtain ⟨x, hx, rfl⟩ := List.mem_map.mp hl; exact q1 x hx) q2 (by
        rintro k k' ⟨c, hc, x, hx, rfl⟩ ⟨c', hc', x', hx', rfl⟩ ht
        obtain ⟨w, hw, e⟩ := answer_from hx
        obtain ⟨w', hw', e'⟩ := answer_from hx'
        exact q3 _ _ ⟨c, hc, w, hw, e⟩ ⟨c', hc', w', hw', e'⟩ ht)
    have ha : answerQuery (liveApi B H) h.db q = .ok (r.map toSeries) := by
      unfold answerQuery
      show (match h.db.query B H (q.matchers.map fun x => (⟨x.name, x.value⟩ : Label)) (asU64 q.start_) (asU64 q.end_) with
        | .ok r => Res.ok (r.map toSeries) | .err _ => .ok [] | .panic => .panic) = _
      rw [e1]
    refine ⟨r.map toSeries :: rs, by rw [Res.mapM, ha, Res.bind_ok, h1, Res.bind_ok], .cons ⟨r, e2, ?_⟩ h2, ?_⟩
    · simp only []
      rw [List.map_map]
      refine List.map_congr_left fun e _ => ?_
      show wireSeries (toSeries e) = _
      unfold wireSeries toSeries
      simp only [List.map_map]
      rfl
    · intro r' hr' x hx
      rcases List.mem_cons.mp hr' with rfl | hr'
      · obtain ⟨⟨ls, ps⟩, he, rfl⟩ := List.mem_map.mp hx
        refine toSeries_ok ?_
        obtain ⟨hne, -⟩ := (e2.entries ls ps).mp he
        obtain ⟨y, hy⟩ := List.exists_mem_of_ne_nil _ hne
        unfold seriesWith at hy
        obtain ⟨z, hz, hyz⟩ := List.mem_flatMap.mp hy
        obtain ⟨c, hc, rfl⟩ := List.mem_map.mp hz
        rw [List.mem_filter, decide_eq_true_eq] at hyz
        obtain ⟨hya, rfl⟩ := hyz
        obtain ⟨w, hw, e⟩ := answer_from hya
        intro l hl
        have hl : l ∈ y.labels := hl
        rw [← e] at hl
        exact hr.utf8 c hc w hw l ((sortLabels_mem _ _).mp hl)
      · exact h3 r' hr' x hx

/-- One happening. -/
theorem HostRep.step {B : BinSearch} (H : Hash) {rt : PbRt} (sn : Snappy) {P : Paths} (hP : P.read ≠ P.write) {base : Str} (hb : ∀ b ∈ base, isCont b = false)
    {size : U64} {n : Nat} {h : Host} {s : Site} (hr : HostRep B rt n h s) {e : HostEvent} {e' : Happening} (hm : Means sn rt.utf8 P e e')
    (hp : Proper H rt size s e') (hlen : n + sent [e'] < 2 ^ 64 - 1) :
    ∃ x h', h.step B H (pbFormats sn rt) P base size e = (x, h') ∧ Answered sn rt.utf8 s e' x ∧ HostRep B rt (n + sent [e']) h' (s.next size e') := by
  obtain ⟨hu, db⟩ := h
  obtain ⟨su, g⟩ := s
  have hup : hu = su := hr.up
  subst hup
  have more : ∀ k, HostRep B rt (n + k) ⟨hu, db⟩ ⟨hu, g⟩ := fun k => ⟨rfl, hr.life, hr.wf, hr.utf8, fun c hc => by have := hr.len c hc; omega⟩
  cases e with
  | request r =>
    cases e' with
    | call c =>
      cases hu with
      | false => exact ⟨_, _, rfl, rfl, more _⟩
      | true =>
        have hp := hp rfl
        have hm : Says sn rt.utf8 P r c := hm
        obtain ⟨url, rb⟩ := r
        cases c with
        | write m =>
          obtain ⟨hurl, body, bytes, hbody, hd, hw⟩ := hm
          simp only [] at hurl hbody
          subst hurl hbody
          have hs : sent [.call (.write m)] = (m.map fun s => s.samples.length).sum := by simp [sent]
          rw [hs] at hlen ⊢
          have hcl : g.cur.h.length ≤ n := hr.len _ (by simp [Gens.all])
          obtain ⟨db', e1, e2⟩ := serverWrite_live B H m hr.life hp (by simp only []; omega)
          have hpr := C48_status (liveApi B H) (pbFormats sn rt) P hP db body bytes hd
          rw [C59_write sn rt hw, e1] at hpr
          refine ⟨some ⟨if ∃ ser ∈ m, Refused g.cur ser then 500 else 200, []⟩, ⟨true, db'⟩, ?_, rfl, ⟨rfl, e2, ?_, ?_, ?_⟩⟩
          · simp only [Host.step, if_true]
            rw [hpr]
            by_cases hx : ∃ s ∈ m, Refused g.cur s
            · simp only [if_pos hx]
            · simp only [if_neg hx]
          · intro c hc w hw'
            rcases List.mem_append.mp hc with hc | hc
            · exact hr.wf c (List.mem_append_left _ hc) w hw'
            · rw [List.mem_singleton] at hc; subst hc
              rcases List.mem_append.mp hw' with hw' | hw'
              · exact hr.wf g.cur (by simp [Gens.all]) w hw'
              · exact newPoints_wf hp w hw'
          · intro c hc w hw'
            rcases List.mem_append.mp hc with hc | hc
            · exact hr.utf8 c (List.mem_append_left _ hc) w hw'
            · rw [List.mem_singleton] at hc; subst hc
              rcases List.mem_append.mp hw' with hw' | hw'
              · exact hr.utf8 g.cur (by simp [Gens.all]) w hw'
              · exact newPoints_wf (K := fun ls => ∀ l ∈ ls, LabelOk rt.utf8 l) (isWrite_utf8 rt.utf8nil hw) w hw'
          · intro c hc
            rcases List.mem_append.mp hc with hc | hc
            · have := hr.len c (List.mem_append_left _ hc); omega
            · rw [List.mem_singleton] at hc; subst hc
              have := takeUntil_len g.cur m
              show (g.cur.h ++ newPoints g.cur (takeUntilRefused g.cur m)).length ≤ _
              rw [List.length_append]; omega
        | read qs =>
          obtain ⟨hurl, body, bytes, hbody, hd, hw⟩ := hm
          simp only [] at hurl hbody
          subst hurl hbody
          obtain ⟨p1, p2, p3⟩ := hp
          obtain ⟨rs, e1, e2, e3⟩ := read_live H (by omega) hr p2 p3
          have hpr := C47_response (liveApi B H) (pbFormats sn rt) P db body bytes ⟨qs, false⟩ rs hd (C59_read sn rt hw p1) rfl e1
          refine ⟨some ⟨200, sn.compress (encResponse rs)⟩, ⟨true, db⟩, ?_, ?_, more _⟩
          · simp only [Host.step, if_true]
            rw [hpr]
            rfl
          · refine ⟨_, encResponse rs, rfl, sn.undo _, _, e2, fun hl => ?_⟩
            obtain ⟨out, o1, o2⟩ := C60_response_partial sn rt rs e3 hl
            have : out = encResponse rs := by
              have : sn.decompress (sn.compress (encResponse rs)) = some out := o1
              rw [sn.undo] at this
              exact (Option.some.inj this).symm
            rw [← this]
            exact o2
        | badRead =>
          obtain ⟨hurl, body, bytes, hbody, hd, hw⟩ := hm
          simp only [] at hurl hbody
          subst hurl hbody
          have hpr := C71_refused_partial (liveApi B H) sn rt hp P db body bytes hd hw
          refine ⟨some ⟨500, []⟩, ⟨true, db⟩, ?_, rfl, more _⟩
          simp only [Host.step, if_true]
          rw [hpr]
        | other =>
          obtain ⟨h1, h2, body, bytes, hbody, hd⟩ := hm
          simp only [] at h1 h2 hbody
          subst hbody
          have hd' : (pbFormats sn rt).decompress body = some bytes := hd
          refine ⟨some ⟨404, []⟩, ⟨true, db⟩, ?_, rfl, more _⟩
          simp [Host.step, process, hd', h1, h2]
        | garbage =>
          refine ⟨none, ⟨false, db⟩, ?_, rfl, ⟨rfl, hr.life, hr.wf, hr.utf8, fun c hc => by have := hr.len c hc; omega⟩⟩
          have hpr : process (liveApi B H) (pbFormats sn rt) P db ⟨url, rb⟩ = (none, db) := by
            unfold process
            cases rb with
            | none => rfl
            | some body =>
              have : (pbFormats sn rt).decompress body = none := hm body rfl
              simp only [this]
          simp only [Host.step, if_true]
          rw [hpr]
    | tick => exact hm.elim
    | restart => exact hm.elim
  | tick r =>
    cases e' with
    | call => exact hm.elim
    | restart => exact hm.elim
    | tick r' =>
      obtain rfl : r = r' := hm
      cases hu with
      | false => exact ⟨_, _, rfl, rfl, more _⟩
      | true =>
        obtain ⟨db', e1, e2⟩ := hr.life.step hb (hp rfl) (by
          have := hr.len g.cur (by simp [Gens.all])
          simp only [written]; simp only [sent] at hlen; omega)
        refine ⟨none, ⟨true, db'⟩, ?_, rfl, ⟨rfl, e2, (Gens.step_all (K := fun h => ∀ w ∈ h, WFSet w.1) (by simp) hr.wf).1 r,
          (Gens.step_all (K := fun h => ∀ w ∈ h, ∀ l ∈ w.1, LabelOk rt.utf8 l) (by simp) hr.utf8).1 r,
          (Gens.step_all (K := fun h => h.length ≤ n + 0) (by simp) hr.len).1 r⟩⟩
        simp only [Host.step, if_true]
        rw [e1]
  | restart o k nw =>
    cases e' with
    | call => exact hm.elim
    | tick => exact hm.elim
    | restart o' k' nw' =>
      obtain ⟨rfl, rfl, rfl⟩ := hm
      have hp : GoodEvent size g (.restart o k nw) := hp
      obtain ⟨db', e1, e2⟩ := hr.life.step hb hp (by
        have := hr.len g.cur (by simp [Gens.all])
        simp only [written]; simp only [sent] at hlen; omega)
      refine ⟨none, ⟨true, db'⟩, ?_, rfl, ⟨rfl, e2, (Gens.step_all (K := fun h => ∀ w ∈ h, WFSet w.1) (by simp) hr.wf).2 o k nw,
        (Gens.step_all (K := fun h => ∀ w ∈ h, ∀ l ∈ w.1, LabelOk rt.utf8 l) (by simp) hr.utf8).2 o k nw,
        (Gens.step_all (K := fun h => h.length ≤ n + 0) (by simp) hr.len).2 o k nw⟩⟩
      simp only [Host.step]
      rw [e1]

theorem sent_cons (e : Happening) (es : List Happening) : sent (e :: es) = sent [e] + sent es := by
  rcases e with (_ | _ | _ | _ | _) | _ | _ <;> simp [sent]

/-- A history. -/
theorem HostRep.run {B : BinSearch} (H : Hash) {rt : PbRt} (sn : Snappy) {P : Paths} (hP : P.read ≠ P.write) {base : Str} (hb : ∀ b ∈ base, isCont b = false)
    {size : U64} {es : List HostEvent} {hs : List Happening} (hm : Forall₂ (Means sn rt.utf8 P) es hs) {n : Nat} {h : Host} {s : Site}
    (hr : HostRep B rt n h s) (hp : ProperAll H rt size s hs) (hlen : n + sent hs < 2 ^ 64 - 1) :
    ∃ xs h', h.run B H (pbFormats sn rt) P base size es = (xs, h') ∧ xs.length = hs.length ∧
      (∀ (i : Nat) (hi : i < hs.length) (hx : i < xs.length), Answered sn rt.utf8 (s.after size (hs.take i)) hs[i] xs[i]) ∧
      HostRep B rt (n + sent hs) h' (s.after size hs) := by
  induction hm generalizing n h s with
  | nil => exact ⟨[], h, rfl, rfl, by simp, hr⟩
  | @cons e e' es hs h1 _ ih =>
    rw [sent_cons] at hlen ⊢
    obtain ⟨x, h', e1, e2, e3⟩ := hr.step H sn hP hb h1 hp.1 (by omega)
    obtain ⟨xs, h'', i1, i2, i3, i4⟩ := ih e3 hp.2 (by omega)
    refine ⟨x :: xs, h'', by simp [Host.run, e1, i1], by simp [i2], ?_, by rw [← Nat.add_assoc]; exact i4⟩
    intro i hi hx
    cases i with
    | zero => exact e2
    | succ i => exact i3 i (by simpa using hi) (by simpa using hx)

end Verif

namespace Verif
open List

/-! ### Facts about the specification -/

theorem ProperAll.take {H : Hash} {rt : PbRt} {size : U64} {hs : List Happening} {s : Site} (h : ProperAll H rt size s hs) (n : Nat) :
    ProperAll H rt size s (hs.take n) := by
  induction hs generalizing s n with
  | nil => simpa using h
  | cons e es ih =>
    cases n with
    | zero => exact True.intro
    | succ n => exact ⟨h.1, ih h.2 n⟩

/-- How a chunk of the next state comes about. -/
theorem Site.next_chunk {size : U64} {s : Site} {e : Happening} {c : Gen} (hc : c ∈ (s.next size e).g.all) :
    (∃ c0 ∈ s.g.all, c.lo = c0.lo ∧ c.hi = c0.hi ∧ ∀ w ∈ c.h, w ∈ c0.h ∨
      (∃ m, e = .call (.write m) ∧ s.up = true ∧ c0 = s.g.cur ∧ w ∈ newPoints s.g.cur (takeUntilRefused s.g.cur m))) ∨ c.h = [] := by
  cases e with
  | call k =>
    have same : c ∈ s.g.all → (∃ c0 ∈ s.g.all, c.lo = c0.lo ∧ c.hi = c0.hi ∧ ∀ w ∈ c.h, w ∈ c0.h ∨
      (∃ m, Happening.call k = .call (.write m) ∧ s.up = true ∧ c0 = s.g.cur ∧ w ∈ newPoints s.g.cur (takeUntilRefused s.g.cur m))) ∨ c.h = [] :=
      fun h => Or.inl ⟨c, h, rfl, rfl, fun w hw => Or.inl hw⟩
    by_cases hu : s.up = true
    · cases k with
      | write m =>
        simp only [Site.next, if_pos hu] at hc
        rcases List.mem_append.mp hc with hc | hc
        · exact same (List.mem_append_left _ hc)
        · rw [List.mem_singleton] at hc; subst hc
          refine Or.inl ⟨s.g.cur, by simp [Gens.all], rfl, rfl, fun w hw => ?_⟩
          rcases List.mem_append.mp hw with hw | hw
          · exact Or.inl hw
          · exact Or.inr ⟨m, rfl, hu, rfl, hw⟩
      | garbage => simp only [Site.next, if_pos hu] at hc; exact same hc
      | read qs => simp only [Site.next, if_pos hu] at hc; exact same hc
      | badRead => simp only [Site.next, if_pos hu] at hc; exact same hc
      | other => simp only [Site.next, if_pos hu] at hc; exact same hc
    · simp only [Site.next, if_neg hu] at hc; exact same hc
  | tick r =>
    by_cases hu : s.up = true
    · simp only [Site.next, if_pos hu] at hc
      rcases List.mem_append.mp hc with hc | hc
      · exact Or.inl ⟨c, hc, rfl, rfl, fun w hw => Or.inl hw⟩
      · simp only [Gens.step, List.mem_singleton] at hc; subst hc; exact Or.inr rfl
    · simp only [Site.next, if_neg hu] at hc
      exact Or.inl ⟨c, hc, rfl, rfl, fun w hw => Or.inl hw⟩
  | restart o k n =>
    simp only [Site.next] at hc
    rcases List.mem_append.mp hc with hc | hc
    · obtain ⟨c', hc', rfl⟩ := List.mem_map.mp hc
      exact Or.inl ⟨c', hc', rfl, rfl, fun w hw => Or.inl hw⟩
    · simp only [Gens.step, List.mem_singleton] at hc; subst hc; exact Or.inr rfl

theorem takeUntil_mem {c : Gen} {m : List PSeries} {s : PSeries} (h : s ∈ takeUntilRefused c m) : s ∈ m := by
  induction m with
  | nil => simp [takeUntilRefused] at h
  | cons x m ih =>
    rw [takeUntilRefused] at h
    split at h
    · simp only [List.mem_singleton] at h; subst h; simp
    · rcases List.mem_cons.mp h with rfl | h
      · simp
      · simp [ih h]

theorem newPoints_mem {c : Gen} {m : List PSeries} {w : Labels × TimePoint} :
    w ∈ newPoints c m ↔ ∃ s ∈ m, ∃ x ∈ s.samples, w = (s.labels, x.point) ∧ inside c.lo c.hi x.point = true := by
  unfold newPoints
  simp only [List.mem_flatMap, List.mem_map, List.mem_filter]
  constructor
  · rintro ⟨s, hs, p, ⟨⟨x, hx, rfl⟩, hi⟩, rfl⟩; exact ⟨s, hs, x, hx, rfl, hi⟩
  · rintro ⟨s, hs, x, hx, rfl, hi⟩; exact ⟨s, hs, _, ⟨⟨x, hx, rfl⟩, hi⟩, rfl⟩

theorem takeUntil_all {c : Gen} {m : List PSeries} (h : ∀ s ∈ m, ¬ Refused c s) : takeUntilRefused c m = m := by
  induction m with
  | nil => rfl
  | cons s m ih => rw [takeUntilRefused, if_neg (h s (by simp)), ih fun x hx => h x (by simp [hx])]

/-- Stored points have well-formed labels and lie in the window of their chunk. -/
theorem Site.after_sound {H : Hash} {rt : PbRt} {size : U64} {hs : List Happening} {s : Site} (hp : ProperAll H rt size s hs)
    (h : ∀ c ∈ s.g.all, ∀ w ∈ c.h, WFSet w.1 ∧ inside c.lo c.hi w.2 = true) :
    ∀ c ∈ (s.after size hs).g.all, ∀ w ∈ c.h, WFSet w.1 ∧ inside c.lo c.hi w.2 = true := by
  induction hs generalizing s with
  | nil => exact h
  | cons e es ih =>
    refine ih hp.2 fun c hc w hw => ?_
    rcases Site.next_chunk hc with ⟨c0, hc0, e1, e2, h3⟩ | h0
    · rw [e1, e2]
      rcases h3 w hw with h4 | ⟨m, rfl, hu, rfl, h4⟩
      · exact h c0 hc0 w h4
      · obtain ⟨x, hx, y, -, rfl, hi⟩ := newPoints_mem.mp h4
        exact ⟨hp.1 hu x (takeUntil_mem hx), hi⟩
    · rw [h0] at hw; simp at hw

/-- Everything stored was sent. -/
theorem Site.after_from {size : U64} {hs : List Happening} {s : Site} {c : Gen} (hc : c ∈ (s.after size hs).g.all) {w : Labels × TimePoint} (hw : w ∈ c.h) :
    (∃ c0 ∈ s.g.all, w ∈ c0.h) ∨ ∃ (i : Nat) (m : List PSeries), hs[i]? = some (.call (.write m)) ∧ ∃ ser ∈ m, ∃ x ∈ ser.samples, w = (ser.labels, x.point) := by
  induction hs generalizing s with
  | nil => exact Or.inl ⟨c, hc, hw⟩
  | cons e es ih =>
    rcases ih hc with ⟨c1, hc1, hw1⟩ | ⟨i, m, h1, h2⟩
    · rcases Site.next_chunk hc1 with ⟨c0, hc0, -, -, h3⟩ | h0
      · rcases h3 w hw1 with h4 | ⟨m, rfl, hu, rfl, h4⟩
        · exact Or.inl ⟨c0, hc0, h4⟩
        · obtain ⟨x, hx, y, hy, rfl, hi⟩ := newPoints_mem.mp h4
          exact Or.inr ⟨0, m, rfl, x, takeUntil_mem hx, y, hy, rfl⟩
      · rw [h0] at hw1; simp at hw1
    · exact Or.inr ⟨i + 1, m, h1, h2⟩

/-- Nothing stored is lost. -/
theorem Site.next_keeps {size : U64} {s : Site} (e : Happening) {w : Labels × TimePoint} (h : ∃ c ∈ s.g.all, w ∈ c.h) :
    ∃ c ∈ (s.next size e).g.all, w ∈ c.h := by
  obtain ⟨c, hc, hw⟩ := h
  cases e with
  | call k =>
    by_cases hu : s.up = true
    · cases k with
      | write m =>
        simp only [Site.next, if_pos hu]
        rcases List.mem_append.mp hc with hc | hc
        · exact ⟨c, List.mem_append_left _ hc, hw⟩
        · rw [List.mem_singleton] at hc; subst hc
          exact ⟨_, List.mem_append_right _ (List.mem_singleton_self _), List.mem_append_left _ hw⟩
      | garbage => simp only [Site.next, if_pos hu]; exact ⟨c, hc, hw⟩
      | read qs => simp only [Site.next, if_pos hu]; exact ⟨c, hc, hw⟩
      | badRead => simp only [Site.next, if_pos hu]; exact ⟨c, hc, hw⟩
      | other => simp only [Site.next, if_pos hu]; exact ⟨c, hc, hw⟩
    · simp only [Site.next, if_neg hu]; exact ⟨c, hc, hw⟩
  | tick r =>
    by_cases hu : s.up = true
    · simp only [Site.next, if_pos hu]
      exact ⟨c, List.mem_append_left _ hc, hw⟩
    · simp only [Site.next, if_neg hu]; exact ⟨c, hc, hw⟩
  | restart o k n =>
    exact ⟨c.reopened (k c.name), List.mem_append_left _ (List.mem_map_of_mem (f := fun c : Gen => c.reopened (k c.name)) hc), hw⟩

theorem Site.after_keeps {size : U64} {hs : List Happening} {s : Site} {w : Labels × TimePoint} (h : ∃ c ∈ s.g.all, w ∈ c.h) :
    ∃ c ∈ (s.after size hs).g.all, w ∈ c.h := by
  induction hs generalizing s with
  | nil => exact h
  | cons e es ih => exact ih (Site.next_keeps e h)

theorem Site.after_append (size : U64) (s : Site) (hs hs' : List Happening) : s.after size (hs ++ hs') = (s.after size hs).after size hs' := by
  unfold Site.after; rw [List.foldl_append]

/-- What a chunk reports for a range from the beginning of time that covers everything stored. -/
theorem answer_finds {c : Gen} {ls : Labels} {p : TimePoint} (hw : (ls, p) ∈ c.h) (hs : ∀ w ∈ c.h, WFSet w.1 ∧ inside c.lo c.hi w.2 = true)
    {q : Labels} (hq : q ≠ []) (hsub : ∀ l ∈ q, l ∈ ls) {b : U64} (hb : ∀ w ∈ c.h, w.2.ts.toNat ≤ b.toNat) :
    ∃ y ∈ c.answer q 0#64 b, y.labels = sortLabels ls ∧ p ∈ y.points := by
  obtain ⟨ls', hls', hperm⟩ := labelSets_complete hw
  rw [← number_fst (labelSets c.h)] at hls'
  obtain ⟨⟨ls'', id⟩, hn, rfl⟩ := List.mem_map.mp hls'
  change (ls'', id) ∈ numbered c.h at hn
  change ls''.Perm ls at hperm
  have hov : overlaps c.lo c.shown 0#64 b = true := by
    have h1 := (hs _ hw).2
    have h2 := hb _ hw
    simp only [inside, Bool.and_eq_true, decide_eq_true_eq] at h1 h2
    unfold overlaps
    simp; omega
  have hkn : knownLabels (numbered c.h) q = q := by
    unfold knownLabels
    rw [List.filter_eq_self]
    intro l hl
    rw [List.any_eq_true]
    exact ⟨_, hn, by simpa using hperm.mem_iff.mpr (hsub l hl)⟩
  have hout : (matched sledAccepts c.h q).find? (outside 0#64 b) = none := by
    rw [List.find?_eq_none]
    intro s hm ho
    unfold matched at hm
    rw [hkn, if_neg hq] at hm
    obtain ⟨⟨l1, i1⟩, h1, rfl⟩ := List.mem_map.mp hm
    obtain ⟨w1, hw1, e1⟩ := labelSets_mem (number_mem (List.mem_filter.mp h1).1)
    simp only [keepBy_sled] at ho
    change w1.1 = l1 at e1
    subst e1
    have hmem : w1.2 ∈ pointsFor c.h w1.1 := by
      unfold pointsFor
      exact List.mem_map.mpr ⟨w1, List.mem_filter.mpr ⟨hw1, by simp⟩, rfl⟩
    unfold outside at ho
    simp only [] at ho
    rcases hf : (pointsFor c.h w1.1).head? with _ | f
    · rw [List.head?_eq_none_iff] at hf; rw [hf] at hmem; simp at hmem
    · rcases hl : (pointsFor c.h w1.1).getLast? with _ | l
      · rw [List.getLast?_eq_none_iff] at hl; rw [hl] at hmem; simp at hmem
      · rw [hf, hl] at ho
        have hfm := List.mem_of_mem_head? hf
        unfold pointsFor at hfm
        obtain ⟨w2, hw2, rfl⟩ := List.mem_map.mp hfm
        have := hb w2 (List.mem_filter.mp hw2).1
        simp at ho
        omega
  have hp : p ∈ inRange (pointsFor c.h ls'') 0#64 b := by
    unfold inRange pointsFor
    refine List.mem_filter.mpr ⟨List.mem_map.mpr ⟨(ls, p), List.mem_filter.mpr ⟨hw, by simpa using hperm.symm⟩, rfl⟩, ?_⟩
    have := hb _ hw
    simpa using this
  refine ⟨⟨id, sortLabels ls'', inRange (pointsFor c.h ls'') 0#64 b⟩, ?_, (sortLabels_perm_eq (hs _ hw).1.distinct hperm.symm).symm, hp⟩
  show _ ∈ Desc.answer sledAccepts ⟨c.lo, c.shown, c.h⟩ q 0#64 b
  unfold Desc.answer
  rw [if_pos hov]
  unfold specQuery
  rw [hout]
  simp only [okSeries, restrict]
  refine List.mem_filter.mpr ⟨List.mem_map.mpr ⟨⟨id, sortLabels ls'', pointsFor c.h ls''⟩, ?_, rfl⟩, by simpa using List.ne_nil_of_mem hp⟩
  unfold matched
  rw [hkn, if_neg hq]
  refine List.mem_map.mpr ⟨(ls'', id), List.mem_filter.mpr ⟨hn, ?_⟩, by rw [keepBy_sled]⟩
  rw [List.all_eq_true]
  intro l hl
  simpa using hperm.mem_iff.mpr (hsub l hl)

/-- What a chunk reports it holds. -/
theorem answer_held {c : Gen} (hs : ∀ w ∈ c.h, WFSet w.1 ∧ inside c.lo c.hi w.2 = true) {q : Labels} {a b : U64} {y : Series} (hy : y ∈ c.answer q a b)
    {p : TimePoint} (hp : p ∈ y.points) : ∃ w ∈ c.h, w.2 = p ∧ sortLabels w.1 = y.labels ∧ a.toNat ≤ p.ts.toNat ∧ p.ts.toNat ≤ b.toNat := by
  change y ∈ Desc.answer sledAccepts ⟨c.lo, c.shown, c.h⟩ q a b at hy
  unfold Desc.answer at hy
  split at hy
  · unfold specQuery at hy
    split at hy
    · simp [okSeries] at hy
    · simp only [okSeries, restrict] at hy
      obtain ⟨x, hx, rfl⟩ := List.mem_map.mp (List.mem_filter.mp hy).1
      unfold matched at hx
      split at hx
      · simp at hx
      · obtain ⟨z, hz, rfl⟩ := List.mem_map.mp hx
        simp only [keepBy_sled] at hp
        obtain ⟨h1, h2⟩ := List.mem_filter.mp hp
        unfold pointsFor at h1
        obtain ⟨w, hw, rfl⟩ := List.mem_map.mp h1
        obtain ⟨hw, hperm⟩ := List.mem_filter.mp hw
        simp only [Bool.and_eq_true, decide_eq_true_eq] at h2 hperm
        exact ⟨w, hw, rfl, sortLabels_perm_eq (hs w hw).1.distinct hperm, h2⟩
  · simp at hy

end Verif
