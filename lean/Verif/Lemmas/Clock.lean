import Verif.Spec.Clock
import Verif.Lemmas.ServerLife
namespace Verif
open List

theorem byStart_perm (gs : List Gen) : (byStart gs).Perm gs := stableSort_perm _ _

theorem byStart_sorted (gs : List Gen) : (byStart gs).Pairwise fun x y => x.lo.toNat ≤ y.lo.toNat :=
  (stableSort_sorted (le := fun a b : Gen => decide (a.lo.toNat ≤ b.lo.toNat)) (fun a b => by simp; omega) (fun a b c => by simp; omega) gs).imp
    fun h => by simpa using h

/-- Lists sorted by start with the same members are equal if no two start at the same time. -/
theorem byStart_unique {gs gs' : List Gen} (hd : (gs.map (·.lo)).Nodup) (hp : gs'.Perm gs) (h' : gs'.Pairwise fun x y => x.lo.toNat ≤ y.lo.toNat) :
    gs' = byStart gs := by
  refine List.Perm.eq_of_pairwise (le := fun x y : Gen => x.lo.toNat ≤ y.lo.toNat) ?_ h' (byStart_sorted gs) (hp.trans (byStart_perm gs).symm)
  intro x y hx hy h1 h2
  have e : x.lo = y.lo := BitVec.eq_of_toNat_eq (by omega)
  exact List.inj_on_of_nodup_map hd (hp.mem_iff.mp hx) ((byStart_perm gs).mem_iff.mp hy) e

/-- Reopening finds every generation, in order of start, however the directories are listed. -/
theorem readExisting_byStart {B : BinSearch} {base : Str} (hb : ∀ b ∈ base, isCont b = false) {clock : Str → U64} {ss ss' : List Slot} {gs : List Gen}
    (h : Forall₂ (Keeps B) ss gs) (hp : ss'.Perm ss) (hd : (gs.map (·.lo)).Nodup) :
    ∃ cs, readExistingChunks base clock ss' = some cs ∧ Forall₂ (Shows B) cs (byStart (gs.map fun g => g.reopened (clock g.name))) := by
  obtain ⟨gs', h1, h2⟩ := List.perm_comp_forall₂ hp h
  obtain ⟨cs, h3, h4⟩ := readChunks_keeps hb (clock := clock) h1
  have hsp := stableSort_perm (fun a b : Chunk SledStores => decide (a.start_.toNat ≤ b.start_.toNat)) cs
  have hss := stableSort_sorted (le := fun a b : Chunk SledStores => decide (a.start_.toNat ≤ b.start_.toNat))
    (by intro a b; simp; omega) (by intro a b c; simp; omega) cs
  obtain ⟨gs'', h5, h6⟩ := List.perm_comp_forall₂ hsp h4
  refine ⟨_, by unfold readExistingChunks; rw [h3]; rfl, ?_⟩
  have hsorted : gs''.Pairwise fun x y => x.lo.toNat ≤ y.lo.toNat := by
    clear h6 hsp h4
    revert h5 hss
    generalize stableSort _ cs = l
    intro hss h5
    induction h5 with
    | nil => exact .nil
    | cons hd tl ih =>
      rw [List.pairwise_cons] at hss ⊢
      refine ⟨fun y hy => ?_, ih hss.2⟩
      obtain ⟨c, hc, hcy⟩ := forall₂_get tl y hy
      have := hss.1 c hc
      rw [decide_eq_true_eq, hd.start_, hcy.start_] at this
      exact this
  have : gs'' = byStart (gs.map fun g => g.reopened (clock g.name)) := by
    refine byStart_unique ?_ (h6.trans (h2.map _)) hsorted
    rw [List.map_map]; exact hd
  rw [← this]; exact h5

/-- The running database shows these generations; no two start at the same time. -/
structure LooseRep (B : BinSearch) (db : LiveDb) (g : Gens) : Prop where
  cur : ChunkRep (sledRefines B) g.cur.lo g.cur.hi g.cur.h db.cur
  shown : g.cur.shown = g.cur.hi
  secondary : Forall₂ (Shows B) db.secondary g.old
  old : ∃ ss, ss.Perm db.old ∧ Forall₂ (Keeps B) ss g.old
  distinct : (g.all.map (·.lo)).Nodup

theorem LooseRep.slots {B : BinSearch} {db : LiveDb} {g : Gens} (h : LooseRep B db g) : ∃ ss, ss.Perm db.slots ∧ Forall₂ (Keeps B) ss g.all := by
  obtain ⟨ss, h1, h2⟩ := h.old
  refine ⟨ss ++ [⟨encodeChunkDir db.cur.start_ db.cur.end_, .complete, db.cur.store⟩], h1.append_right _, ?_⟩
  refine List.rel_append h2 (.cons ⟨?_, rfl, h.cur.rep⟩ .nil)
  show encodeChunkDir db.cur.start_ db.cur.end_ = _
  rw [h.cur.start_, h.cur.end_]; rfl

theorem LooseRep.tick {B : BinSearch} {base : Str} {size : U64} {db : LiveDb} {g : Gens} (h : LooseRep B db g) {r : U64} (hr : ∀ c ∈ g.all, c.lo ≠ r + 1) :
    ∃ db', db.step B base size (.tick r) = some db' ∧ LooseRep B db' (g.step size (.tick r)) := by
  refine ⟨_, rfl, ?_, rfl, ?_, ?_, ?_⟩
  · exact newSled_rep B _ _
  · refine List.rel_append h.secondary (.cons ?_ .nil)
    have : db.cur.close.2 = { db.cur with closed := true } := by unfold Chunk.close; simp [h.cur.ok]
    rw [this]
    exact ⟨h.cur.start_, h.cur.end_.trans h.shown.symm, h.cur.ok, h.cur.rep⟩
  · exact h.slots
  · show ((g.all ++ [Gen.new (r + 1) size]).map (·.lo)).Nodup
    rw [List.map_append, List.nodup_append]
    refine ⟨h.distinct, by simp, ?_⟩
    intro x hx y hy
    obtain ⟨c, hc, rfl⟩ := List.mem_map.mp hx
    simp only [List.map_cons, List.map_nil, List.mem_singleton] at hy
    subst hy
    exact hr c hc

theorem LooseRep.restart {B : BinSearch} {base : Str} (hb : ∀ b ∈ base, isCont b = false) {size : U64} {db : LiveDb} {g : Gens} (h : LooseRep B db g)
    {order : List Slot → List Slot} {clock : Str → U64} {now : U64} (ho : ∀ l, (order l).Perm l) (hr : ∀ c ∈ g.all, c.lo ≠ now) :
    ∃ db', db.step B base size (.restart order clock now) = some db' ∧
      LooseRep B db' ⟨byStart (g.step size (.restart order clock now)).old, Gen.new now size⟩ := by
  obtain ⟨ss, h1, h2⟩ := h.slots
  obtain ⟨cs, h3, h4⟩ := readExisting_byStart hb (clock := clock) h2 ((ho db.slots).trans h1.symm) h.distinct
  have hk : Forall₂ (Keeps B) ss (g.all.map fun c => c.reopened (clock c.name)) := by
    rw [List.forall₂_map_right_iff]
    exact h2.imp fun s c hsc => ⟨hsc.name, hsc.config, hsc.holds⟩
  refine ⟨⟨order db.slots, Chunk.new noStores now (now + size), cs⟩, by simp [LiveDb.step, h3], ?_, rfl, h4, ?_, ?_⟩
  · exact newSled_rep B _ _
  · obtain ⟨ss', k1, k2⟩ := List.perm_comp_forall₂ (byStart_perm (g.all.map fun c => c.reopened (clock c.name))) hk.flip
    exact ⟨ss', k2.trans (h1.trans (ho db.slots).symm), k1.flip⟩
  · show ((byStart (g.all.map fun c => c.reopened (clock c.name)) ++ [Gen.new now size]).map (·.lo)).Nodup
    rw [List.map_append, List.nodup_append]
    have hp := (byStart_perm (g.all.map fun c => c.reopened (clock c.name))).map (fun c : Gen => c.lo)
    rw [List.map_map] at hp
    refine ⟨hp.nodup_iff.mpr h.distinct, by simp, ?_⟩
    intro x hx y hy
    obtain ⟨c, hc, rfl⟩ := List.mem_map.mp (hp.mem_iff.mp hx)
    simp only [List.map_cons, List.map_nil, List.mem_singleton] at hy
    subst hy
    exact hr c hc

/-- Writes only touch the current chunk. -/
theorem serverWrite_cur (B : BinSearch) (H : Hash) (m : List PSeries) (db : LiveDb) :
    serverWrite (liveApi B H) db m = ((serverWrite (liveApi B H) ⟨[], db.cur, []⟩ m).1,
      { db with cur := (serverWrite (liveApi B H) ⟨[], db.cur, []⟩ m).2.cur }) := by
  induction m generalizing db with
  | nil => rfl
  | cons s m ih =>
    rw [serverWrite, serverWrite]
    simp only [liveApi]
    cases (writeTimePoints (sledComp B) db.cur (ofSeries s).1 (ofSeries s).2).1 with
    | ok u => exact ih _
    | err e => rfl
    | panic => rfl

theorem serverWrite_loose (B : BinSearch) (H : Hash) (m : List PSeries) {db : LiveDb} {g : Gens} (h : LooseRep B db g) (hm : ∀ s ∈ m, WFSet s.labels)
    (hlen : g.cur.h.length + (m.map fun s => s.samples.length).sum < 2 ^ 64 - 1) :
    ∃ db', serverWrite (liveApi B H) db m = (if ∃ s ∈ m, Refused g.cur s then .err .internal else .ok (), db') ∧
      LooseRep B db' (g.add (newPoints g.cur (takeUntilRefused g.cur m))) := by
  have h0 : LifeRep B ⟨[], db.cur, []⟩ ⟨[], g.cur⟩ := ⟨h.cur, h.shown, .nil, ⟨[], .refl _, .nil⟩, by simp [InOrder, Gens.all]⟩
  obtain ⟨db0, e1, e2⟩ := serverWrite_live B H m h0 hm hlen
  rw [serverWrite_cur, e1]
  refine ⟨_, rfl, e2.cur, e2.shown, h.secondary, h.old, ?_⟩
  have := h.distinct
  unfold Gens.all Gens.add at *
  simpa using this

/-! ### The machine -/

/-- The machine is as specified. -/
structure HostLoose (B : BinSearch) (rt : PbRt) (n : Nat) (h : Host) (s : Site) : Prop where
  up : h.up = s.up
  life : LooseRep B h.db s.g
  wf : ∀ c ∈ s.g.all, ∀ w ∈ c.h, WFSet w.1
  utf8 : ∀ c ∈ s.g.all, ∀ w ∈ c.h, ∀ l ∈ w.1, LabelOk rt.utf8 l
  len : ∀ c ∈ s.g.all, c.h.length ≤ n

theorem fresh_hostLoose (B : BinSearch) (rt : PbRt) (size now : U64) : HostLoose B rt 0 (Host.fresh size now) (Site.fresh size now) :=
  have h := fresh_hostRep B rt size now
  ⟨h.up, ⟨h.life.cur, h.life.shown, h.life.secondary, h.life.old, by simp [Site.fresh, Gens.all, Gens.fresh]⟩, h.wf, h.utf8, h.len⟩

/-- A read on the running machine. -/
theorem read_loose {B : BinSearch} (H : Hash) {rt : PbRt} {n : Nat} (hn : n + 1 < 2 ^ 64) {h : Host} {s : Site} (hr : HostLoose B rt n h s)
    {qs : List PQuery} (hincr : ∀ c ∈ s.g.all, ∀ ls, SIncr (pointsFor c.h ls))
    (hq : ∀ q ∈ qs, (∀ x ∈ q.matchers, WFLabel ⟨x.name, x.value⟩) ∧ (asU64 q.start_).toNat ≤ (asU64 q.end_).toNat ∧
            H.Good fun ls => ∃ c ∈ s.g.all, ∃ w ∈ c.h, sortLabels w.1 = ls) :
    ∃ rs, serverQuery (liveApi B H) h.db qs = .ok rs ∧ Forall₂ (IsResult s.g) qs (rs.map (·.map wireSeries)) ∧ ∀ r ∈ rs, ∀ x ∈ r, SeriesOk rt.utf8 x := by
  unfold serverQuery
  induction qs with
  | nil => exact ⟨[], rfl, .nil, by simp⟩
  | cons q qs ih =>
    obtain ⟨rs, h1, h2, h3⟩ := ih fun x hx => hq x (by simp [hx])
    obtain ⟨q1, q2, q3⟩ := hq q (by simp)
    obtain ⟨r, e1, e2⟩ := live_query H (db := h.db) (g := s.g) ⟨hr.life.cur.start_, hr.life.cur.end_.trans hr.life.shown.symm, hr.life.cur.ok, hr.life.cur.rep⟩
      hr.life.secondary (fun c hc => by have := hr.len c hc; omega) hr.wf hincr (q := q.matchers.map fun x => ⟨x.name, x.value⟩)
      (by intro l hl; obtain ⟨x, hx, rfl⟩ := List.mem_map.mp hl; exact q1 x hx) q2 (by
        rintro k k' ⟨c, hc, x, hx, rfl⟩ ⟨c', hc', x', hx', rfl⟩ ht
        obtain ⟨w, hw, e⟩ := answer_from hx
        obtain ⟨w', hw', e'⟩ := answer_from hx'
        exact q3 _ _ ⟨c, hc, w, hw, e⟩ ⟨c', hc', w', hw', e'⟩ ht)
    have ha : answerQuery (liveApi B H) h.db q = .ok (r.map toSeries) := by
      unfold answerQuery
      show (match h.db.query B H (q.matchers.map fun x => (⟨x.name, x.value⟩ : Label)) (asU64 q.start_) (asU64 q.end_) with
        | .ok r => Res.ok (r.map toSeries) | .err _ => .ok [] | .panic => .panic) = _
      rw [e1]
    refine ⟨r.map toSeries :: rs, by rw [Res.mapM, ha, Res.bind_ok, h1, Res.bind_ok], .cons ⟨r, e2, ?_⟩ h2, ?_⟩
    · simp only []
      rw [List.map_map]
      refine List.map_congr_left fun e _ => ?_
      show wireSeries (toSeries e) = _
      unfold wireSeries toSeries
      simp only [List.map_map]
      rfl
    · intro r' hr' x hx
      rcases List.mem_cons.mp hr' with rfl | hr'
      · obtain ⟨⟨ls, ps⟩, he, rfl⟩ := List.mem_map.mp hx
        refine toSeries_ok ?_
        obtain ⟨hne, -⟩ := (e2.entries ls ps).mp he
        obtain ⟨y, hy⟩ := List.exists_mem_of_ne_nil _ hne
        unfold seriesWith at hy
        obtain ⟨z, hz, hyz⟩ := List.mem_flatMap.mp hy
        obtain ⟨c, hc, rfl⟩ := List.mem_map.mp hz
        rw [List.mem_filter, decide_eq_true_eq] at hyz
        obtain ⟨hya, rfl⟩ := hyz
        obtain ⟨w, hw, e⟩ := answer_from hya
        intro l hl
        have hl : l ∈ y.labels := hl
        rw [← e] at hl
        exact hr.utf8 c hc w hw l ((sortLabels_mem _ _).mp hl)
      · exact h3 r' hr' x hx

/-- What is true of every chunk's samples before a restart is true after it. -/
theorem restart_all {size : U64} {s : Site} {K : Inserts → Prop} (h0 : K []) (h : ∀ c ∈ s.g.all, K c.h) (o : List Slot → List Slot) (k : Str → U64) (n : U64) :
    ∀ c ∈ (s.goes size (.restart o k n)).g.all, K c.h := by
  intro c hc
  refine (Gens.step_all (size := size) h0 h).2 o k n c ?_
  rcases List.mem_append.mp hc with hc | hc
  · exact List.mem_append_left _ ((byStart_perm _).mem_iff.mp hc)
  · exact List.mem_append_right _ hc

/-- One happening. -/
theorem HostLoose.step {B : BinSearch} (H : Hash) {rt : PbRt} (sn : Snappy) {P : Paths} (hP : P.read ≠ P.write) {base : Str} (hb : ∀ b ∈ base, isCont b = false)
    {size : U64} {n : Nat} {h : Host} {s : Site} (hr : HostLoose B rt n h s) {e : HostEvent} {e' : Happening} (hm : Means sn rt.utf8 P e e')
    (hp : Timely H rt size s e') (hlen : n + sent [e'] < 2 ^ 64 - 1) :
    ∃ x h', h.step B H (pbFormats sn rt) P base size e = (x, h') ∧ Answered sn rt.utf8 s e' x ∧ HostLoose B rt (n + sent [e']) h' (s.goes size e') := by
  obtain ⟨hu, db⟩ := h
  obtain ⟨su, g⟩ := s
  have hup : hu = su := hr.up
  subst hup
  have more : ∀ k, HostLoose B rt (n + k) ⟨hu, db⟩ ⟨hu, g⟩ := fun k => ⟨rfl, hr.life, hr.wf, hr.utf8, fun c hc => by have := hr.len c hc; omega⟩
  cases e with
  | request r =>
    cases e' with
    | call c =>
      cases hu with
      | false => exact ⟨_, _, rfl, rfl, more _⟩
      | true =>
        have hp := hp rfl
        have hm : Says sn rt.utf8 P r c := hm
        obtain ⟨url, rb⟩ := r
        cases c with
        | write m =>
          obtain ⟨hurl, body, bytes, hbody, hd, hw⟩ := hm
          simp only [] at hurl hbody
          subst hurl hbody
          have hs : sent [.call (.write m)] = (m.map fun s => s.samples.length).sum := by simp [sent]
          rw [hs] at hlen ⊢
          have hcl : g.cur.h.length ≤ n := hr.len _ (by simp [Gens.all])
          obtain ⟨db', e1, e2⟩ := serverWrite_loose B H m hr.life hp (by simp only []; omega)
          have hpr := C48_status (liveApi B H) (pbFormats sn rt) P hP db body bytes hd
          rw [C59_write sn rt hw, e1] at hpr
          refine ⟨some ⟨if ∃ ser ∈ m, Refused g.cur ser then 500 else 200, []⟩, ⟨true, db'⟩, ?_, rfl, ⟨rfl, e2, ?_, ?_, ?_⟩⟩
          · simp only [Host.step, if_true]
            rw [hpr]
            by_cases hx : ∃ s ∈ m, Refused g.cur s
            · simp only [if_pos hx]
            · simp only [if_neg hx]
          · intro c hc w hw'
            rcases List.mem_append.mp hc with hc | hc
            · exact hr.wf c (List.mem_append_left _ hc) w hw'
            · rw [List.mem_singleton] at hc; subst hc
              rcases List.mem_append.mp hw' with hw' | hw'
              · exact hr.wf g.cur (by simp [Gens.all]) w hw'
              · exact newPoints_wf hp w hw'
          · intro c hc w hw'
            rcases List.mem_append.mp hc with hc | hc
            · exact hr.utf8 c (List.mem_append_left _ hc) w hw'
            · rw [List.mem_singleton] at hc; subst hc
              rcases List.mem_append.mp hw' with hw' | hw'
              · exact hr.utf8 g.cur (by simp [Gens.all]) w hw'
              · exact newPoints_wf (K := fun ls => ∀ l ∈ ls, LabelOk rt.utf8 l) (isWrite_utf8 rt.utf8nil hw) w hw'
          · intro c hc
            rcases List.mem_append.mp hc with hc | hc
            · have := hr.len c (List.mem_append_left _ hc); omega
            · rw [List.mem_singleton] at hc; subst hc
              have := takeUntil_len g.cur m
              show (g.cur.h ++ newPoints g.cur (takeUntilRefused g.cur m)).length ≤ _
              rw [List.length_append]; omega
        | read qs =>
          obtain ⟨hurl, body, bytes, hbody, hd, hw⟩ := hm
          simp only [] at hurl hbody
          subst hurl hbody
          obtain ⟨p1, p2, p3⟩ := hp
          obtain ⟨rs, e1, e2, e3⟩ := read_loose H (by omega) hr p2 p3
          have hpr := C47_response (liveApi B H) (pbFormats sn rt) P db body bytes ⟨qs, false⟩ rs hd (C59_read sn rt hw p1) rfl e1
          refine ⟨some ⟨200, sn.compress (encResponse rs)⟩, ⟨true, db⟩, ?_, ?_, more _⟩
          · simp only [Host.step, if_true]
            rw [hpr]
            rfl
          · refine ⟨_, encResponse rs, rfl, sn.undo _, _, e2, fun hl => ?_⟩
            obtain ⟨out, o1, o2⟩ := C60_response_partial sn rt rs e3 hl
            have : out = encResponse rs := by
              have : sn.decompress (sn.compress (encResponse rs)) = some out := o1
              rw [sn.undo] at this
              exact (Option.some.inj this).symm
            rw [← this]
            exact o2
        | badRead =>
          obtain ⟨hurl, body, bytes, hbody, hd, hw⟩ := hm
          simp only [] at hurl hbody
          subst hurl hbody
          have hpr := C71_refused_partial (liveApi B H) sn rt hp P db body bytes hd hw
          refine ⟨some ⟨500, []⟩, ⟨true, db⟩, ?_, rfl, more _⟩
          simp only [Host.step, if_true]
          rw [hpr]
        | other =>
          obtain ⟨h1, h2, body, bytes, hbody, hd⟩ := hm
          simp only [] at h1 h2 hbody
          subst hbody
          have hd' : (pbFormats sn rt).decompress body = some bytes := hd
          refine ⟨some ⟨404, []⟩, ⟨true, db⟩, ?_, rfl, more _⟩
          simp [Host.step, process, hd', h1, h2]
        | garbage =>
          refine ⟨none, ⟨false, db⟩, ?_, rfl, ⟨rfl, hr.life, hr.wf, hr.utf8, fun c hc => by have := hr.len c hc; omega⟩⟩
          have hpr : process (liveApi B H) (pbFormats sn rt) P db ⟨url, rb⟩ = (none, db) := by
            unfold process
            cases rb with
            | none => rfl
            | some body =>
              have : (pbFormats sn rt).decompress body = none := hm body rfl
              simp only [this]
          simp only [Host.step, if_true]
          rw [hpr]
    | tick => exact hm.elim
    | restart => exact hm.elim
  | tick r =>
    cases e' with
    | call => exact hm.elim
    | restart => exact hm.elim
    | tick r' =>
      obtain rfl : r = r' := hm
      cases hu with
      | false => exact ⟨_, _, rfl, rfl, more _⟩
      | true =>
        obtain ⟨db', e1, e2⟩ := hr.life.tick (base := base) (size := size) (hp rfl).2
        refine ⟨none, ⟨true, db'⟩, ?_, rfl, ⟨rfl, e2, (Gens.step_all (K := fun h => ∀ w ∈ h, WFSet w.1) (by simp) hr.wf).1 r,
          (Gens.step_all (K := fun h => ∀ w ∈ h, ∀ l ∈ w.1, LabelOk rt.utf8 l) (by simp) hr.utf8).1 r,
          (Gens.step_all (K := fun h => h.length ≤ n + 0) (by simp) hr.len).1 r⟩⟩
        simp only [Host.step, if_true]
        rw [e1]
  | restart o k nw =>
    cases e' with
    | call => exact hm.elim
    | tick => exact hm.elim
    | restart o' k' nw' =>
      obtain ⟨rfl, rfl, rfl⟩ := hm
      obtain ⟨p1, -, p3⟩ := hp
      obtain ⟨db', e1, e2⟩ := hr.life.restart (clock := k) (size := size) hb p1 p3
      refine ⟨none, ⟨true, db'⟩, ?_, rfl, ⟨rfl, e2, restart_all (s := ⟨hu, g⟩) (K := fun h => ∀ w ∈ h, WFSet w.1) (by simp) hr.wf o k nw,
        restart_all (s := ⟨hu, g⟩) (K := fun h => ∀ w ∈ h, ∀ l ∈ w.1, LabelOk rt.utf8 l) (by simp) hr.utf8 o k nw,
        restart_all (s := ⟨hu, g⟩) (K := fun h => h.length ≤ n + 0) (by simp) hr.len o k nw⟩⟩
      simp only [Host.step]
      rw [e1]

/-- A history. -/
theorem HostLoose.run {B : BinSearch} (H : Hash) {rt : PbRt} (sn : Snappy) {P : Paths} (hP : P.read ≠ P.write) {base : Str} (hb : ∀ b ∈ base, isCont b = false)
    {size : U64} {es : List HostEvent} {hs : List Happening} (hm : Forall₂ (Means sn rt.utf8 P) es hs) {n : Nat} {h : Host} {s : Site}
    (hr : HostLoose B rt n h s) (hp : TimelyAll H rt size s hs) (hlen : n + sent hs < 2 ^ 64 - 1) :
    ∃ xs h', h.run B H (pbFormats sn rt) P base size es = (xs, h') ∧ xs.length = hs.length ∧
      (∀ (i : Nat) (hi : i < hs.length) (hx : i < xs.length), Answered sn rt.utf8 (s.went size (hs.take i)) hs[i] xs[i]) ∧
      HostLoose B rt (n + sent hs) h' (s.went size hs) := by
  induction hm generalizing n h s with
  | nil => exact ⟨[], h, rfl, rfl, by simp, hr⟩
  | @cons e e' es hs h1 _ ih =>
    rw [sent_cons] at hlen ⊢
    obtain ⟨x, h', e1, e2, e3⟩ := hr.step H sn hP hb h1 hp.1 (by omega)
    obtain ⟨xs, h'', i1, i2, i3, i4⟩ := ih e3 hp.2 (by omega)
    refine ⟨x :: xs, h'', by simp [Host.run, e1, i1], by simp [i2], ?_, by rw [← Nat.add_assoc]; exact i4⟩
    intro i hi hx
    cases i with
    | zero => exact e2
    | succ i => exact i3 i (by simpa using hi) (by simpa using hx)


/-! ### Facts about the specification -/

theorem Site.goes_perm (size : U64) (s : Site) (e : Happening) : (s.goes size e).g.all.Perm (s.next size e).g.all := by
  cases e with
  | call c => exact .refl _
  | tick r => exact .refl _
  | restart o k n => exact (byStart_perm _).append_right _

theorem TimelyAll.take {H : Hash} {rt : PbRt} {size : U64} {hs : List Happening} {s : Site} (h : TimelyAll H rt size s hs) (n : Nat) :
    TimelyAll H rt size s (hs.take n) := by
  induction hs generalizing s n with
  | nil => simpa using h
  | cons e es ih =>
    cases n with
    | zero => exact True.intro
    | succ n => exact ⟨h.1, ih h.2 n⟩

theorem Site.went_append (size : U64) (s : Site) (hs hs' : List Happening) : s.went size (hs ++ hs') = (s.went size hs).went size hs' := by
  unfold Site.went; rw [List.foldl_append]

/-- Stored points have well-formed labels and lie in the window of their chunk. -/
theorem Site.went_sound {H : Hash} {rt : PbRt} {size : U64} {hs : List Happening} {s : Site} (hp : TimelyAll H rt size s hs)
    (h : ∀ c ∈ s.g.all, ∀ w ∈ c.h, WFSet w.1 ∧ inside c.lo c.hi w.2 = true) :
    ∀ c ∈ (s.went size hs).g.all, ∀ w ∈ c.h, WFSet w.1 ∧ inside c.lo c.hi w.2 = true := by
  induction hs generalizing s with
  | nil => exact h
  | cons e es ih =>
    refine ih hp.2 fun c hc w hw => ?_
    rcases Site.next_chunk ((s.goes_perm size e).mem_iff.mp hc) with ⟨c0, hc0, e1, e2, h3⟩ | h0
    · rw [e1, e2]
      rcases h3 w hw with h4 | ⟨m, rfl, hu, rfl, h4⟩
      · exact h c0 hc0 w h4
      · obtain ⟨x, hx, y, -, rfl, hi⟩ := newPoints_mem.mp h4
        exact ⟨hp.1 hu x (takeUntil_mem hx), hi⟩
    · rw [h0] at hw; simp at hw

/-- Everything stored was sent. -/
theorem Site.went_from {size : U64} {hs : List Happening} {s : Site} {c : Gen} (hc : c ∈ (s.went size hs).g.all) {w : Labels × TimePoint} (hw : w ∈ c.h) :
    (∃ c0 ∈ s.g.all, w ∈ c0.h) ∨ ∃ (i : Nat) (m : List PSeries), hs[i]? = some (.call (.write m)) ∧ ∃ ser ∈ m, ∃ x ∈ ser.samples, w = (ser.labels, x.point) := by
  induction hs generalizing s with
  | nil => exact Or.inl ⟨c, hc, hw⟩
  | cons e es ih =>
    rcases ih hc with ⟨c1, hc1, hw1⟩ | ⟨i, m, h1, h2⟩
    · rcases Site.next_chunk ((s.goes_perm size e).mem_iff.mp hc1) with ⟨c0, hc0, -, -, h3⟩ | h0
      · rcases h3 w hw1 with h4 | ⟨m, rfl, hu, rfl, h4⟩
        · exact Or.inl ⟨c0, hc0, h4⟩
        · obtain ⟨x, hx, y, hy, rfl, hi⟩ := newPoints_mem.mp h4
          exact Or.inr ⟨0, m, rfl, x, takeUntil_mem hx, y, hy, rfl⟩
      · rw [h0] at hw1; simp at hw1
    · exact Or.inr ⟨i + 1, m, h1, h2⟩

/-- Nothing stored is lost. -/
theorem Site.went_keeps {size : U64} {hs : List Happening} {s : Site} {w : Labels × TimePoint} (h : ∃ c ∈ s.g.all, w ∈ c.h) :
    ∃ c ∈ (s.went size hs).g.all, w ∈ c.h := by
  induction hs generalizing s with
  | nil => exact h
  | cons e es ih =>
    obtain ⟨c, hc, hw⟩ := Site.next_keeps (size := size) e h
    exact ih ⟨c, (s.goes_perm size e).mem_iff.mpr hc, hw⟩

/-- Then no window shown is short of a sample. -/
structure FullyShown (s : Site) : Prop where
  cur : s.g.cur.shown = s.g.cur.hi
  all : ∀ c ∈ s.g.all, ∀ w ∈ c.h, w.2.ts.toNat ≤ c.shown.toNat

theorem inside_le {lo hi : U64} {p : TimePoint} (h : inside lo hi p = true) : p.ts.toNat ≤ hi.toNat := by
  simp only [inside, Bool.and_eq_true, decide_eq_true_eq] at h; omega

theorem FullyShown.goes {size : U64} {s : Site} (h : FullyShown s) (hs : ∀ c ∈ s.g.all, ∀ w ∈ c.h, inside c.lo c.hi w.2 = true) {e : Happening} (hn : NoneAhead s e) :
    FullyShown (s.goes size e) := by
  cases e with
  | call c =>
    by_cases hu : s.up = true
    · cases c with
      | write m =>
        simp only [Site.goes, Site.next, if_pos hu]
        refine ⟨h.cur, fun c hc w hw => ?_⟩
        rcases List.mem_append.mp hc with hc | hc
        · exact h.all c (List.mem_append_left _ hc) w hw
        · rw [List.mem_singleton] at hc; subst hc
          rcases List.mem_append.mp hw with hw | hw
          · exact h.all s.g.cur (by simp [Gens.all]) w hw
          · obtain ⟨x, hx, y, -, rfl, hi⟩ := newPoints_mem.mp hw
            show y.point.ts.toNat ≤ s.g.cur.shown.toNat
            rw [h.cur]
            exact inside_le hi
      | garbage => simp only [Site.goes, Site.next, if_pos hu]; exact ⟨h.cur, h.all⟩
      | read qs => simp only [Site.goes, Site.next, if_pos hu]; exact h
      | badRead => simp only [Site.goes, Site.next, if_pos hu]; exact h
      | other => simp only [Site.goes, Site.next, if_pos hu]; exact h
    · simp only [Site.goes, Site.next, if_neg hu]; exact h
  | tick r =>
    by_cases hu : s.up = true
    · simp only [Site.goes, Site.next, if_pos hu]
      refine ⟨rfl, fun c hc w hw => ?_⟩
      rcases List.mem_append.mp hc with hc | hc
      · exact h.all c hc w hw
      · simp only [Gens.step, List.mem_singleton] at hc; subst hc; simp [Gen.new] at hw
    · simp only [Site.goes, Site.next, if_neg hu]; exact h
  | restart o k n =>
    refine ⟨rfl, fun c hc w hw => ?_⟩
    rcases List.mem_append.mp hc with hc | hc
    · have hc := (byStart_perm _).mem_iff.mp hc
      obtain ⟨c', hc', rfl⟩ := List.mem_map.mp hc
      have h1 := hn c' hc' w hw
      have h2 := inside_le (hs c' hc' w hw)
      simp only [Gen.reopened]
      split
      · exact h1
      · exact h2
    · have hc : c ∈ [Gen.new n size] := hc
      rw [List.mem_singleton] at hc; subst hc; simp [Gen.new] at hw

theorem FullyShown.went {H : Hash} {rt : PbRt} {size : U64} {hs : List Happening} {s : Site} (h : FullyShown s) (hp : TimelyAll H rt size s hs)
    (hsound : ∀ c ∈ s.g.all, ∀ w ∈ c.h, WFSet w.1 ∧ inside c.lo c.hi w.2 = true)
    (hn : ∀ (i : Nat) (e : Happening), hs[i]? = some e → NoneAhead (s.went size (hs.take i)) e) : FullyShown (s.went size hs) := by
  induction hs generalizing s with
  | nil => exact h
  | cons e es ih =>
    refine ih (h.goes (fun c hc w hw => (hsound c hc w hw).2) (hn 0 e rfl)) hp.2 ?_ fun i e' he' => hn (i + 1) e' (by simpa using he')
    exact Site.went_sound (hs := [e]) (H := H) (rt := rt) (size := size) ⟨hp.1, True.intro⟩ hsound

/-- A restart with nothing ahead of the clock changes what the chunks contribute only by a permutation of the chunks. -/
theorem restart_answers {size : U64} {s : Site} (h : FullyShown s) (hs : ∀ c ∈ s.g.all, ∀ w ∈ c.h, inside c.lo c.hi w.2 = true)
    {o : List Slot → List Slot} {k : Str → U64} {n : U64} (hn : NoneAhead s (.restart o k n)) (q : Labels) (a b : U64) :
    ∃ rs, ((s.goes size (.restart o k n)).g.all.map fun c => c.answer q a b) = rs ++ [[]] ∧ rs.Perm (s.g.all.map fun c => c.answer q a b) := by
  refine ⟨(byStart (s.g.all.map fun c => c.reopened (k c.name))).map fun c => c.answer q a b, ?_, ?_⟩
  · have h0 : (Gen.new n size).answer q a b = [] := by
      unfold Gen.answer Desc.answer
      split
      · simp [Gen.new, specQuery, matched, knownLabels, numbered, labelSets, okSeries, restrict]
      · rfl
    show (byStart (s.g.all.map fun c => c.reopened (k c.name)) ++ [Gen.new n size]).map _ = _
    rw [List.map_append, List.map_singleton, h0]
  · refine ((byStart_perm _).map _).trans ?_
    rw [List.map_map]
    refine List.Perm.of_eq (List.map_congr_left fun c hc => ?_)
    show Gen.answer (c.reopened (k c.name)) q a b = c.answer q a b
    unfold Gen.answer Gen.reopened
    refine answer_shown (fun w hw => ?_) (h.all c hc) q a b
    have h1 := hn c hc w hw
    have h2 := inside_le (hs c hc w hw)
    simp only []
    split
    · exact h1
    · exact h2

/-- Merges of the same contributions in another order. -/
theorem merge_reordered {rs rs' : ChunkResults} {r r' : List (Labels × List TimePoint)} (hp : rs'.Perm rs) (h : IsMerge rs r) (h' : IsMerge (rs' ++ [[]]) r') :
    (∀ e ∈ r, ∃ e' ∈ r', e'.1 = e.1 ∧ e'.2.Perm e.2) ∧ ∀ e' ∈ r', ∃ e ∈ r, e'.1 = e.1 ∧ e'.2.Perm e.2 := by
  have hs : ∀ ls, (seriesWith (rs' ++ [[]]) ls).Perm (seriesWith rs ls) := by
    intro ls
    unfold seriesWith
    rw [List.flatMap_append]
    simpa using hp.flatMap_right _
  have hne : ∀ ls, seriesWith (rs' ++ [[]]) ls ≠ [] ↔ seriesWith rs ls ≠ [] := fun ls => not_congr ⟨fun e => by
    have := hs ls; rw [e] at this; exact List.nil_perm.mp this, fun e => by have := hs ls; rw [e] at this; exact List.perm_nil.mp this⟩
  have hm : ∀ ls, (mergedPoints (rs' ++ [[]]) ls).Perm (mergedPoints rs ls) := fun ls => (hs ls).flatMap_right _
  constructor
  · rintro ⟨ls, ps⟩ he
    obtain ⟨h1, rfl⟩ := (h.entries _ _).mp he
    exact ⟨_, (h'.entries ls _).mpr ⟨(hne ls).mpr h1, rfl⟩, rfl, hm ls⟩
  · rintro ⟨ls, ps⟩ he
    obtain ⟨h1, rfl⟩ := (h'.entries _ _).mp he
    exact ⟨_, (h.entries ls _).mpr ⟨(hne ls).mp h1, rfl⟩, rfl, hm ls⟩

end Verif
