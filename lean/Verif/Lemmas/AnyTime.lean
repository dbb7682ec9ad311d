import Verif.Spec.AnyTime
import Verif.Lemmas.Unordered
import Verif.Lemmas.Clock
namespace Verif
open List

/-- As `any_query`, for chunks in any order of time. -/
theorem any_query_loose {B : BinSearch} (hB : Careful B) (H : Hash) {db : LiveDb} {g : Gens} (h : LooseRep B db g) (hlen : ∀ c ∈ g.all, c.h.length + 1 < 2 ^ 64)
    (hwf : ∀ c ∈ g.all, ∀ w ∈ c.h, WFSet w.1) {q : Labels} (hq : ∀ l ∈ q, WFLabel l)
    {a b : U64} (hab : a.toNat ≤ b.toNat) (hg : H.Good fun ls => ∃ c ∈ g.all, ∃ w ∈ c.h, sortLabels w.1 = ls) :
    ∃ r, db.query B H q a b = .ok r ∧ IsMerge (g.all.map fun c => c.answerBy B q a b) r := by
  have hcur : Shows B db.cur g.cur := ⟨h.cur.start_, h.cur.end_.trans h.shown.symm, h.cur.ok, h.cur.rep⟩
  have hsec := h.secondary
  have hca := shows_any hB hcur (hlen _ (by simp [Gens.all])) (hwf _ (by simp [Gens.all])) hq hab
  have hall : ∀ c x, Shows B c x → x ∈ g.old → _ := fun c x hs hx =>
    shows_any hB hs (hlen _ (by simp [Gens.all, hx])) (hwf _ (by simp [Gens.all, hx])) hq hab
  have hu : usedResults (db.cur.view (sledComp B)) (db.secondary.map fun c => c.view (sledComp B)) q a b = g.all.map fun c => c.answerBy B q a b := by
    unfold usedResults Gens.all
    rw [List.map_append, List.map_map]
    congr 1
    · have hs := hsec
      clear hsec
      revert hall
      generalize db.secondary = l at hs
      generalize g.old = m at hs
      intro hall
      induction hs with
      | nil => rfl
      | cons h1 _ ih =>
        rw [List.map_cons, List.map_cons, ih fun c x hs hx => hall c x hs (by simp [hx])]
        congr 1
        exact (hall _ _ h1 (by simp)).2.2
    · rw [List.map_singleton]; congr 1; exact hca.2.1
  rw [← hu]
  refine dbQuery_merge H _ _ q a b hca.1 ?_ hg ?_ ?_
  · intro v hv _
    obtain ⟨c, hc, rfl⟩ := List.mem_map.mp hv
    obtain ⟨x, hx, hs⟩ := forall₂_get hsec.flip c hc
    exact (hall c x hs hx).1
  · intro v hv s hs
    rcases List.mem_cons.mp hv with rfl | hv
    · rw [hca.2.1] at hs
      obtain ⟨w, hw, e⟩ := answerBy_labels hB (hwf _ (by simp [Gens.all])) hab hs
      exact ⟨g.cur, by simp [Gens.all], w, hw, e⟩
    · obtain ⟨c, hc, rfl⟩ := List.mem_map.mp hv
      obtain ⟨x, hx, hsh⟩ := forall₂_get hsec.flip c hc
      rw [(hall c x hsh hx).2.1] at hs
      obtain ⟨w, hw, e⟩ := answerBy_labels hB (hwf x (by simp [Gens.all, hx])) hab hs
      exact ⟨x, by simp [Gens.all, hx], w, hw, e⟩
  · intro r hr
    rw [hu, List.mem_map] at hr
    obtain ⟨c, hc, rfl⟩ := hr
    exact answerBy_nodup hB _ _ hab

theorem read_any_loose {B : BinSearch} (hB : Careful B) (H : Hash) {rt : PbRt} {n : Nat} (hn : n + 1 < 2 ^ 64) {h : Host} {s : Site} (hr : HostLoose B rt n h s)
    {qs : List PQuery}
    (hq : ∀ q ∈ qs, (∀ x ∈ q.matchers, WFLabel ⟨x.name, x.value⟩) ∧ (asU64 q.start_).toNat ≤ (asU64 q.end_).toNat ∧
            H.Good fun ls => ∃ c ∈ s.g.all, ∃ w ∈ c.h, sortLabels w.1 = ls) :
    ∃ rs, serverQuery (liveApi B H) h.db qs = .ok rs ∧ Forall₂ (IsResultBy B s.g) qs (rs.map (·.map wireSeries)) ∧ ∀ r ∈ rs, ∀ x ∈ r, SeriesOk rt.utf8 x := by
  unfold serverQuery
  induction qs with
  | nil => exact ⟨[], rfl, .nil, by simp⟩
  | cons q qs ih =>
    obtain ⟨rs, h1, h2, h3⟩ := ih fun x hx => hq x (by simp [hx])
    obtain ⟨q1, q2, q3⟩ := hq q (by simp)
    obtain ⟨r, e1, e2⟩ := any_query_loose hB H hr.life (fun c hc => by have := hr.len c hc; omega) hr.wf (q := q.matchers.map fun x => ⟨x.name, x.value⟩)
      (by intro l hl; obtain ⟨x, hx, rfl⟩ := List.mem_map.mp hl; exact q1 x hx) q2 q3
    have ha : answerQuery (liveApi B H) h.db q = .ok (r.map toSeries) := by
      unfold answerQuery
      show (match h.db.query B H (q.matchers.map fun x => (⟨x.name, x.value⟩ : Label)) (asU64 q.start_) (asU64 q.end_) with
        | .ok r => Res.ok (r.map toSeries) | .err _ => .ok [] | .panic => .panic) = _
      rw [e1]
    refine ⟨r.map toSeries :: rs, by rw [Res.mapM, ha, Res.bind_ok, h1, Res.bind_ok], .cons ⟨r, e2, ?_⟩ h2, ?_⟩
    · simp only []
      rw [List.map_map]
      refine List.map_congr_left fun e _ => ?_
      show wireSeries (toSeries e) = _
      unfold wireSeries toSeries
      simp only [List.map_map]
      rfl
    · intro r' hr' x hx
      rcases List.mem_cons.mp hr' with rfl | hr'
      · obtain ⟨⟨ls, ps⟩, he, rfl⟩ := List.mem_map.mp hx
        refine toSeries_ok ?_
        obtain ⟨hne, -⟩ := (e2.entries ls ps).mp he
        obtain ⟨y, hy⟩ := List.exists_mem_of_ne_nil _ hne
        unfold seriesWith at hy
        obtain ⟨z, hz, hyz⟩ := List.mem_flatMap.mp hy
        obtain ⟨c, hc, rfl⟩ := List.mem_map.mp hz
        rw [List.mem_filter, decide_eq_true_eq] at hyz
        obtain ⟨hya, rfl⟩ := hyz
        obtain ⟨w, hw, e⟩ := answerBy_labels hB (hr.wf c hc) q2 hya
        intro l hl
        have hl : l ∈ y.labels := hl
        rw [← e] at hl
        exact hr.utf8 c hc w hw l ((sortLabels_mem _ _).mp hl)
      · exact h3 r' hr' x hx

/-- One happening. -/
theorem HostLoose.step_any {B : BinSearch} (hB : Careful B) (H : Hash) {rt : PbRt} (sn : Snappy) {P : Paths} (hP : P.read ≠ P.write) {base : Str}
    (hb : ∀ b ∈ base, isCont b = false) {size : U64} {n : Nat} {h : Host} {s : Site} (hr : HostLoose B rt n h s) {e : HostEvent} {e' : Happening}
    (hm : Means sn rt.utf8 P e e') (hp : AnyTime H rt size s e') (hlen : n + sent [e'] < 2 ^ 64 - 1) :
    ∃ x h', h.step B H (pbFormats sn rt) P base size e = (x, h') ∧ AnsweredBy B sn rt.utf8 s e' x ∧ HostLoose B rt (n + sent [e']) h' (s.goes size e') := by
  have old : (∀ qs, e' ≠ .call (.read qs)) →
      ∃ x h', h.step B H (pbFormats sn rt) P base size e = (x, h') ∧ AnsweredBy B sn rt.utf8 s e' x ∧ HostLoose B rt (n + sent [e']) h' (s.goes size e') := by
    intro hne
    have hp' : Timely H rt size s e' := by
      rcases e' with (_ | qs | _ | _ | _) | _ | _
      all_goals first | exact hp | exact absurd rfl (hne qs)
    obtain ⟨x, h', e1, e2, e3⟩ := hr.step H sn hP hb hm hp' hlen
    refine ⟨x, h', e1, ?_, e3⟩
    rcases e' with (_ | qs | _ | _ | _) | _ | _
    all_goals first | exact e2 | exact absurd rfl (hne qs)
  rcases e' with (_ | qs | _ | _ | _) | _ | _
  case call.read =>
    cases e with
    | tick => exact hm.elim
    | restart => exact hm.elim
    | request r =>
      obtain ⟨hu, db⟩ := h
      obtain ⟨su, g⟩ := s
      have hup : hu = su := hr.up
      subst hup
      have more : ∀ k, HostLoose B rt (n + k) ⟨hu, db⟩ ⟨hu, g⟩ := fun k => ⟨rfl, hr.life, hr.wf, hr.utf8, fun c hc => by have := hr.len c hc; omega⟩
      cases hu with
      | false => exact ⟨_, _, rfl, rfl, more _⟩
      | true =>
        obtain ⟨url, rb⟩ := r
        obtain ⟨hurl, body, bytes, hbody, hd, hw⟩ := hm
        simp only [] at hurl hbody
        subst hurl hbody
        obtain ⟨p1, p3⟩ := hp rfl
        obtain ⟨rs, e1, e2, e3⟩ := read_any_loose hB H (by omega) hr p3
        have hpr := C47_response (liveApi B H) (pbFormats sn rt) P db body bytes ⟨qs, false⟩ rs hd (C59_read sn rt hw p1) rfl e1
        refine ⟨some ⟨200, sn.compress (encResponse rs)⟩, ⟨true, db⟩, ?_, ?_, more _⟩
        · simp only [Host.step, if_true]
          rw [hpr]
          rfl
        · refine ⟨_, encResponse rs, rfl, sn.undo _, _, e2, fun hl => ?_⟩
          obtain ⟨out, o1, o2⟩ := C60_response_partial sn rt rs e3 hl
          have : out = encResponse rs := by
            have : sn.decompress (sn.compress (encResponse rs)) = some out := o1
            rw [sn.undo] at this
            exact (Option.some.inj this).symm
          rw [← this]
          exact o2
  all_goals exact old (by intro qs; simp)

/-- A history. -/
theorem HostLoose.run_any {B : BinSearch} (hB : Careful B) (H : Hash) {rt : PbRt} (sn : Snappy) {P : Paths} (hP : P.read ≠ P.write) {base : Str}
    (hb : ∀ b ∈ base, isCont b = false)
    {size : U64} {es : List HostEvent} {hs : List Happening} (hm : Forall₂ (Means sn rt.utf8 P) es hs) {n : Nat} {h : Host} {s : Site}
    (hr : HostLoose B rt n h s) (hp : AnyTimeAll H rt size s hs) (hlen : n + sent hs < 2 ^ 64 - 1) :
    ∃ xs h', h.run B H (pbFormats sn rt) P base size es = (xs, h') ∧ xs.length = hs.length ∧
      (∀ (i : Nat) (hi : i < hs.length) (hx : i < xs.length), AnsweredBy B sn rt.utf8 (s.went size (hs.take i)) hs[i] xs[i]) := by
  induction hm generalizing n h s with
  | nil => exact ⟨[], h, rfl, rfl, by simp⟩
  | @cons e e' es hs h1 _ ih =>
    rw [sent_cons] at hlen
    obtain ⟨x, h', e1, e2, e3⟩ := hr.step_any hB H sn hP hb h1 hp.1 (by omega)
    obtain ⟨xs, h'', i1, i2, i3⟩ := ih e3 hp.2 (by omega)
    refine ⟨x :: xs, h'', by simp [Host.run, e1, i1], by simp [i2], ?_⟩
    intro i hi hx
    cases i with
    | zero => exact e2
    | succ i => exact i3 i (by simpa using hi) (by simpa using hx)

/-! ### Facts about the specification -/

theorem Site.went_sound_any {H : Hash} {rt : PbRt} {size : U64} {hs : List Happening} {s : Site} (hp : AnyTimeAll H rt size s hs)
    (h : ∀ c ∈ s.g.all, ∀ w ∈ c.h, WFSet w.1 ∧ inside c.lo c.hi w.2 = true) :
    ∀ c ∈ (s.went size hs).g.all, ∀ w ∈ c.h, WFSet w.1 ∧ inside c.lo c.hi w.2 = true := by
  induction hs generalizing s with
  | nil => exact h
  | cons e es ih =>
    refine ih hp.2 fun c hc w hw => ?_
    rcases Site.next_chunk ((s.goes_perm size e).mem_iff.mp hc) with ⟨c0, hc0, e1, e2, h3⟩ | h0
    · rw [e1, e2]
      rcases h3 w hw with h4 | ⟨m, rfl, hu, rfl, h4⟩
      · exact h c0 hc0 w h4
      · obtain ⟨x, hx, y, -, rfl, hi⟩ := newPoints_mem.mp h4
        exact ⟨hp.1 hu x (takeUntil_mem hx), hi⟩
    · rw [h0] at hw; simp at hw

theorem AnyTimeAll.take {H : Hash} {rt : PbRt} {size : U64} {hs : List Happening} {s : Site} (h : AnyTimeAll H rt size s hs) (n : Nat) :
    AnyTimeAll H rt size s (hs.take n) := by
  induction hs generalizing s n with
  | nil => simpa using h
  | cons e es ih =>
    cases n with
    | zero => exact True.intro
    | succ n => exact ⟨h.1, ih h.2 n⟩

/-- Everything stored. -/
def Site.holds (s : Site) : Inserts := s.g.all.flatMap (·.h)

theorem goes_holds (size : U64) (s : Site) (e : Happening) : (s.goes size e).holds.Perm (s.holds ++ s.brings e) := by
  refine ((s.goes_perm size e).flatMap_right _).trans ?_
  have same : s.holds.Perm (s.holds ++ []) := by simp
  obtain ⟨u, g⟩ := s
  rcases e with (m | _ | _ | _ | _) | r | ⟨o, k, n⟩
  · cases u with
    | false => exact same
    | true =>
      simp only [Site.next, Site.brings, if_true, Site.holds, Gens.all, List.flatMap_append, List.flatMap_cons, List.flatMap_nil, List.append_nil, List.append_assoc]
      exact List.Perm.refl _
  all_goals first
    | (cases u <;> exact same)
    | skip
  · cases u with
    | false => exact same
    | true =>
      simp only [Site.next, Site.brings, if_true, Site.holds, Gens.step, Gens.all, Gen.new, List.flatMap_append, List.flatMap_cons, List.flatMap_nil, List.append_nil]
      exact List.Perm.refl _
  · simp only [Site.next, Site.brings, Site.holds, Gens.step, Gens.all, Gen.new, List.flatMap_append, List.flatMap_cons, List.flatMap_nil, List.append_nil,
      List.map_append, List.map_cons, List.map_nil, Gen.reopened]
    rw [List.flatMap_map]

/-- What is stored is what was accepted. -/
theorem went_holds (size : U64) (hs : List Happening) (s : Site) : (s.went size hs).holds.Perm (s.holds ++ s.accepts size hs) := by
  induction hs generalizing s with
  | nil => simp [Site.went, Site.accepts]
  | cons e es ih =>
    refine (ih (s.goes size e)).trans ?_
    rw [Site.accepts, ← List.append_assoc]
    exact (goes_holds size s e).append_right _

theorem fresh_holds (size t0 : U64) (hs : List Happening) : ((Site.fresh size t0).went size hs).holds.Perm ((Site.fresh size t0).accepts size hs) := by
  have := went_holds size hs (Site.fresh size t0)
  simpa [Site.holds, Site.fresh, Gens.fresh, Gens.all, Gen.new] using this

theorem arrived_holds (s : Site) (ls : Labels) : arrived s ls = pointsFor s.holds ls := by
  unfold arrived Site.holds pointsFor
  induction s.g.all with
  | nil => rfl
  | cons c l ih => rw [List.flatMap_cons, List.flatMap_cons, ih, List.filter_append, List.map_append]

theorem accepts_append (size : U64) (hs hs' : List Happening) (s : Site) : s.accepts size (hs ++ hs') = s.accepts size hs ++ (s.went size hs).accepts size hs' := by
  induction hs generalizing s with
  | nil => rfl
  | cons e es ih =>
    rw [List.cons_append, Site.accepts, Site.accepts, ih, List.append_assoc]
    rfl

end Verif
