import Verif.Lemmas.Unordered
import Verif.Props.ServerLife
/-! Property C92: samples that come late or twice. -/
namespace Verif
open List

theorem any_history {B : BinSearch} (hB : Careful B) (H : Hash) (sn : Snappy) (rt : PbRt) (P : Paths) (hP : P.read ≠ P.write) (base : Str)
    (hb : ∀ b ∈ base, isCont b = false) (size t0 : U64) (es : List HostEvent) (hs : List Happening) (hm : Forall₂ (Means sn rt.utf8 P) es hs)
    (hp : ProperAnyAll H rt size (Site.fresh size t0) hs) (hlen : sent hs < 2 ^ 64 - 1) (xs : List (Option Response)) (h' : Host)
    (hrun : (Host.fresh size t0).run B H (pbFormats sn rt) P base size es = (xs, h')) :
    xs.length = hs.length ∧
    ∀ (i : Nat) (hi : i < hs.length) (hx : i < xs.length), AnsweredBy B sn rt.utf8 ((Site.fresh size t0).after size (hs.take i)) hs[i] xs[i] := by
  obtain ⟨xs', h'', e1, e2, e3⟩ := (fresh_hostRep B rt size t0).run_any hB H sn hP hb hm hp (by omega)
  rw [e1] at hrun
  simp only [Prod.mk.injEq] at hrun
  obtain ⟨rfl, rfl⟩ := hrun
  exact ⟨e2, e3⟩

/-- C92, what holds for every read: through any history of requests, ticks and restarts, with the samples of a series in any order and any
number of times, a running server answers every read by 200, every label set is in the answer once, and every sample in the answer was sent,
with these labels, in an earlier write request. (Missing: that the samples are those in the range asked for - see C92_violated_late and
C92_violated_range.) -/
theorem C92_partial_answered (B : BinSearch) (hB : Careful B) (H : Hash) (sn : Snappy) (rt : PbRt) (P : Paths) (hP : P.read ≠ P.write) (base : Str)
    (hb : ∀ b ∈ base, isCont b = false) (size t0 : U64) (es : List HostEvent) (hs : List Happening) (hm : Forall₂ (Means sn rt.utf8 P) es hs)
    (hp : ProperAnyAll H rt size (Site.fresh size t0) hs) (hlen : sent hs < 2 ^ 64 - 1) (xs : List (Option Response)) (h' : Host)
    (hrun : (Host.fresh size t0).run B H (pbFormats sn rt) P base size es = (xs, h'))
    (j : Nat) (qs : List PQuery) (hj : hs[j]? = some (.call (.read qs))) (hup : ((Site.fresh size t0).after size (hs.take j)).up = true) :
    ∃ body out, xs[j]? = some (some ⟨200, body⟩) ∧ sn.decompress body = some out ∧
      (out.length < 2 ^ 32 → ∃ rs, (∀ m, IsResponse rt.utf8 m out ↔ m = rs) ∧ rs.length = qs.length ∧
      ∀ r ∈ rs, (r.map (·.labels)).Nodup ∧ ∀ y ∈ r, y.samples ≠ [] ∧ ∀ z ∈ y.samples,
        ∃ i m ser x, i < j ∧ hs[i]? = some (.call (.write m)) ∧ ser ∈ m ∧ x ∈ ser.samples ∧ y.labels = sortLabels ser.labels ∧ z = asReported x.point) := by
  obtain ⟨hlx, hall⟩ := any_history hB H sn rt P hP base hb size t0 es hs hm hp hlen xs h' hrun
  obtain ⟨hj1, hj2⟩ := List.getElem?_eq_some_iff.mp hj
  have aj := hall j hj1 (by omega)
  rw [hj2] at aj
  have hsound := Site.after_sound_any (hp.take j) (fresh_sound size t0)
  have hord : ∀ q ∈ qs, (asU64 q.start_).toNat ≤ (asU64 q.end_).toNat := by
    have : ∀ (hs : List Happening) (s : Site) (j : Nat), ProperAnyAll H rt size s hs → hs[j]? = some (.call (.read qs)) → (s.after size (hs.take j)).up = true →
        ∀ q ∈ qs, (asU64 q.start_).toNat ≤ (asU64 q.end_).toNat := by
      intro hs
      induction hs with
      | nil => intro s j _ h; simp at h
      | cons e es ih =>
        intro s j hp hj hu
        cases j with
        | zero =>
          simp only [List.getElem?_cons_zero, Option.some.injEq] at hj
          subst hj
          exact fun q hq => ((hp.1 hu).2 q hq).2.1
        | succ j => exact ih _ j hp.2 (by simpa using hj) hu
    exact this hs _ j hp hj hup
  have hfrom : ∀ c ∈ ((Site.fresh size t0).after size (hs.take j)).g.all, ∀ w ∈ c.h, ∃ i m ser x, i < j ∧ hs[i]? = some (.call (.write m)) ∧
      ser ∈ m ∧ x ∈ ser.samples ∧ w = (ser.labels, x.point) := by
    intro c hc w hw
    rcases Site.after_from hc hw with ⟨c0, hc0, h1⟩ | ⟨i, m, h1, ser, h2, x, h3, h4⟩
    · simp [Site.fresh, Gens.all, Gens.fresh, Gen.new] at hc0; subst hc0; simp at h1
    · obtain ⟨h5, h6⟩ := List.getElem?_eq_some_iff.mp h1
      rw [List.length_take] at h5
      refine ⟨i, m, ser, x, by omega, ?_, h2, h3, h4⟩
      rw [List.getElem_take] at h6
      exact List.getElem?_eq_some_iff.mpr ⟨by omega, h6⟩
  generalize (Site.fresh size t0).after size (hs.take j) = sj at *
  simp only [AnsweredBy, if_pos hup] at aj
  obtain ⟨body, out, a1, a2, rs, a3, a4⟩ := aj
  refine ⟨body, out, List.getElem?_eq_some_iff.mpr ⟨by omega, a1⟩, a2, fun hl => ⟨rs, a4 hl, a3.length_eq.symm, ?_⟩⟩
  intro r hr
  obtain ⟨q, hq, es', r2, r3⟩ := forall₂_get a3 r hr
  have hab := hord q hq
  constructor
  · rw [r3, List.map_map]; exact r2.once
  · intro y hy
    rw [r3] at hy
    obtain ⟨⟨ls, ps⟩, he, rfl⟩ := List.mem_map.mp hy
    obtain ⟨hne, rfl⟩ := (r2.entries ls ps).mp he
    have held : ∀ s ∈ seriesWith (sj.g.all.map fun c => c.answerBy B (q.matchers.map fun x => ⟨x.name, x.value⟩) (asU64 q.start_) (asU64 q.end_)) ls,
        s.points ≠ [] ∧ ∀ p ∈ s.points, ∃ c ∈ sj.g.all, ∃ w ∈ c.h, w.2 = p ∧ sortLabels w.1 = ls := by
      intro s hs'
      obtain ⟨a, ha, hs''⟩ := List.mem_flatMap.mp hs'
      obtain ⟨c, hc, rfl⟩ := List.mem_map.mp ha
      rw [List.mem_filter, decide_eq_true_eq] at hs''
      obtain ⟨n1, n2⟩ := answerBy_held hB (fun w hw => (hsound c hc w hw).1) hab hs''.1
      refine ⟨n1, fun p hp => ?_⟩
      obtain ⟨w, hw, h1, h2⟩ := n2 p hp
      exact ⟨c, hc, w, hw, h1, h2.trans hs''.2⟩
    constructor
    · obtain ⟨s, hs'⟩ := List.exists_mem_of_ne_nil _ hne
      obtain ⟨p, hp⟩ := List.exists_mem_of_ne_nil _ (held s hs').1
      exact List.ne_nil_of_mem (List.mem_map_of_mem (f := asReported) (List.mem_flatMap.mpr ⟨s, hs', hp⟩))
    · intro z hz
      obtain ⟨p, hpp, rfl⟩ := List.mem_map.mp hz
      obtain ⟨s, hs', hps⟩ := List.mem_flatMap.mp hpp
      obtain ⟨c, hc, w, hw, h1, h2⟩ := (held s hs').2 p hps
      obtain ⟨i, m, ser, x, i1, i2, i3, i4, rfl⟩ := hfrom c hc w hw
      simp only [] at h1 h2
      subst h1
      exact ⟨i, m, ser, x, i1, i2, i3, i4, h2.symm, rfl⟩

/-- C92, what holds for a query from time 0 to a time after everything stored: for every label set stored that has the labels of the query
(at least one), the answer has exactly the samples accepted for it, each as often as it was accepted, in the order of arrival - whatever this
order is. (Missing: in order of time and once; other ranges.) -/
theorem C92_partial_covering (B : BinSearch) (hB : Careful B) (H : Hash) (sn : Snappy) (rt : PbRt) (P : Paths) (hP : P.read ≠ P.write) (base : Str)
    (hb : ∀ b ∈ base, isCont b = false) (size t0 : U64) (es : List HostEvent) (hs : List Happening) (hm : Forall₂ (Means sn rt.utf8 P) es hs)
    (hp : ProperAnyAll H rt size (Site.fresh size t0) hs) (hlen : sent hs < 2 ^ 64 - 1) (xs : List (Option Response)) (h' : Host)
    (hrun : (Host.fresh size t0).run B H (pbFormats sn rt) P base size es = (xs, h'))
    (j : Nat) (qs : List PQuery) (hj : hs[j]? = some (.call (.read qs))) (hup : ((Site.fresh size t0).after size (hs.take j)).up = true)
    (k : Nat) (hk : k < qs.length) (hne : qs[k].matchers ≠ []) (h0 : qs[k].start_ = 0)
    (hcov : ∀ c ∈ ((Site.fresh size t0).after size (hs.take j)).g.all, ∀ w ∈ c.h, w.2.ts.toNat < (asU64 qs[k].end_).toNat) :
    ∃ body out, xs[j]? = some (some ⟨200, body⟩) ∧ sn.decompress body = some out ∧
      (out.length < 2 ^ 32 → ∃ rs r, (∀ m, IsResponse rt.utf8 m out ↔ m = rs) ∧ rs[k]? = some r ∧ (r.map (·.labels)).Nodup ∧
      ∀ c ∈ ((Site.fresh size t0).after size (hs.take j)).g.all, ∀ w ∈ c.h, (∀ y ∈ qs[k].matchers, (⟨y.name, y.value⟩ : Label) ∈ w.1) →
        (⟨sortLabels w.1, (arrived ((Site.fresh size t0).after size (hs.take j)) w.1).map asReported⟩ : PSeries) ∈ r) := by
  obtain ⟨hlx, hall⟩ := any_history hB H sn rt P hP base hb size t0 es hs hm hp hlen xs h' hrun
  obtain ⟨hj1, hj2⟩ := List.getElem?_eq_some_iff.mp hj
  have aj := hall j hj1 (by omega)
  rw [hj2] at aj
  have hsound := Site.after_sound_any (hp.take j) (fresh_sound size t0)
  generalize (Site.fresh size t0).after size (hs.take j) = sj at *
  simp only [AnsweredBy, if_pos hup] at aj
  obtain ⟨body, out, a1, a2, rs, a3, a4⟩ := aj
  refine ⟨body, out, List.getElem?_eq_some_iff.mpr ⟨by omega, a1⟩, a2, fun hl => ?_⟩
  obtain ⟨r, r1, es', r2, r3⟩ := Forall₂.getElem_left a3 k hk
  refine ⟨rs, r, a4 hl, r1, by rw [r3, List.map_map]; exact r2.once, ?_⟩
  rw [h0, show asU64 0 = 0#64 from by decide] at r2
  intro c hc w hw hsub
  have hpts : ∀ c ∈ sj.g.all, (((c.answerBy B (qs[k].matchers.map fun x => ⟨x.name, x.value⟩) 0#64 (asU64 qs[k].end_)).filter
      fun s => decide (s.labels = sortLabels w.1)).flatMap (·.points)) = pointsFor c.h w.1 := fun d hd =>
    answerBy_covering hB (hsound d hd) (by simpa using hne) (hcov d hd) (hsound c hc w hw).1
      (by intro l hl; obtain ⟨z, hz, rfl⟩ := List.mem_map.mp hl; exact hsub z hz)
  have hmp : mergedPoints (sj.g.all.map fun c => c.answerBy B (qs[k].matchers.map fun x => ⟨x.name, x.value⟩) 0#64 (asU64 qs[k].end_)) (sortLabels w.1) =
      arrived sj w.1 := by
    rw [mergedPoints_map]
    unfold arrived
    generalize sj.g.all = l at hpts
    induction l with
    | nil => rfl
    | cons d l ih => rw [List.flatMap_cons, List.flatMap_cons, hpts d (by simp), ih fun x hx => hpts x (by simp [hx])]
  have hw' : w.2 ∈ arrived sj w.1 := by
    unfold arrived pointsFor
    exact List.mem_flatMap.mpr ⟨c, hc, List.mem_map.mpr ⟨w, List.mem_filter.mpr ⟨hw, by simp⟩, rfl⟩⟩
  have hsw : seriesWith (sj.g.all.map fun c => c.answerBy B (qs[k].matchers.map fun x => ⟨x.name, x.value⟩) 0#64 (asU64 qs[k].end_)) (sortLabels w.1) ≠ [] := by
    intro h
    rw [← hmp] at hw'
    unfold mergedPoints at hw'
    rw [h] at hw'
    simp at hw'
  have hent := (r2.entries (sortLabels w.1) _).mpr ⟨hsw, rfl⟩
  rw [hmp] at hent
  rw [r3]
  exact List.mem_map.mpr ⟨_, hent, rfl⟩

/-- C92, durability in any order: a sample of a write answered by 200, strictly inside the window that was current, is in every later answer to a
query from time 0 to a time after everything stored by some of its labels, however late it came, whatever came before or after it, and
whatever happened in between. -/
theorem C92_partial_durable (B : BinSearch) (hB : Careful B) (H : Hash) (sn : Snappy) (rt : PbRt) (P : Paths) (hP : P.read ≠ P.write) (base : Str)
    (hb : ∀ b ∈ base, isCont b = false) (size t0 : U64) (es : List HostEvent) (hs : List Happening) (hm : Forall₂ (Means sn rt.utf8 P) es hs)
    (hp : ProperAnyAll H rt size (Site.fresh size t0) hs) (hlen : sent hs < 2 ^ 64 - 1) (xs : List (Option Response)) (h' : Host)
    (hrun : (Host.fresh size t0).run B H (pbFormats sn rt) P base size es = (xs, h'))
    (i j : Nat) (hij : i < j) (m : List PSeries) (hi : hs[i]? = some (.call (.write m))) (hack : xs[i]? = some (some ⟨200, []⟩))
    (ser : PSeries) (hser : ser ∈ m) (x : Sample) (hx : x ∈ ser.samples)
    (hin : inside ((Site.fresh size t0).after size (hs.take i)).g.cur.lo ((Site.fresh size t0).after size (hs.take i)).g.cur.hi x.point = true)
    (qs : List PQuery) (hj : hs[j]? = some (.call (.read qs))) (hup : ((Site.fresh size t0).after size (hs.take j)).up = true)
    (k : Nat) (hk : k < qs.length) (hne : qs[k].matchers ≠ []) (hsub : ∀ y ∈ qs[k].matchers, (⟨y.name, y.value⟩ : Label) ∈ ser.labels)
    (h0 : qs[k].start_ = 0)
    (hcov : ∀ c ∈ ((Site.fresh size t0).after size (hs.take j)).g.all, ∀ w ∈ c.h, w.2.ts.toNat < (asU64 qs[k].end_).toNat) :
    ∃ body out, xs[j]? = some (some ⟨200, body⟩) ∧ sn.decompress body = some out ∧
      (out.length < 2 ^ 32 → ∃ rs r, (∀ m, IsResponse rt.utf8 m out ↔ m = rs) ∧ rs[k]? = some r ∧
      ∃ y ∈ r, y.labels = sortLabels ser.labels ∧ asReported x.point ∈ y.samples) := by
  obtain ⟨body, out, c1, c2, c3⟩ := C92_partial_covering B hB H sn rt P hP base hb size t0 es hs hm hp hlen xs h' hrun j qs hj hup k hk hne h0 hcov
  obtain ⟨hlx, hall⟩ := any_history hB H sn rt P hP base hb size t0 es hs hm hp hlen xs h' hrun
  obtain ⟨hi1, hi2⟩ := List.getElem?_eq_some_iff.mp hi
  obtain ⟨hj1, hj2⟩ := List.getElem?_eq_some_iff.mp hj
  have ai := hall i hi1 (by omega)
  have exi : xs[i] = some ⟨200, []⟩ := (List.getElem?_eq_some_iff.mp hack).2
  rw [hi2, exi] at ai
  have ai : Answered sn rt.utf8 ((Site.fresh size t0).after size (hs.take i)) (.call (.write m)) (some ⟨200, []⟩) := ai
  generalize hsi : (Site.fresh size t0).after size (hs.take i) = si at *
  generalize hsj : (Site.fresh size t0).after size (hs.take j) = sj at *
  have hui : si.up = true := by
    by_contra hu
    simp only [Answered, if_neg hu] at ai
    cases ai
  simp only [Answered, if_pos hui, Option.some.injEq, Response.mk.injEq, and_true] at ai
  have hno : ∀ s ∈ m, ¬ Refused si.g.cur s := by
    intro s hs hr
    rw [if_pos ⟨s, hs, hr⟩] at ai
    omega
  have hst : ∃ c ∈ (si.next size (.call (.write m))).g.all, (ser.labels, x.point) ∈ c.h := by
    simp only [Site.next, if_pos hui]
    refine ⟨_, List.mem_append_right _ (List.mem_singleton_self _), List.mem_append_right _ ?_⟩
    rw [takeUntil_all hno]
    exact newPoints_mem.mpr ⟨ser, hser, x, hx, rfl, hin⟩
  have hsplit : sj = (si.next size (.call (.write m))).after size ((hs.take j).drop (i + 1)) := by
    rw [← hsj, ← hsi]
    have e1 : hs.take j = hs.take i ++ (.call (.write m) :: (hs.take j).drop (i + 1)) := by
      have : hs.take i = (hs.take j).take i := by rw [List.take_take]; congr 1; omega
      rw [this]
      have hij' : i < (hs.take j).length := by rw [List.length_take]; omega
      have e : (hs.take j)[i] = .call (.write m) := by rw [List.getElem_take]; exact hi2
      rw [← e, List.getElem_cons_drop, List.take_append_drop]
    conv_lhs => rw [e1]
    rw [Site.after_append]
    rfl
  obtain ⟨c, hc, hw⟩ := Site.after_keeps (size := size) (hs := (hs.take j).drop (i + 1)) hst
  rw [← hsplit] at hc
  refine ⟨body, out, c1, c2, fun hl => ?_⟩
  obtain ⟨rs, r, r1, r2, -, r3⟩ := c3 hl
  refine ⟨rs, r, r1, r2, _, r3 c hc _ hw hsub, rfl, List.mem_map_of_mem ?_⟩
  unfold arrived pointsFor
  exact List.mem_flatMap.mpr ⟨c, hc, List.mem_map.mpr ⟨(ser.labels, x.point), List.mem_filter.mpr ⟨hw, by simp⟩, rfl⟩⟩

/-! ### What does not hold -/

/-- Samples of the series `{a="1", b="2"}` at these times. -/
def unSer (ts : List Int) : PSeries := ⟨[lbl "a" "1", lbl "b" "2"], ts.map fun t => ⟨0x3ff0000000000000#64, t⟩⟩
/-- Everything with `a=1` in a range. -/
def unAsk (a b : Int) : PQuery := ⟨a, b, [⟨.eq, (lbl "a" "1").key, (lbl "a" "1").value⟩]⟩
/-- One write request for each list of times, and a read. -/
def unEvents (ws : List (List Int)) (a b : Int) : List HostEvent :=
  (ws.map fun ts => .request ⟨[119#8], some (encWrite [unSer ts])⟩) ++ [.request ⟨[114#8], some (encRead [unAsk a b])⟩]
/-- What they say. -/
def unHappenings (ws : List (List Int)) (a b : Int) : List Happening :=
  (ws.map fun ts => .call (.write [unSer ts])) ++ [.call (.read [unAsk a b])]
/-- The responses of a server started at 100 with chunks of 1000. -/
def unRun (ws : List (List Int)) (a b : Int) : List (Option Response) :=
  ((Host.fresh 1000#64 100#64).run stdBinSearch idealHash (pbFormats exSnappy exRt) ⟨[114#8], [119#8]⟩ [100#8] 1000#64 (unEvents ws a b)).1
/-- The body of a response with these samples. -/
def unBody (ts : List Int) : Str := (pbFormats exSnappy exRt).respond [if ts = [] then [] else [unSer ts]]

/-- What such a body says. -/
theorem unBody_reads (ts : List Int) (h : ∀ t ∈ ts, I64 t) (hb : (encResponse [if ts = [] then [] else [unSer ts]]).length < 2 ^ 32) :
    ∃ out, exSnappy.decompress (unBody ts) = some out ∧ ∀ m, IsResponse exRt.utf8 m out ↔ m = [if ts = [] then [] else [unSer ts]] := by
  obtain ⟨out, h1, h2⟩ := C60_response_partial exSnappy exRt [if ts = [] then [] else [unSer ts]] (by
    intro r hr s hs
    simp only [List.mem_singleton] at hr; subst hr
    split at hs
    · simp at hs
    · simp only [List.mem_singleton] at hs; subst hs
      refine ⟨fun _ _ => ⟨rfl, rfl⟩, ?_⟩
      intro x hx
      obtain ⟨t, ht, rfl⟩ := List.mem_map.mp hx
      exact h t ht) hb
  refine ⟨out, h1, fun m => (h2 m).trans ?_⟩
  have : (unSer ts) = wireSeries (unSer ts) := by
    unfold wireSeries unSer
    simp only [List.map_map, PSeries.mk.injEq, true_and]
    apply List.map_congr_left
    intro t _
    rfl
  split
  · rfl
  · simp only [List.map_cons, List.map_nil, ← this]

/-- C92 is false: a write request that is sent twice (its first answer was lost, say) is answered by 200 twice, and the sample is reported
twice. -/
theorem C92_violated_twice : unRun [[200], [200]] 0 10000 = [some ⟨200, []⟩, some ⟨200, []⟩, some ⟨200, unBody [200, 200]⟩] ∧
    ∃ out, exSnappy.decompress (unBody [200, 200]) = some out ∧ ∀ m, IsResponse exRt.utf8 m out ↔ m = [[unSer [200, 200]]] :=
  ⟨by decide +kernel, unBody_reads _ (by unfold I64; decide) (by decide +kernel)⟩

/-- C92 is false: a sample that comes late (300 after 400) is accepted and not reported when asked for. -/
theorem C92_violated_late : unRun [[200], [400], [300]] 250 350 = [some ⟨200, []⟩, some ⟨200, []⟩, some ⟨200, []⟩, some ⟨200, unBody []⟩] ∧
    ∃ out, exSnappy.decompress (unBody []) = some out ∧ ∀ m, IsResponse exRt.utf8 m out ↔ m = [[]] :=
  ⟨by decide +kernel, unBody_reads _ (by unfold I64; decide) (by decide +kernel)⟩

/-- C92 is false: a sample that came in time (400) and is reported when asked for is not reported any more after a late one (300). -/
theorem C92_violated_hides : unRun [[400]] 350 450 = [some ⟨200, []⟩, some ⟨200, unBody [400]⟩] ∧
    unRun [[400], [300]] 350 450 = [some ⟨200, []⟩, some ⟨200, []⟩, some ⟨200, unBody []⟩] ∧
    (∃ out, exSnappy.decompress (unBody [400]) = some out ∧ ∀ m, IsResponse exRt.utf8 m out ↔ m = [[unSer [400]]]) ∧
    ∃ out, exSnappy.decompress (unBody []) = some out ∧ ∀ m, IsResponse exRt.utf8 m out ↔ m = [[]] :=
  ⟨by decide +kernel, by decide +kernel, unBody_reads _ (by unfold I64; decide) (by decide +kernel), unBody_reads _ (by unfold I64; decide) (by decide +kernel)⟩

/-- C92 is false: after late samples an answer may have samples outside the range asked for, not in order of time. -/
theorem C92_violated_range : unRun [[200], [600], [300, 310, 320]] 250 305 =
      [some ⟨200, []⟩, some ⟨200, []⟩, some ⟨200, []⟩, some ⟨200, unBody [600, 300]⟩] ∧
    ∃ out, exSnappy.decompress (unBody [600, 300]) = some out ∧ ∀ m, IsResponse exRt.utf8 m out ↔ m = [[unSer [600, 300]]] :=
  ⟨by decide +kernel, unBody_reads _ (by unfold I64; decide) (by decide +kernel)⟩

/-- The server on a database whose current chunk uses TiKV for both components (src/db.rs:176-267, src/backend/tikv.rs), without swap. -/
def tikvDb (B : BinSearch) (H : Hash) (ipre spre : Str) : DbApi (Chunk KV) where
  query c q a b := dbQuery H (c.view (tikvComp B ipre spre)) [] q a b
  write c ls ps := writeTimePoints (tikvComp B ipre spre) c ls ps

/-- C92 is false on TiKV storage: the late sample is acknowledged and thrown away; a query for everything does not find it. -/
theorem C92_violated_tikv : (serve (tikvDb stdBinSearch idealHash (List.replicate 32 1#8) (List.replicate 32 2#8)) (pbFormats exSnappy exRt) ⟨[114#8], [119#8]⟩
      (Chunk.new KV.empty 100#64 1100#64) [⟨[119#8], some (encWrite [unSer [400]])⟩, ⟨[119#8], some (encWrite [unSer [300]])⟩,
        ⟨[114#8], some (encRead [unAsk 0 10000])⟩]).1 = [some ⟨200, []⟩, some ⟨200, []⟩, some ⟨200, unBody [400]⟩] ∧
    ∃ out, exSnappy.decompress (unBody [400]) = some out ∧ ∀ m, IsResponse exRt.utf8 m out ↔ m = [[unSer [400]]] :=
  ⟨by decide +kernel, unBody_reads _ (by unfold I64; decide) (by decide +kernel)⟩

/-! ### The hypotheses of the theorems hold: a late and a repeated sample, a restart in between -/

/-- 200, 400, the late 300 and 400 again, a restart, a read. -/
def unStory : List HostEvent :=
  [.request ⟨[119#8], some (encWrite [unSer [200, 400]])⟩, .request ⟨[119#8], some (encWrite [unSer [300, 400]])⟩, .restart id (fun _ => 5000#64) 5000#64,
    .request ⟨[114#8], some (encRead [unAsk 0 10000])⟩]
def unSaid : List Happening :=
  [.call (.write [unSer [200, 400]]), .call (.write [unSer [300, 400]]), .restart id (fun _ => 5000#64) 5000#64, .call (.read [unAsk 0 10000])]

theorem unWrite_says (ts : List Int) (h : ∀ t ∈ ts, I64 t) (hb : (encWrite [unSer ts]).length < 2 ^ 32) : IsWrite exRt.utf8 [unSer ts] (encWrite [unSer ts]) := by
  have := encWrite_is (utf8 := exRt.utf8) (m := [unSer ts]) (by
    intro s hs
    simp only [List.mem_singleton] at hs; subst hs
    refine ⟨fun _ _ => ⟨rfl, rfl⟩, ?_⟩
    intro x hx
    obtain ⟨t, ht, rfl⟩ := List.mem_map.mp hx
    exact h t ht) hb
  have e : [unSer ts].map wireSeries = [unSer ts] := by
    have : (unSer ts) = wireSeries (unSer ts) := by
      unfold wireSeries unSer
      simp only [List.map_map, PSeries.mk.injEq, true_and]
      apply List.map_congr_left
      intro t _
      rfl
    rw [List.map_singleton, ← this]
  rwa [e] at this

theorem unRead_says : IsRead exRt.utf8 [unAsk 0 10000] (encRead [unAsk 0 10000]) :=
  encRead_is (by
    intro q hq
    simp only [List.mem_singleton] at hq; subst hq
    exact ⟨⟨by decide, by decide⟩, ⟨by decide, by decide⟩, fun _ _ => ⟨rfl, rfl⟩⟩) (by decide +kernel)

theorem unStory_means : Forall₂ (Means exSnappy exRt.utf8 ⟨[114#8], [119#8]⟩) unStory unSaid :=
  .cons ⟨rfl, _, _, rfl, rfl, unWrite_says _ (by unfold I64; decide) (by decide +kernel)⟩
    (.cons ⟨rfl, _, _, rfl, rfl, unWrite_says _ (by unfold I64; decide) (by decide +kernel)⟩ (.cons ⟨rfl, rfl, rfl⟩ (.cons ⟨rfl, _, _, rfl, rfl, unRead_says⟩ .nil)))

theorem unStory_proper : ProperAnyAll idealHash exRt 1000#64 (Site.fresh 1000#64 100#64) unSaid := by
  have hwf : ∀ ts, ∀ ser ∈ [unSer ts], WFSet ser.labels := by
    intro ts s hs; simp only [List.mem_singleton] at hs; subst hs; exact wfSet_of (show wfSetB [lbl "a" "1", lbl "b" "2"] = true by decide +kernel)
  refine ⟨fun _ => hwf _, fun _ => hwf _, ⟨fun _ => List.Perm.refl _, by decide +kernel, by decide +kernel⟩, fun _ => ⟨by simp, ?_⟩, True.intro⟩
  intro q hq
  simp only [List.mem_singleton] at hq; subst hq
  exact ⟨by intro x hx; simp only [unAsk, List.mem_singleton] at hx; subst hx; exact wfLabel_of (by decide +kernel), by decide, idealHash_good _⟩

-- the answer after the restart has all four samples, in the order of arrival
example (xs : List (Option Response)) (h' : Host) (hrun : (Host.fresh 1000#64 100#64).run stdBinSearch idealHash (pbFormats exSnappy exRt) ⟨[114#8], [119#8]⟩ [100#8] 1000#64
      unStory = (xs, h')) :
    ∃ body out, xs[3]? = some (some ⟨200, body⟩) ∧ exSnappy.decompress body = some out ∧ (out.length < 2 ^ 32 → ∃ rs r, (∀ m, IsResponse exRt.utf8 m out ↔ m = rs) ∧
      rs[0]? = some r ∧ unSer [200, 400, 300, 400] ∈ r) := by
  obtain ⟨body, out, h1, h2, h3⟩ := C92_partial_covering stdBinSearch stdBinSearch_careful idealHash exSnappy exRt ⟨[114#8], [119#8]⟩ (by decide) [100#8] (by decide) 1000#64 100#64
    unStory unSaid unStory_means unStory_proper (by decide +kernel) xs h' hrun 3 [unAsk 0 10000] rfl (by decide +kernel) 0 (by decide) (by simp [unAsk]) rfl (by decide +kernel)
  refine ⟨body, out, h1, h2, fun hl => ?_⟩
  obtain ⟨rs, r, r1, r2, -, r3⟩ := h3 hl
  refine ⟨rs, r, r1, r2, ?_⟩
  have hmem : ∃ c ∈ ((Site.fresh 1000#64 100#64).after 1000#64 (unSaid.take 3)).g.all, ∃ w ∈ c.h, w.1 = [lbl "a" "1", lbl "b" "2"] := by decide +kernel
  obtain ⟨c, hc, w, hw, e⟩ := hmem
  have := r3 c hc w hw (by rw [e]; decide +kernel)
  rw [e] at this
  have e2 : (⟨sortLabels [lbl "a" "1", lbl "b" "2"], (arrived ((Site.fresh 1000#64 100#64).after 1000#64 (unSaid.take 3)) [lbl "a" "1", lbl "b" "2"]).map asReported⟩ : PSeries) =
    unSer [200, 400, 300, 400] := by decide +kernel
  rwa [e2] at this

-- C92_partial_durable applies to the late sample, C92_partial_answered to the read
example (xs : List (Option Response)) (h' : Host) (hrun : (Host.fresh 1000#64 100#64).run stdBinSearch idealHash (pbFormats exSnappy exRt) ⟨[114#8], [119#8]⟩ [100#8] 1000#64
      unStory = (xs, h')) (hack : xs[1]? = some (some ⟨200, []⟩)) :=
  And.intro (C92_partial_durable stdBinSearch stdBinSearch_careful idealHash exSnappy exRt ⟨[114#8], [119#8]⟩ (by decide) [100#8] (by decide) 1000#64 100#64
    unStory unSaid unStory_means unStory_proper (by decide +kernel) xs h' hrun 1 3 (by decide) [unSer [300, 400]] rfl hack (unSer [300, 400]) (by simp)
    ⟨0x3ff0000000000000#64, 300⟩ (by simp [unSer]) (by decide +kernel) [unAsk 0 10000] rfl (by decide +kernel) 0 (by decide) (by simp [unAsk]) (by decide +kernel) rfl
    (by decide +kernel))
  (C92_partial_answered stdBinSearch stdBinSearch_careful idealHash exSnappy exRt ⟨[114#8], [119#8]⟩ (by decide) [100#8] (by decide) 1000#64 100#64
    unStory unSaid unStory_means unStory_proper (by decide +kernel) xs h' hrun 3 [unAsk 0 10000] rfl (by decide +kernel))

-- and the late write is answered by 200
example : ((Host.fresh 1000#64 100#64).run stdBinSearch idealHash (pbFormats exSnappy exRt) ⟨[114#8], [119#8]⟩ [100#8] 1000#64 unStory).1[1]? = some (some ⟨200, []⟩) := by
  decide +kernel

end Verif
