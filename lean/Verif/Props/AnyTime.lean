import Verif.Lemmas.AnyTime
import Verif.Props.Unordered
import Verif.Lemmas.Conjunction
/-! Property C101: nothing accepted is lost, whatever the order of samples and whatever the clock does. -/
namespace Verif
open List

theorem anytime_history {B : BinSearch} (hB : Careful B) (H : Hash) (sn : Snappy) (rt : PbRt) (P : Paths) (hP : P.read ≠ P.write) (base : Str)
    (hb : ∀ b ∈ base, isCont b = false) (size t0 : U64) (es : List HostEvent) (hs : List Happening) (hm : Forall₂ (Means sn rt.utf8 P) es hs)
    (hp : AnyTimeAll H rt size (Site.fresh size t0) hs) (hlen : sent hs < 2 ^ 64 - 1) (xs : List (Option Response)) (h' : Host)
    (hrun : (Host.fresh size t0).run B H (pbFormats sn rt) P base size es = (xs, h')) :
    xs.length = hs.length ∧
    ∀ (i : Nat) (hi : i < hs.length) (hx : i < xs.length), AnsweredBy B sn rt.utf8 ((Site.fresh size t0).went size (hs.take i)) hs[i] xs[i] := by
  obtain ⟨xs', h'', e1, e2, e3⟩ := (fresh_hostLoose B rt size t0).run_any hB H sn hP hb hm hp (by omega)
  rw [e1] at hrun
  simp only [Prod.mk.injEq] at hrun
  obtain ⟨rfl, rfl⟩ := hrun
  exact ⟨e2, e3⟩

theorem anytime_answered (B : BinSearch) (hB : Careful B) (H : Hash) (sn : Snappy) (rt : PbRt) (P : Paths) (hP : P.read ≠ P.write) (base : Str)
    (hb : ∀ b ∈ base, isCont b = false) (size t0 : U64) (es : List HostEvent) (hs : List Happening) (hm : Forall₂ (Means sn rt.utf8 P) es hs)
    (hp : AnyTimeAll H rt size (Site.fresh size t0) hs) (hlen : sent hs < 2 ^ 64 - 1) (xs : List (Option Response)) (h' : Host)
    (hrun : (Host.fresh size t0).run B H (pbFormats sn rt) P base size es = (xs, h'))
    (j : Nat) (qs : List PQuery) (hj : hs[j]? = some (.call (.read qs))) (hup : ((Site.fresh size t0).went size (hs.take j)).up = true) :
    ∃ body out, xs[j]? = some (some ⟨200, body⟩) ∧ sn.decompress body = some out ∧
      (out.length < 2 ^ 32 → ∃ rs, (∀ m, IsResponse rt.utf8 m out ↔ m = rs) ∧ rs.length = qs.length ∧
      ∀ r ∈ rs, (r.map (·.labels)).Nodup ∧ ∀ y ∈ r, y.samples ≠ [] ∧ ∀ z ∈ y.samples,
        ∃ i m ser x, i < j ∧ hs[i]? = some (.call (.write m)) ∧ ser ∈ m ∧ x ∈ ser.samples ∧ y.labels = sortLabels ser.labels ∧ z = asReported x.point) := by
  obtain ⟨hlx, hall⟩ := anytime_history hB H sn rt P hP base hb size t0 es hs hm hp hlen xs h' hrun
  obtain ⟨hj1, hj2⟩ := List.getElem?_eq_some_iff.mp hj
  have aj := hall j hj1 (by omega)
  rw [hj2] at aj
  have hsound := Site.went_sound_any (hp.take j) (fresh_sound size t0)
  have hord : ∀ q ∈ qs, (asU64 q.start_).toNat ≤ (asU64 q.end_).toNat := by
    have : ∀ (hs : List Happening) (s : Site) (j : Nat), AnyTimeAll H rt size s hs → hs[j]? = some (.call (.read qs)) → (s.went size (hs.take j)).up = true →
        ∀ q ∈ qs, (asU64 q.start_).toNat ≤ (asU64 q.end_).toNat := by
      intro hs
      induction hs with
      | nil => intro s j _ h; simp at h
      | cons e es ih =>
        intro s j hp hj hu
        cases j with
        | zero =>
          simp only [List.getElem?_cons_zero, Option.some.injEq] at hj
          subst hj
          exact fun q hq => ((hp.1 hu).2 q hq).2.1
        | succ j => exact ih _ j hp.2 (by simpa using hj) hu
    exact this hs _ j hp hj hup
  have hfrom : ∀ c ∈ ((Site.fresh size t0).went size (hs.take j)).g.all, ∀ w ∈ c.h, ∃ i m ser x, i < j ∧ hs[i]? = some (.call (.write m)) ∧
      ser ∈ m ∧ x ∈ ser.samples ∧ w = (ser.labels, x.point) := by
    intro c hc w hw
    rcases Site.went_from hc hw with ⟨c0, hc0, h1⟩ | ⟨i, m, h1, ser, h2, x, h3, h4⟩
    · simp [Site.fresh, Gens.all, Gens.fresh, Gen.new] at hc0; subst hc0; simp at h1
    · obtain ⟨h5, h6⟩ := List.getElem?_eq_some_iff.mp h1
      rw [List.length_take] at h5
      refine ⟨i, m, ser, x, by omega, ?_, h2, h3, h4⟩
      rw [List.getElem_take] at h6
      exact List.getElem?_eq_some_iff.mpr ⟨by omega, h6⟩
  generalize (Site.fresh size t0).went size (hs.take j) = sj at *
  simp only [AnsweredBy, if_pos hup] at aj
  obtain ⟨body, out, a1, a2, rs, a3, a4⟩ := aj
  refine ⟨body, out, List.getElem?_eq_some_iff.mpr ⟨by omega, a1⟩, a2, fun hl => ⟨rs, a4 hl, a3.length_eq.symm, ?_⟩⟩
  intro r hr
  obtain ⟨q, hq, es', r2, r3⟩ := forall₂_get a3 r hr
  have hab := hord q hq
  constructor
  · rw [r3, List.map_map]; exact r2.once
  · intro y hy
    rw [r3] at hy
    obtain ⟨⟨ls, ps⟩, he, rfl⟩ := List.mem_map.mp hy
    obtain ⟨hne, rfl⟩ := (r2.entries ls ps).mp he
    have held : ∀ s ∈ seriesWith (sj.g.all.map fun c => c.answerBy B (q.matchers.map fun x => ⟨x.name, x.value⟩) (asU64 q.start_) (asU64 q.end_)) ls,
        s.points ≠ [] ∧ ∀ p ∈ s.points, ∃ c ∈ sj.g.all, ∃ w ∈ c.h, w.2 = p ∧ sortLabels w.1 = ls := by
      intro s hs'
      obtain ⟨a, ha, hs''⟩ := List.mem_flatMap.mp hs'
      obtain ⟨c, hc, rfl⟩ := List.mem_map.mp ha
      rw [List.mem_filter, decide_eq_true_eq] at hs''
      obtain ⟨n1, n2⟩ := answerBy_held hB (fun w hw => (hsound c hc w hw).1) hab hs''.1
      refine ⟨n1, fun p hp => ?_⟩
      obtain ⟨w, hw, h1, h2⟩ := n2 p hp
      exact ⟨c, hc, w, hw, h1, h2.trans hs''.2⟩
    constructor
    · obtain ⟨s, hs'⟩ := List.exists_mem_of_ne_nil _ hne
      obtain ⟨p, hp⟩ := List.exists_mem_of_ne_nil _ (held s hs').1
      exact List.ne_nil_of_mem (List.mem_map_of_mem (f := asReported) (List.mem_flatMap.mpr ⟨s, hs', hp⟩))
    · intro z hz
      obtain ⟨p, hpp, rfl⟩ := List.mem_map.mp hz
      obtain ⟨s, hs', hps⟩ := List.mem_flatMap.mp hpp
      obtain ⟨c, hc, w, hw, h1, h2⟩ := (held s hs').2 p hps
      obtain ⟨i, m, ser, x, i1, i2, i3, i4, rfl⟩ := hfrom c hc w hw
      simp only [] at h1 h2
      subst h1
      exact ⟨i, m, ser, x, i1, i2, i3, i4, h2.symm, rfl⟩

theorem anytime_covering (B : BinSearch) (hB : Careful B) (H : Hash) (sn : Snappy) (rt : PbRt) (P : Paths) (hP : P.read ≠ P.write) (base : Str)
    (hb : ∀ b ∈ base, isCont b = false) (size t0 : U64) (es : List HostEvent) (hs : List Happening) (hm : Forall₂ (Means sn rt.utf8 P) es hs)
    (hp : AnyTimeAll H rt size (Site.fresh size t0) hs) (hlen : sent hs < 2 ^ 64 - 1) (xs : List (Option Response)) (h' : Host)
    (hrun : (Host.fresh size t0).run B H (pbFormats sn rt) P base size es = (xs, h'))
    (j : Nat) (qs : List PQuery) (hj : hs[j]? = some (.call (.read qs))) (hup : ((Site.fresh size t0).went size (hs.take j)).up = true)
    (k : Nat) (hk : k < qs.length) (hne : qs[k].matchers ≠ []) (h0 : qs[k].start_ = 0)
    (hcov : ∀ c ∈ ((Site.fresh size t0).went size (hs.take j)).g.all, ∀ w ∈ c.h, w.2.ts.toNat < (asU64 qs[k].end_).toNat) :
    ∃ body out, xs[j]? = some (some ⟨200, body⟩) ∧ sn.decompress body = some out ∧
      (out.length < 2 ^ 32 → ∃ rs r, (∀ m, IsResponse rt.utf8 m out ↔ m = rs) ∧ rs[k]? = some r ∧ (r.map (·.labels)).Nodup ∧
      ∀ c ∈ ((Site.fresh size t0).went size (hs.take j)).g.all, ∀ w ∈ c.h, (∀ y ∈ qs[k].matchers, (⟨y.name, y.value⟩ : Label) ∈ w.1) →
        (⟨sortLabels w.1, (arrived ((Site.fresh size t0).went size (hs.take j)) w.1).map asReported⟩ : PSeries) ∈ r) := by
  obtain ⟨hlx, hall⟩ := anytime_history hB H sn rt P hP base hb size t0 es hs hm hp hlen xs h' hrun
  obtain ⟨hj1, hj2⟩ := List.getElem?_eq_some_iff.mp hj
  have aj := hall j hj1 (by omega)
  rw [hj2] at aj
  have hsound := Site.went_sound_any (hp.take j) (fresh_sound size t0)
  generalize (Site.fresh size t0).went size (hs.take j) = sj at *
  simp only [AnsweredBy, if_pos hup] at aj
  obtain ⟨body, out, a1, a2, rs, a3, a4⟩ := aj
  refine ⟨body, out, List.getElem?_eq_some_iff.mpr ⟨by omega, a1⟩, a2, fun hl => ?_⟩
  obtain ⟨r, r1, es', r2, r3⟩ := Forall₂.getElem_left a3 k hk
  refine ⟨rs, r, a4 hl, r1, by rw [r3, List.map_map]; exact r2.once, ?_⟩
  rw [h0, show asU64 0 = 0#64 from by decide] at r2
  intro c hc w hw hsub
  have hpts : ∀ c ∈ sj.g.all, (((c.answerBy B (qs[k].matchers.map fun x => ⟨x.name, x.value⟩) 0#64 (asU64 qs[k].end_)).filter
      fun s => decide (s.labels = sortLabels w.1)).flatMap (·.points)) = pointsFor c.h w.1 := fun d hd =>
    answerBy_covering hB (hsound d hd) (by simpa using hne) (hcov d hd) (hsound c hc w hw).1
      (by intro l hl; obtain ⟨z, hz, rfl⟩ := List.mem_map.mp hl; exact hsub z hz)
  have hmp : mergedPoints (sj.g.all.map fun c => c.answerBy B (qs[k].matchers.map fun x => ⟨x.name, x.value⟩) 0#64 (asU64 qs[k].end_)) (sortLabels w.1) =
      arrived sj w.1 := by
    rw [mergedPoints_map]
    unfold arrived
    generalize sj.g.all = l at hpts
    induction l with
    | nil => rfl
    | cons d l ih => rw [List.flatMap_cons, List.flatMap_cons, hpts d (by simp), ih fun x hx => hpts x (by simp [hx])]
  have hw' : w.2 ∈ arrived sj w.1 := by
    unfold arrived pointsFor
    exact List.mem_flatMap.mpr ⟨c, hc, List.mem_map.mpr ⟨w, List.mem_filter.mpr ⟨hw, by simp⟩, rfl⟩⟩
  have hsw : seriesWith (sj.g.all.map fun c => c.answerBy B (qs[k].matchers.map fun x => ⟨x.name, x.value⟩) 0#64 (asU64 qs[k].end_)) (sortLabels w.1) ≠ [] := by
    intro h
    rw [← hmp] at hw'
    unfold mergedPoints at hw'
    rw [h] at hw'
    simp at hw'
  have hent := (r2.entries (sortLabels w.1) _).mpr ⟨hsw, rfl⟩
  rw [hmp] at hent
  rw [r3]
  exact List.mem_map.mpr ⟨_, hent, rfl⟩

/-- C101, honesty: whatever the order of the samples and whatever the clock, a running server answers every read (with range not inverted) by 200,
every label set is in the answer once, and every sample in the answer was sent, with these labels, in an earlier write request. -/
theorem C101_honest (B : BinSearch) (hB : Careful B) (H : Hash) (sn : Snappy) (rt : PbRt) (P : Paths) (hP : P.read ≠ P.write) (base : Str)
    (hb : ∀ b ∈ base, isCont b = false) (size t0 : U64) (es : List HostEvent) (hs : List Happening) (hm : Forall₂ (Means sn rt.utf8 P) es hs)
    (hp : AnyTimeAll H rt size (Site.fresh size t0) hs) (hlen : sent hs < 2 ^ 64 - 1) (xs : List (Option Response)) (h' : Host)
    (hrun : (Host.fresh size t0).run B H (pbFormats sn rt) P base size es = (xs, h'))
    (j : Nat) (qs : List PQuery) (hj : hs[j]? = some (.call (.read qs))) (hup : ((Site.fresh size t0).went size (hs.take j)).up = true) :
    ∃ body out, xs[j]? = some (some ⟨200, body⟩) ∧ sn.decompress body = some out ∧
      (out.length < 2 ^ 32 → ∃ rs, (∀ m, IsResponse rt.utf8 m out ↔ m = rs) ∧ rs.length = qs.length ∧
      ∀ r ∈ rs, (r.map (·.labels)).Nodup ∧ ∀ y ∈ r, y.samples ≠ [] ∧ ∀ z ∈ y.samples,
        ∃ i m ser x, i < j ∧ hs[i]? = some (.call (.write m)) ∧ ser ∈ m ∧ x ∈ ser.samples ∧ y.labels = sortLabels ser.labels ∧ z = asReported x.point) :=
  anytime_answered B hB H sn rt P hP base hb size t0 es hs hm hp hlen xs h' hrun j qs hj hup

/-- C101, the exact answer: from a server started in an empty directory, through any sequence of requests, ticks of the swap timer and restarts, the
samples of a series coming in any order and any number of times, and the clock reading anything at each tick and restart (only not the start of
an older chunk's window to the millisecond): for every accepted label set that has the labels of the query (at least one), a query from time 0 to
a time after everything accepted reports exactly the samples accepted for it, each as often as it was accepted. -/
theorem C101_exact (B : BinSearch) (hB : Careful B) (H : Hash) (sn : Snappy) (rt : PbRt) (P : Paths) (hP : P.read ≠ P.write) (base : Str)
    (hb : ∀ b ∈ base, isCont b = false) (size t0 : U64) (es : List HostEvent) (hs : List Happening) (hm : Forall₂ (Means sn rt.utf8 P) es hs)
    (hp : AnyTimeAll H rt size (Site.fresh size t0) hs) (hlen : sent hs < 2 ^ 64 - 1) (xs : List (Option Response)) (h' : Host)
    (hrun : (Host.fresh size t0).run B H (pbFormats sn rt) P base size es = (xs, h'))
    (j : Nat) (qs : List PQuery) (hj : hs[j]? = some (.call (.read qs))) (hup : ((Site.fresh size t0).went size (hs.take j)).up = true)
    (k : Nat) (hk : k < qs.length) (hne : qs[k].matchers ≠ []) (h0 : qs[k].start_ = 0)
    (hcov : ∀ w ∈ (Site.fresh size t0).accepts size (hs.take j), w.2.ts.toNat < (asU64 qs[k].end_).toNat) :
    ∃ body out, xs[j]? = some (some ⟨200, body⟩) ∧ sn.decompress body = some out ∧
      (out.length < 2 ^ 32 → ∃ rs r, (∀ m, IsResponse rt.utf8 m out ↔ m = rs) ∧ rs[k]? = some r ∧ (r.map (·.labels)).Nodup ∧
      ∀ w ∈ (Site.fresh size t0).accepts size (hs.take j), (∀ y ∈ qs[k].matchers, (⟨y.name, y.value⟩ : Label) ∈ w.1) →
        ∃ y ∈ r, y.labels = sortLabels w.1 ∧ y.samples.Perm ((pointsFor ((Site.fresh size t0).accepts size (hs.take j)) w.1).map asReported)) := by
  have hh := fresh_holds size t0 (hs.take j)
  obtain ⟨body, out, c1, c2, c3⟩ := anytime_covering B hB H sn rt P hP base hb size t0 es hs hm hp hlen xs h' hrun j qs hj hup k hk hne h0
    (fun c hc w hw => hcov w (hh.mem_iff.mp (List.mem_flatMap.mpr ⟨c, hc, hw⟩)))
  refine ⟨body, out, c1, c2, fun hl => ?_⟩
  obtain ⟨rs, r, r1, r2, r3, r4⟩ := c3 hl
  refine ⟨rs, r, r1, r2, r3, fun w hw hsub => ?_⟩
  obtain ⟨c, hc, hw⟩ := List.mem_flatMap.mp (hh.mem_iff.mpr hw)
  refine ⟨_, r4 c hc w hw hsub, rfl, ?_⟩
  rw [arrived_holds]
  exact List.Perm.map _ (List.Perm.map _ (hh.filter _))

/-- C101, the whole answer: for a query by one label, from time 0 to a time after everything accepted, the series reported are exactly those accepted
with this label, each once and with exactly the samples accepted for it, each as often as it was accepted - and nothing else. -/
theorem C101_whole (B : BinSearch) (hB : Careful B) (H : Hash) (sn : Snappy) (rt : PbRt) (P : Paths) (hP : P.read ≠ P.write) (base : Str)
    (hb : ∀ b ∈ base, isCont b = false) (size t0 : U64) (es : List HostEvent) (hs : List Happening) (hm : Forall₂ (Means sn rt.utf8 P) es hs)
    (hp : AnyTimeAll H rt size (Site.fresh size t0) hs) (hlen : sent hs < 2 ^ 64 - 1) (xs : List (Option Response)) (h' : Host)
    (hrun : (Host.fresh size t0).run B H (pbFormats sn rt) P base size es = (xs, h'))
    (j : Nat) (qs : List PQuery) (hj : hs[j]? = some (.call (.read qs))) (hup : ((Site.fresh size t0).went size (hs.take j)).up = true)
    (k : Nat) (hk : k < qs.length) (x : LabelMatcher) (hx : qs[k].matchers = [x]) (h0 : qs[k].start_ = 0)
    (hcov : ∀ w ∈ (Site.fresh size t0).accepts size (hs.take j), w.2.ts.toNat < (asU64 qs[k].end_).toNat) :
    ∃ body out, xs[j]? = some (some ⟨200, body⟩) ∧ sn.decompress body = some out ∧
      (out.length < 2 ^ 32 → ∃ rs r, (∀ m, IsResponse rt.utf8 m out ↔ m = rs) ∧ rs[k]? = some r ∧ (r.map (·.labels)).Nodup ∧
      (∀ ls, (∃ y ∈ r, y.labels = ls) ↔ ∃ w ∈ (Site.fresh size t0).accepts size (hs.take j), sortLabels w.1 = ls ∧ (⟨x.name, x.value⟩ : Label) ∈ w.1) ∧
      ∀ w ∈ (Site.fresh size t0).accepts size (hs.take j), ∀ y ∈ r, y.labels = sortLabels w.1 →
        y.samples.Perm ((pointsFor ((Site.fresh size t0).accepts size (hs.take j)) w.1).map asReported)) := by
  obtain ⟨body, out, c1, c2, c3⟩ := C101_exact B hB H sn rt P hP base hb size t0 es hs hm hp hlen xs h' hrun j qs hj hup k hk (by simp [hx]) h0 hcov
  obtain ⟨hlx, hall⟩ := anytime_history hB H sn rt P hP base hb size t0 es hs hm hp hlen xs h' hrun
  obtain ⟨hj1, hj2⟩ := List.getElem?_eq_some_iff.mp hj
  have aj := hall j hj1 (by omega)
  rw [hj2] at aj
  have hsound := Site.went_sound_any (hp.take j) (fresh_sound size t0)
  have hh := fresh_holds size t0 (hs.take j)
  generalize (Site.fresh size t0).accepts size (hs.take j) = acc at *
  generalize (Site.fresh size t0).went size (hs.take j) = sj at *
  simp only [AnsweredBy, if_pos hup] at aj
  obtain ⟨body', out', a1, a2, rs', a3, a4⟩ := aj
  rw [List.getElem?_eq_getElem (by omega), a1] at c1
  simp only [Option.some.injEq, Response.mk.injEq, true_and] at c1
  subst c1
  rw [a2] at c2
  cases c2
  refine ⟨body', out, by rw [List.getElem?_eq_getElem (by omega), a1], a2, fun hl => ?_⟩
  obtain ⟨rs, r, r1, r2, r3, r4⟩ := c3 hl
  have hrs : rs' = rs := (r1 rs').mp ((a4 hl rs').mpr rfl)
  subst hrs
  obtain ⟨r', q1, es', q2, q3⟩ := Forall₂.getElem_left a3 k hk
  rw [r2] at q1
  cases q1
  rw [h0, show asU64 0 = 0#64 from by decide] at q2
  -- what is reported was accepted, and has the label
  have honest : ∀ y ∈ r, ∃ w ∈ acc, sortLabels w.1 = y.labels ∧ (⟨x.name, x.value⟩ : Label) ∈ w.1 := by
    intro y hy
    rw [q3] at hy
    obtain ⟨⟨ls, ps⟩, he, rfl⟩ := List.mem_map.mp hy
    obtain ⟨hne, -⟩ := (q2.entries ls ps).mp he
    obtain ⟨s, hs'⟩ := List.exists_mem_of_ne_nil _ hne
    obtain ⟨a, ha, hs''⟩ := List.mem_flatMap.mp hs'
    obtain ⟨c, hc, rfl⟩ := List.mem_map.mp ha
    rw [List.mem_filter, decide_eq_true_eq] at hs''
    have hab : (0#64 : U64).toNat ≤ (asU64 qs[k].end_).toNat := by simp
    have hwf : ∀ w ∈ c.h, WFSet w.1 := fun w hw => (hsound c hc w hw).1
    obtain ⟨n1, -⟩ := answerBy_held hB hwf hab hs''.1
    obtain ⟨p, hp⟩ := List.exists_mem_of_ne_nil _ n1
    obtain ⟨w, hw, -, e, ⟨l, l1, l2⟩, -⟩ := answerBy_asked hB hwf hab hs''.1 p hp
    rw [hx] at l1
    simp only [List.map_cons, List.map_nil, List.mem_singleton] at l1
    subst l1
    exact ⟨w, hh.mem_iff.mp (List.mem_flatMap.mpr ⟨c, hc, hw⟩), e.trans hs''.2, l2⟩
  refine ⟨rs', r, r1, r2, r3, fun ls => ⟨?_, ?_⟩, ?_⟩
  · rintro ⟨y, hy, rfl⟩
    exact honest y hy
  · rintro ⟨w, hw, rfl, hl'⟩
    obtain ⟨y, hy, e1, -⟩ := r4 w hw (by rw [hx]; intro z hz; simp only [List.mem_singleton] at hz; subst hz; exact hl')
    exact ⟨y, hy, e1⟩
  · intro w hw y hy e
    obtain ⟨v, hv, e1, e2⟩ := honest y hy
    have hwf : ∀ w ∈ acc, WFSet w.1 := by
      intro w hw
      obtain ⟨c, hc, hw⟩ := List.mem_flatMap.mp (hh.mem_iff.mpr hw)
      exact (hsound c hc w hw).1
    have hpm : v.1.Perm w.1 := perm_of_sortLabels_eq (e1.trans e)
    obtain ⟨y', hy', f1, f2⟩ := r4 w hw (by
      rw [hx]; intro z hz; simp only [List.mem_singleton] at hz; subst hz; exact hpm.mem_iff.mp e2)
    have : y = y' := by
      have hn := r3
      clear r2 r4 q3 r1 honest
      induction r with
      | nil => simp at hy
      | cons a r ih =>
        rw [List.map_cons, List.nodup_cons] at hn
        rcases List.mem_cons.mp hy with g | g <;> rcases List.mem_cons.mp hy' with g' | g'
        · rw [g, g']
        · exact absurd (List.mem_map.mpr ⟨y', g', by rw [f1, ← e, g]⟩) hn.1
        · exact absurd (List.mem_map.mpr ⟨y, g, by rw [e, ← f1, g']⟩) hn.1
        · exact ih hn.2 g g' hn.2
    rw [this]
    exact f2

/-- C101, durability: a sample of a write answered by 200, strictly inside the window that was current, is in every later answer to a query from time
0 to a time after everything accepted by some of its labels, however late it came and whatever the clock has done since. -/
theorem C101_durable (B : BinSearch) (hB : Careful B) (H : Hash) (sn : Snappy) (rt : PbRt) (P : Paths) (hP : P.read ≠ P.write) (base : Str)
    (hb : ∀ b ∈ base, isCont b = false) (size t0 : U64) (es : List HostEvent) (hs : List Happening) (hm : Forall₂ (Means sn rt.utf8 P) es hs)
    (hp : AnyTimeAll H rt size (Site.fresh size t0) hs) (hlen : sent hs < 2 ^ 64 - 1) (xs : List (Option Response)) (h' : Host)
    (hrun : (Host.fresh size t0).run B H (pbFormats sn rt) P base size es = (xs, h'))
    (i j : Nat) (hij : i < j) (m : List PSeries) (hi : hs[i]? = some (.call (.write m))) (hack : xs[i]? = some (some ⟨200, []⟩))
    (ser : PSeries) (hser : ser ∈ m) (x : Sample) (hx : x ∈ ser.samples)
    (hin : inside ((Site.fresh size t0).went size (hs.take i)).g.cur.lo ((Site.fresh size t0).went size (hs.take i)).g.cur.hi x.point = true)
    (qs : List PQuery) (hj : hs[j]? = some (.call (.read qs))) (hup : ((Site.fresh size t0).went size (hs.take j)).up = true)
    (k : Nat) (hk : k < qs.length) (hne : qs[k].matchers ≠ []) (hsub : ∀ y ∈ qs[k].matchers, (⟨y.name, y.value⟩ : Label) ∈ ser.labels)
    (h0 : qs[k].start_ = 0)
    (hcov : ∀ w ∈ (Site.fresh size t0).accepts size (hs.take j), w.2.ts.toNat < (asU64 qs[k].end_).toNat) :
    ∃ body out, xs[j]? = some (some ⟨200, body⟩) ∧ sn.decompress body = some out ∧
      (out.length < 2 ^ 32 → ∃ rs r, (∀ m, IsResponse rt.utf8 m out ↔ m = rs) ∧ rs[k]? = some r ∧
      ∃ y ∈ r, y.labels = sortLabels ser.labels ∧ asReported x.point ∈ y.samples) := by
  obtain ⟨body, out, c1, c2, c3⟩ := C101_exact B hB H sn rt P hP base hb size t0 es hs hm hp hlen xs h' hrun j qs hj hup k hk hne h0 hcov
  obtain ⟨hlx, hall⟩ := anytime_history hB H sn rt P hP base hb size t0 es hs hm hp hlen xs h' hrun
  obtain ⟨hi1, hi2⟩ := List.getElem?_eq_some_iff.mp hi
  have ai := hall i hi1 (by omega)
  have exi : xs[i] = some ⟨200, []⟩ := (List.getElem?_eq_some_iff.mp hack).2
  rw [hi2, exi] at ai
  have ai : Answered sn rt.utf8 ((Site.fresh size t0).went size (hs.take i)) (.call (.write m)) (some ⟨200, []⟩) := ai
  have hacc : (ser.labels, x.point) ∈ (Site.fresh size t0).accepts size (hs.take j) := by
    have e1 : hs.take j = hs.take i ++ (.call (.write m) :: (hs.take j).drop (i + 1)) := by
      have : hs.take i = (hs.take j).take i := by rw [List.take_take]; congr 1; omega
      rw [this]
      have hij' : i < (hs.take j).length := by
        obtain ⟨hj1, -⟩ := List.getElem?_eq_some_iff.mp hj
        rw [List.length_take]; omega
      have e : (hs.take j)[i] = .call (.write m) := by rw [List.getElem_take]; exact hi2
      rw [← e, List.getElem_cons_drop, List.take_append_drop]
    rw [e1, accepts_append, Site.accepts]
    refine List.mem_append_right _ (List.mem_append_left _ ?_)
    generalize (Site.fresh size t0).went size (hs.take i) = si at *
    have hui : si.up = true := by
      by_contra hu
      simp only [Answered, if_neg hu] at ai
      cases ai
    simp only [Answered, if_pos hui, Option.some.injEq, Response.mk.injEq, and_true] at ai
    have hno : ∀ s ∈ m, ¬ Refused si.g.cur s := by
      intro s hs hr
      rw [if_pos ⟨s, hs, hr⟩] at ai
      omega
    simp only [Site.brings, if_pos hui]
    rw [takeUntil_all hno]
    exact newPoints_mem.mpr ⟨ser, hser, x, hx, rfl, hin⟩
  refine ⟨body, out, c1, c2, fun hl => ?_⟩
  obtain ⟨rs, r, r1, r2, -, r3⟩ := c3 hl
  obtain ⟨y, hy, e1, e2⟩ := r3 _ hacc hsub
  refine ⟨rs, r, r1, r2, y, hy, e1, e2.mem_iff.mpr (List.mem_map_of_mem ?_)⟩
  unfold pointsFor
  exact List.mem_map.mpr ⟨(ser.labels, x.point), List.mem_filter.mpr ⟨hacc, by simp⟩, rfl⟩

/-- Happenings other than writes. -/
def Happening.quiet : Happening → Prop
  | .call (.write _) => False
  | _ => True

/-- C101, restarts: if nothing is written between two such reads - restarts, ticks and reads at any readings of the clock - both report the same samples
for every series that has the labels of the query, each the same number of times. -/
theorem C101_same (B : BinSearch) (hB : Careful B) (H : Hash) (sn : Snappy) (rt : PbRt) (P : Paths) (hP : P.read ≠ P.write) (base : Str)
    (hb : ∀ b ∈ base, isCont b = false) (size t0 : U64) (es : List HostEvent) (hs : List Happening) (hm : Forall₂ (Means sn rt.utf8 P) es hs)
    (hp : AnyTimeAll H rt size (Site.fresh size t0) hs) (hlen : sent hs < 2 ^ 64 - 1) (xs : List (Option Response)) (h' : Host)
    (hrun : (Host.fresh size t0).run B H (pbFormats sn rt) P base size es = (xs, h'))
    (i j : Nat) (hij : i ≤ j) (hquiet : ∀ (n : Nat) (e : Happening), i ≤ n → n < j → hs[n]? = some e → e.quiet)
    (q : PQuery) (hi : hs[i]? = some (.call (.read [q]))) (hj : hs[j]? = some (.call (.read [q])))
    (hui : ((Site.fresh size t0).went size (hs.take i)).up = true) (huj : ((Site.fresh size t0).went size (hs.take j)).up = true)
    (hne : q.matchers ≠ []) (h0 : q.start_ = 0)
    (hcov : ∀ w ∈ (Site.fresh size t0).accepts size (hs.take i), w.2.ts.toNat < (asU64 q.end_).toNat) :
    ∃ body out body' out', xs[i]? = some (some ⟨200, body⟩) ∧ sn.decompress body = some out ∧ xs[j]? = some (some ⟨200, body'⟩) ∧
      sn.decompress body' = some out' ∧ (out.length < 2 ^ 32 → out'.length < 2 ^ 32 → ∃ r r', (∀ m, IsResponse rt.utf8 m out ↔ m = [r]) ∧
      (∀ m, IsResponse rt.utf8 m out' ↔ m = [r']) ∧
      ∀ w ∈ (Site.fresh size t0).accepts size (hs.take i), (∀ y ∈ q.matchers, (⟨y.name, y.value⟩ : Label) ∈ w.1) →
        ∃ y ∈ r, ∃ y' ∈ r', y.labels = sortLabels w.1 ∧ y'.labels = sortLabels w.1 ∧ y.samples.Perm y'.samples) := by
  have hsame : (Site.fresh size t0).accepts size (hs.take j) = (Site.fresh size t0).accepts size (hs.take i) := by
    have e1 : hs.take j = hs.take i ++ (hs.take j).drop i := by
      have : hs.take i = (hs.take j).take i := by rw [List.take_take]; congr 1; omega
      rw [this, List.take_append_drop]
    have hz : ∀ (l : List Happening) (s : Site), (∀ e ∈ l, e.quiet) → s.accepts size l = [] := by
      intro l
      induction l with
      | nil => intro s _; rfl
      | cons e l ih =>
        intro s hl
        rw [Site.accepts, ih _ fun x hx => hl x (by simp [hx])]
        have := hl e (by simp)
        rcases e with (_ | _ | _ | _ | _) | _ | _
        · exact this.elim
        all_goals rfl
    rw [e1, accepts_append, hz ((hs.take j).drop i) _ ?_, List.append_nil]
    intro e he
    obtain ⟨n, hn, rfl⟩ := List.mem_iff_getElem.mp he
    rw [List.length_drop, List.length_take] at hn
    rw [List.getElem_drop, List.getElem_take]
    exact hquiet (i + n) _ (by omega) (by omega) (List.getElem?_eq_getElem (by omega))
  obtain ⟨b1, o1, c1, c2, c3⟩ := C101_exact B hB H sn rt P hP base hb size t0 es hs hm hp hlen xs h' hrun i [q] hi hui 0 (by simp) hne h0 hcov
  obtain ⟨b2, o2, d1, d2, d3⟩ := C101_exact B hB H sn rt P hP base hb size t0 es hs hm hp hlen xs h' hrun j [q] hj huj 0 (by simp) hne h0 (by rw [hsame]; exact hcov)
  obtain ⟨x1, y1, n1, n2, n3⟩ := C101_honest B hB H sn rt P hP base hb size t0 es hs hm hp hlen xs h' hrun i [q] hi hui
  obtain ⟨x2, y2, m1, m2, m3⟩ := C101_honest B hB H sn rt P hP base hb size t0 es hs hm hp hlen xs h' hrun j [q] hj huj
  refine ⟨b1, o1, b2, o2, c1, c2, d1, d2, fun hl hl' => ?_⟩
  obtain ⟨rs, r, r1, r2, -, r4⟩ := c3 hl
  obtain ⟨rs', r', r1', r2', -, r4'⟩ := d3 hl'
  have one : ∀ {b b' : Str} {o o' : Str} {x : Option (Option Response)} (rs : List (List PSeries)) (r : List PSeries), x = some (some ⟨200, b⟩) → x = some (some ⟨200, b'⟩) →
      sn.decompress b = some o → sn.decompress b' = some o' → (∀ m, IsResponse rt.utf8 m o ↔ m = rs) → o.length < 2 ^ 32 →
      (o'.length < 2 ^ 32 → ∃ rs, (∀ m, IsResponse rt.utf8 m o' ↔ m = rs) ∧ rs.length = [q].length) → rs[0]? = some r → rs = [r] := by
    intro b b' o o' x rs r e1 e2 e3 e4 e5 e6 e7 e8
    rw [e1] at e2
    simp only [Option.some.injEq, Response.mk.injEq, true_and] at e2
    subst e2
    rw [e3] at e4
    cases e4
    obtain ⟨rs2, f1, f2⟩ := e7 e6
    have : rs = rs2 := (f1 rs).mp ((e5 rs).mpr rfl)
    subst this
    obtain ⟨z, rfl⟩ := List.length_eq_one_iff.mp (f2.trans rfl)
    simp only [List.getElem?_cons_zero, Option.some.injEq] at e8
    rw [e8]
  have g1 := one rs r c1 n1 c2 n2 r1 hl (fun h => by obtain ⟨a, b, c, -⟩ := n3 h; exact ⟨a, b, c⟩) r2
  have g2 := one rs' r' d1 m1 d2 m2 r1' hl' (fun h => by obtain ⟨a, b, c, -⟩ := m3 h; exact ⟨a, b, c⟩) r2'
  subst g1 g2
  refine ⟨r, r', r1, r1', fun w hw hsub => ?_⟩
  obtain ⟨y, hy, s1, s2⟩ := r4 w hw hsub
  obtain ⟨y', hy', s1', s2'⟩ := r4' w (by rw [hsame]; exact hw) hsub
  rw [hsame] at s2'
  exact ⟨y, hy, y', hy', s1, s1', s2.trans s2'.symm⟩

/-! ### The hypotheses of the theorems hold: late and repeated samples, the clock set back at a tick and at a restart -/

/-- 200, 400; the timer ticks with the clock set back to 30; 500, 300 and 500 again; a read; a restart with the clock at 60; a read. -/
def atStory : List HostEvent :=
  [.request ⟨[119#8], some (encWrite [unSer [200, 400]])⟩, .tick 30#64, .request ⟨[119#8], some (encWrite [unSer [500, 300, 500]])⟩,
    .request ⟨[114#8], some (encRead [unAsk 0 10000])⟩, .restart List.reverse (fun _ => 60#64) 60#64, .request ⟨[114#8], some (encRead [unAsk 0 10000])⟩]
def atSaid : List Happening :=
  [.call (.write [unSer [200, 400]]), .tick 30#64, .call (.write [unSer [500, 300, 500]]), .call (.read [unAsk 0 10000]),
    .restart List.reverse (fun _ => 60#64) 60#64, .call (.read [unAsk 0 10000])]

theorem atStory_means : Forall₂ (Means exSnappy exRt.utf8 ⟨[114#8], [119#8]⟩) atStory atSaid :=
  .cons ⟨rfl, _, _, rfl, rfl, unWrite_says _ (by unfold I64; decide) (by decide +kernel)⟩
    (.cons rfl (.cons ⟨rfl, _, _, rfl, rfl, unWrite_says _ (by unfold I64; decide) (by decide +kernel)⟩ (.cons ⟨rfl, _, _, rfl, rfl, unRead_says⟩
      (.cons ⟨rfl, rfl, rfl⟩ (.cons ⟨rfl, _, _, rfl, rfl, unRead_says⟩ .nil)))))

theorem atStory_proper : AnyTimeAll idealHash exRt 1000#64 (Site.fresh 1000#64 100#64) atSaid := by
  have hwf : ∀ ts, ∀ ser ∈ [unSer ts], WFSet ser.labels := by
    intro ts s hs; simp only [List.mem_singleton] at hs; subst hs; exact wfSet_of (show wfSetB [lbl "a" "1", lbl "b" "2"] = true by decide +kernel)
  have hq : ∀ q ∈ [unAsk 0 10000], (∀ x ∈ q.matchers, WFLabel ⟨x.name, x.value⟩) ∧ (asU64 q.start_).toNat ≤ (asU64 q.end_).toNat := by
    intro q hq
    simp only [List.mem_singleton] at hq; subst hq
    exact ⟨by intro x hx; simp only [unAsk, List.mem_singleton] at hx; subst hx; exact wfLabel_of (by decide +kernel), by decide⟩
  exact ⟨fun _ => hwf _, fun _ => ⟨by decide, by decide +kernel⟩, fun _ => hwf _, fun _ => ⟨by simp, fun q h => ⟨(hq q h).1, (hq q h).2, idealHash_good _⟩⟩,
    ⟨List.reverse_perm, by decide, by decide +kernel⟩, fun _ => ⟨by simp, fun q h => ⟨(hq q h).1, (hq q h).2, idealHash_good _⟩⟩, True.intro⟩

example : (Site.fresh 1000#64 100#64).accepts 1000#64 (atSaid.take 5) =
    [200#64, 400#64, 500#64, 300#64, 500#64].map fun t => ([lbl "a" "1", lbl "b" "2"], ⟨t, 0x3ff0000000000000#64⟩) := by decide +kernel

-- the read after the restart reports all five samples; and the same as the one before
example (xs : List (Option Response)) (h' : Host) (hrun : (Host.fresh 1000#64 100#64).run stdBinSearch idealHash (pbFormats exSnappy exRt) ⟨[114#8], [119#8]⟩ [100#8] 1000#64
      atStory = (xs, h')) :=
  C101_exact stdBinSearch stdBinSearch_careful idealHash exSnappy exRt ⟨[114#8], [119#8]⟩ (by decide) [100#8] (by decide) 1000#64 100#64
    atStory atSaid atStory_means atStory_proper (by decide +kernel) xs h' hrun 5 [unAsk 0 10000] rfl (by decide +kernel) 0 (by decide) (by simp [unAsk]) rfl (by decide +kernel)
example (xs : List (Option Response)) (h' : Host) (hrun : (Host.fresh 1000#64 100#64).run stdBinSearch idealHash (pbFormats exSnappy exRt) ⟨[114#8], [119#8]⟩ [100#8] 1000#64
      atStory = (xs, h')) :=
  C101_same stdBinSearch stdBinSearch_careful idealHash exSnappy exRt ⟨[114#8], [119#8]⟩ (by decide) [100#8] (by decide) 1000#64 100#64
    atStory atSaid atStory_means atStory_proper (by decide +kernel) xs h' hrun 3 5 (by decide)
    (by intro n e h1 h2 h3
        obtain rfl | rfl : n = 3 ∨ n = 4 := by omega
        · cases h3; trivial
        · cases h3; trivial)
    (unAsk 0 10000) rfl rfl (by decide +kernel) (by decide +kernel) (by simp [unAsk]) rfl (by decide +kernel)
-- the whole answer after the restart
example (xs : List (Option Response)) (h' : Host) (hrun : (Host.fresh 1000#64 100#64).run stdBinSearch idealHash (pbFormats exSnappy exRt) ⟨[114#8], [119#8]⟩ [100#8] 1000#64
      atStory = (xs, h')) :=
  C101_whole stdBinSearch stdBinSearch_careful idealHash exSnappy exRt ⟨[114#8], [119#8]⟩ (by decide) [100#8] (by decide) 1000#64 100#64
    atStory atSaid atStory_means atStory_proper (by decide +kernel) xs h' hrun 5 [unAsk 0 10000] rfl (by decide +kernel) 0 (by decide) _ rfl rfl (by decide +kernel)
-- the late sample 300, sent while the window is that of a tick with the clock set back
example (xs : List (Option Response)) (h' : Host) (hrun : (Host.fresh 1000#64 100#64).run stdBinSearch idealHash (pbFormats exSnappy exRt) ⟨[114#8], [119#8]⟩ [100#8] 1000#64
      atStory = (xs, h')) (hack : xs[2]? = some (some ⟨200, []⟩)) :=
  C101_durable stdBinSearch stdBinSearch_careful idealHash exSnappy exRt ⟨[114#8], [119#8]⟩ (by decide) [100#8] (by decide) 1000#64 100#64
    atStory atSaid atStory_means atStory_proper (by decide +kernel) xs h' hrun 2 5 (by decide) [unSer [500, 300, 500]] rfl hack (unSer [500, 300, 500]) (by simp)
    ⟨0x3ff0000000000000#64, 300⟩ (by simp [unSer]) (by decide +kernel) [unAsk 0 10000] rfl (by decide +kernel) 0 (by decide) (by simp [unAsk])
    (by intro y hy; simp only [unAsk, List.getElem_cons_zero, List.mem_singleton] at hy; subst hy; simp [unSer]) rfl (by decide +kernel)
example : ((Host.fresh 1000#64 100#64).run stdBinSearch idealHash (pbFormats exSnappy exRt) ⟨[114#8], [119#8]⟩ [100#8] 1000#64 atStory).1[2]? = some (some ⟨200, []⟩) := by
  decide +kernel

end Verif
