import Verif.Lemmas.Conjunction
import Verif.Props.Unordered
import Verif.Props.Values
import Verif.Props.Bytes
/-! Property C99: several labels mean all of them, and a series is reported as a whole. -/
namespace Verif
open List

/-- C99, what holds for every read: through any history of requests, ticks and restarts, with the samples of a series in any order and any
number of times, every sample in an answer was accepted, by some chunk, for a label set that is the one it is reported under, that has at least
one of the labels asked for, and that has all of those that this chunk has ever accepted a sample for. (Missing: that it has all labels asked
for - see C99_violated_widens, C99_violated_part.) -/
theorem C99_partial_labels (B : BinSearch) (hB : Careful B) (H : Hash) (sn : Snappy) (rt : PbRt) (P : Paths) (hP : P.read ≠ P.write) (base : Str)
    (hb : ∀ b ∈ base, isCont b = false) (size t0 : U64) (es : List HostEvent) (hs : List Happening) (hm : Forall₂ (Means sn rt.utf8 P) es hs)
    (hp : ProperAnyAll H rt size (Site.fresh size t0) hs) (hlen : sent hs < 2 ^ 64 - 1) (xs : List (Option Response)) (h' : Host)
    (hrun : (Host.fresh size t0).run B H (pbFormats sn rt) P base size es = (xs, h'))
    (j : Nat) (qs : List PQuery) (hj : hs[j]? = some (.call (.read qs))) (hup : ((Site.fresh size t0).after size (hs.take j)).up = true) :
    ∃ body out, xs[j]? = some (some ⟨200, body⟩) ∧ sn.decompress body = some out ∧
      (out.length < 2 ^ 32 → ∃ rs, (∀ m, IsResponse rt.utf8 m out ↔ m = rs) ∧ rs.length = qs.length ∧
      ∀ (k : Nat) (hk : k < qs.length) (r : List PSeries), rs[k]? = some r → ∀ y ∈ r, y.samples ≠ [] ∧ ∀ z ∈ y.samples,
        ∃ c ∈ ((Site.fresh size t0).after size (hs.take j)).g.all, ∃ w ∈ c.h, z = asReported w.2 ∧ sortLabels w.1 = y.labels ∧
          (∃ l ∈ asked qs[k], l ∈ w.1) ∧ ∀ l ∈ asked qs[k], c.Knows l → l ∈ w.1) := by
  obtain ⟨hlx, hall⟩ := any_history hB H sn rt P hP base hb size t0 es hs hm hp hlen xs h' hrun
  obtain ⟨hj1, hj2⟩ := List.getElem?_eq_some_iff.mp hj
  have aj := hall j hj1 (by omega)
  rw [hj2] at aj
  have hsound := Site.after_sound_any (hp.take j) (fresh_sound size t0)
  have hord : ∀ q ∈ qs, (asU64 q.start_).toNat ≤ (asU64 q.end_).toNat := by
    have : ∀ (hs : List Happening) (s : Site) (j : Nat), ProperAnyAll H rt size s hs → hs[j]? = some (.call (.read qs)) → (s.after size (hs.take j)).up = true →
        ∀ q ∈ qs, (asU64 q.start_).toNat ≤ (asU64 q.end_).toNat := by
      intro hs
      induction hs with
      | nil => intro s j _ h; simp at h
      | cons e es ih =>
        intro s j hp hj hu
        cases j with
        | zero =>
          simp only [List.getElem?_cons_zero, Option.some.injEq] at hj
          subst hj
          exact fun q hq => ((hp.1 hu).2 q hq).2.1
        | succ j => exact ih _ j hp.2 (by simpa using hj) hu
    exact this hs _ j hp hj hup
  generalize (Site.fresh size t0).after size (hs.take j) = sj at *
  simp only [AnsweredBy, if_pos hup] at aj
  obtain ⟨body, out, a1, a2, rs, a3, a4⟩ := aj
  refine ⟨body, out, List.getElem?_eq_some_iff.mpr ⟨by omega, a1⟩, a2, fun hl => ⟨rs, a4 hl, a3.length_eq.symm, ?_⟩⟩
  intro k hk r hr
  obtain ⟨r', r1, es', r2, r3⟩ := Forall₂.getElem_left a3 k hk
  rw [hr] at r1
  cases r1
  have hab := hord qs[k] (List.getElem_mem hk)
  intro y hy
  rw [r3] at hy
  obtain ⟨⟨ls, ps⟩, he, rfl⟩ := List.mem_map.mp hy
  obtain ⟨hne, rfl⟩ := (r2.entries ls ps).mp he
  have held : ∀ s ∈ seriesWith (sj.g.all.map fun c => c.answerBy B (asked qs[k]) (asU64 qs[k].start_) (asU64 qs[k].end_)) ls,
      s.points ≠ [] ∧ ∀ p ∈ s.points, ∃ c ∈ sj.g.all, ∃ w ∈ c.h, w.2 = p ∧ sortLabels w.1 = ls ∧ (∃ l ∈ asked qs[k], l ∈ w.1) ∧ ∀ l ∈ asked qs[k], c.Knows l → l ∈ w.1 := by
    intro s hs'
    obtain ⟨a, ha, hs''⟩ := List.mem_flatMap.mp hs'
    obtain ⟨c, hc, rfl⟩ := List.mem_map.mp ha
    rw [List.mem_filter, decide_eq_true_eq] at hs''
    have hwf : ∀ w ∈ c.h, WFSet w.1 := fun w hw => (hsound c hc w hw).1
    refine ⟨(answerBy_held hB hwf hab hs''.1).1, fun p hp => ?_⟩
    obtain ⟨w, hw, h1, h2, h3⟩ := answerBy_asked hB hwf hab hs''.1 p hp
    exact ⟨c, hc, w, hw, h1, h2.trans hs''.2, h3⟩
  constructor
  · obtain ⟨s, hs'⟩ := List.exists_mem_of_ne_nil _ hne
    obtain ⟨p, hp⟩ := List.exists_mem_of_ne_nil _ (held s hs').1
    exact List.ne_nil_of_mem (List.mem_map_of_mem (f := asReported) (List.mem_flatMap.mpr ⟨s, hs', hp⟩))
  · intro z hz
    obtain ⟨p, hpp, rfl⟩ := List.mem_map.mp hz
    obtain ⟨s, hs', hps⟩ := List.mem_flatMap.mp hpp
    obtain ⟨c, hc, w, hw, h1, h2⟩ := (held s hs').2 p hps
    exact ⟨c, hc, w, hw, by rw [h1], h2⟩

/-- C99, conjunction: if every chunk that has accepted samples with one of the labels asked for has accepted samples (of any series) with each of
them - so always if one label is asked for - then every series reported has all of them. -/
theorem C99_partial_known (B : BinSearch) (hB : Careful B) (H : Hash) (sn : Snappy) (rt : PbRt) (P : Paths) (hP : P.read ≠ P.write) (base : Str)
    (hb : ∀ b ∈ base, isCont b = false) (size t0 : U64) (es : List HostEvent) (hs : List Happening) (hm : Forall₂ (Means sn rt.utf8 P) es hs)
    (hp : ProperAnyAll H rt size (Site.fresh size t0) hs) (hlen : sent hs < 2 ^ 64 - 1) (xs : List (Option Response)) (h' : Host)
    (hrun : (Host.fresh size t0).run B H (pbFormats sn rt) P base size es = (xs, h'))
    (j : Nat) (qs : List PQuery) (hj : hs[j]? = some (.call (.read qs))) (hup : ((Site.fresh size t0).after size (hs.take j)).up = true)
    (k : Nat) (hk : k < qs.length)
    (hkn : ∀ c ∈ ((Site.fresh size t0).after size (hs.take j)).g.all, (∃ l ∈ asked qs[k], c.Knows l) → ∀ l ∈ asked qs[k], c.Knows l) :
    ∃ body out, xs[j]? = some (some ⟨200, body⟩) ∧ sn.decompress body = some out ∧
      (out.length < 2 ^ 32 → ∃ rs r, (∀ m, IsResponse rt.utf8 m out ↔ m = rs) ∧ rs[k]? = some r ∧ ∀ y ∈ r, ∀ l ∈ asked qs[k], l ∈ y.labels) := by
  obtain ⟨body, out, h1, h2, h3⟩ := C99_partial_labels B hB H sn rt P hP base hb size t0 es hs hm hp hlen xs h' hrun j qs hj hup
  refine ⟨body, out, h1, h2, fun hl => ?_⟩
  obtain ⟨rs, e1, e2, e3⟩ := h3 hl
  obtain ⟨r, hr⟩ : ∃ r, rs[k]? = some r := ⟨rs[k], List.getElem?_eq_getElem (by omega)⟩
  refine ⟨rs, r, e1, hr, fun y hy l hlq => ?_⟩
  obtain ⟨hne, hz⟩ := e3 k hk r hr y hy
  obtain ⟨z, hzm⟩ := List.exists_mem_of_ne_nil _ hne
  obtain ⟨c, hc, w, hw, -, d1, ⟨l', d2, d3⟩, d4⟩ := hz z hzm
  rw [← d1]
  exact (sortLabels_perm w.1).mem_iff.mpr (d4 l hlq (hkn c hc ⟨l', d2, w, hw, d3⟩ l hlq))

/-- C99, whole series: under the same condition, a query from time 0 to a time after everything stored reports every series with all that was
accepted for it. -/
theorem C99_partial_whole (B : BinSearch) (hB : Careful B) (H : Hash) (sn : Snappy) (rt : PbRt) (P : Paths) (hP : P.read ≠ P.write) (base : Str)
    (hb : ∀ b ∈ base, isCont b = false) (size t0 : U64) (es : List HostEvent) (hs : List Happening) (hm : Forall₂ (Means sn rt.utf8 P) es hs)
    (hp : ProperAnyAll H rt size (Site.fresh size t0) hs) (hlen : sent hs < 2 ^ 64 - 1) (xs : List (Option Response)) (h' : Host)
    (hrun : (Host.fresh size t0).run B H (pbFormats sn rt) P base size es = (xs, h'))
    (j : Nat) (qs : List PQuery) (hj : hs[j]? = some (.call (.read qs))) (hup : ((Site.fresh size t0).after size (hs.take j)).up = true)
    (k : Nat) (hk : k < qs.length) (hne : qs[k].matchers ≠ []) (h0 : qs[k].start_ = 0)
    (hcov : ∀ c ∈ ((Site.fresh size t0).after size (hs.take j)).g.all, ∀ w ∈ c.h, w.2.ts.toNat < (asU64 qs[k].end_).toNat)
    (hkn : ∀ c ∈ ((Site.fresh size t0).after size (hs.take j)).g.all, (∃ l ∈ asked qs[k], c.Knows l) → ∀ l ∈ asked qs[k], c.Knows l) :
    ∃ body out, xs[j]? = some (some ⟨200, body⟩) ∧ sn.decompress body = some out ∧
      (out.length < 2 ^ 32 → ∃ rs r, (∀ m, IsResponse rt.utf8 m out ↔ m = rs) ∧ rs[k]? = some r ∧ ∀ y, y ∈ r ↔
        ∃ c ∈ ((Site.fresh size t0).after size (hs.take j)).g.all, ∃ w ∈ c.h, (∀ l ∈ asked qs[k], l ∈ w.1) ∧
          y = ⟨sortLabels w.1, (arrived ((Site.fresh size t0).after size (hs.take j)) w.1).map asReported⟩) := by
  obtain ⟨body, out, h1, h2, h3⟩ := C99_partial_labels B hB H sn rt P hP base hb size t0 es hs hm hp hlen xs h' hrun j qs hj hup
  obtain ⟨body', out', g1, g2, g3⟩ := C92_partial_covering B hB H sn rt P hP base hb size t0 es hs hm hp hlen xs h' hrun j qs hj hup k hk hne h0 hcov
  rw [h1] at g1
  simp only [Option.some.injEq, Response.mk.injEq, true_and] at g1
  subst g1
  rw [h2] at g2
  simp only [Option.some.injEq] at g2
  subst g2
  refine ⟨body, out, h1, h2, fun hl => ?_⟩
  obtain ⟨rs, e1, e2, e3⟩ := h3 hl
  obtain ⟨rs', r, f1, f2, f3, f4⟩ := g3 hl
  obtain rfl : rs = rs' := (f1 rs).mp ((e1 rs).mpr rfl)
  have hin : ∀ c ∈ ((Site.fresh size t0).after size (hs.take j)).g.all, ∀ w ∈ c.h, (∀ l ∈ asked qs[k], l ∈ w.1) →
      (⟨sortLabels w.1, (arrived ((Site.fresh size t0).after size (hs.take j)) w.1).map asReported⟩ : PSeries) ∈ r := fun c hc w hw hall =>
    f4 c hc w hw fun x hx => hall _ (List.mem_map.mpr ⟨x, hx, rfl⟩)
  refine ⟨rs, r, f1, f2, fun y => ⟨fun hy => ?_, fun ⟨c, hc, w, hw, hall, e⟩ => e ▸ hin c hc w hw hall⟩⟩
  obtain ⟨hne', hz⟩ := e3 k hk r f2 y hy
  obtain ⟨z, hzm⟩ := List.exists_mem_of_ne_nil _ hne'
  obtain ⟨c, hc, w, hw, -, d1, ⟨l', d2, d3⟩, d4⟩ := hz z hzm
  have hall : ∀ l ∈ asked qs[k], l ∈ w.1 := fun l hlq => d4 l hlq (hkn c hc ⟨l', d2, w, hw, d3⟩ l hlq)
  refine ⟨c, hc, w, hw, hall, ?_⟩
  exact List.inj_on_of_nodup_map f3 hy (hin c hc w hw hall) d1.symm

/-! ### What does not hold -/

/-- A write of one series. -/
def cjWrite (ls : Labels) (ts : List Int) : HostEvent := .request ⟨[119#8], some (encWrite [vaSer ls ts])⟩
/-- A query for several labels, over all times here. -/
def cjAsk (q : Labels) : PQuery := ⟨0, 10000, q.map fun l => ⟨.eq, l.key, l.value⟩⟩
/-- A read with this query. -/
def cjRead (q : Labels) : HostEvent := .request ⟨[114#8], some (encRead [cjAsk q])⟩

theorem cjRead_says (q : Labels) (hl : (encRead [cjAsk q]).length < 2 ^ 32) : IsRead exRt.utf8 [cjAsk q] (encRead [cjAsk q]) :=
  encRead_is (by
    intro x hx
    simp only [List.mem_singleton] at hx; subst hx
    exact ⟨(by unfold I64; decide : I64 0), (by unfold I64; decide : I64 10000), fun _ _ => ⟨rfl, rfl⟩⟩) hl

/-- C99 is false: nothing is reported for the label `z="9"`, which no series has; for `z="9"` and `a="1"` the series `{a="1"}` is reported. -/
theorem C99_violated_widens :
    byRun [cjWrite [lbl "a" "1"] [1100], cjRead [lbl "z" "9"], cjRead [lbl "z" "9", lbl "a" "1"]] =
      [some ⟨200, []⟩, some ⟨200, vaBody []⟩, some ⟨200, vaBody [([lbl "a" "1"], [1100])]⟩] ∧
    IsRead exRt.utf8 [cjAsk [lbl "z" "9", lbl "a" "1"]] (encRead [cjAsk [lbl "z" "9", lbl "a" "1"]]) ∧
    (∃ out, exSnappy.decompress (vaBody []) = some out ∧ ∀ m, IsResponse exRt.utf8 m out ↔ m = [[]]) ∧
    ∃ out, exSnappy.decompress (vaBody [([lbl "a" "1"], [1100])]) = some out ∧ ∀ m, IsResponse exRt.utf8 m out ↔ m = [[vaSer [lbl "a" "1"] [1100]]] :=
  ⟨by decide +kernel, cjRead_says _ (by decide +kernel), vaBody_reads [] (by simp) (by decide +kernel),
    vaBody_reads [([lbl "a" "1"], [1100])] (by unfold I64; decide) (by decide +kernel)⟩

/-- C99 is false: the series `{a="1"}` is reported for `a="1"` and `b="2"`, first whole; after a write of the series `{b="2"}` only its samples in
the older chunk are reported. -/
theorem C99_violated_part :
    byRun [cjWrite [lbl "a" "1"] [1100], .tick 1999#64, cjWrite [lbl "a" "1"] [2100], cjRead [lbl "a" "1", lbl "b" "2"], cjWrite [lbl "b" "2"] [2200],
        cjRead [lbl "a" "1", lbl "b" "2"]] =
      [some ⟨200, []⟩, none, some ⟨200, []⟩, some ⟨200, vaBody [([lbl "a" "1"], [1100, 2100])]⟩, some ⟨200, []⟩, some ⟨200, vaBody [([lbl "a" "1"], [1100])]⟩] ∧
    IsRead exRt.utf8 [cjAsk [lbl "a" "1", lbl "b" "2"]] (encRead [cjAsk [lbl "a" "1", lbl "b" "2"]]) ∧
    (∃ out, exSnappy.decompress (vaBody [([lbl "a" "1"], [1100, 2100])]) = some out ∧
      ∀ m, IsResponse exRt.utf8 m out ↔ m = [[vaSer [lbl "a" "1"] [1100, 2100]]]) ∧
    ∃ out, exSnappy.decompress (vaBody [([lbl "a" "1"], [1100])]) = some out ∧ ∀ m, IsResponse exRt.utf8 m out ↔ m = [[vaSer [lbl "a" "1"] [1100]]] :=
  ⟨by decide +kernel, cjRead_says _ (by decide +kernel), vaBody_reads [([lbl "a" "1"], [1100, 2100])] (by unfold I64; decide) (by decide +kernel),
    vaBody_reads [([lbl "a" "1"], [1100])] (by unfold I64; decide) (by decide +kernel)⟩

/-! ### The hypotheses of the theorems hold -/

-- the story of C92: one chunk knows the label asked for and has samples, the other one has none
theorem unStory_known : ∀ c ∈ ((Site.fresh 1000#64 100#64).after 1000#64 (unSaid.take 3)).g.all, (∃ l ∈ asked (unAsk 0 10000), c.Knows l) →
    ∀ l ∈ asked (unAsk 0 10000), c.Knows l := by
  intro c hc ⟨l, hl, hk⟩ l' hl'
  simp only [asked, unAsk, List.map_cons, List.map_nil, List.mem_singleton] at hl hl'
  subst hl hl'
  exact hk

example (xs : List (Option Response)) (h' : Host) (hrun : (Host.fresh 1000#64 100#64).run stdBinSearch idealHash (pbFormats exSnappy exRt) ⟨[114#8], [119#8]⟩ [100#8] 1000#64
      unStory = (xs, h')) :=
  And.intro (C99_partial_known stdBinSearch stdBinSearch_careful idealHash exSnappy exRt ⟨[114#8], [119#8]⟩ (by decide) [100#8] (by decide) 1000#64 100#64
    unStory unSaid unStory_means unStory_proper (by decide +kernel) xs h' hrun 3 [unAsk 0 10000] rfl (by decide +kernel) 0 (by decide) unStory_known)
  (C99_partial_whole stdBinSearch stdBinSearch_careful idealHash exSnappy exRt ⟨[114#8], [119#8]⟩ (by decide) [100#8] (by decide) 1000#64 100#64
    unStory unSaid unStory_means unStory_proper (by decide +kernel) xs h' hrun 3 [unAsk 0 10000] rfl (by decide +kernel) 0 (by decide) (by simp [unAsk]) rfl
    (by decide +kernel) unStory_known)

-- two labels are asked for, one chunk knows both
example : ∀ c ∈ [(⟨0#64, 1000#64, 1000#64, [([lbl "a" "1", lbl "b" "2"], ⟨200#64, 1#64⟩), ([lbl "a" "1"], ⟨300#64, 1#64⟩)]⟩ : Gen)],
    (∃ l ∈ asked (cjAsk [lbl "a" "1", lbl "b" "2"]), c.Knows l) → ∀ l ∈ asked (cjAsk [lbl "a" "1", lbl "b" "2"]), c.Knows l := by
  intro c hc _ l hl
  rw [List.mem_singleton] at hc; subst hc
  simp only [asked, cjAsk, List.map_cons, List.map_nil, List.mem_cons, List.not_mem_nil, or_false] at hl
  rcases hl with rfl | rfl
  · exact ⟨_, List.mem_cons_self, by simp⟩
  · exact ⟨_, List.mem_cons_self, by simp⟩

end Verif
