import Verif.Lemmas.Ranges
import Verif.Props.Clock
/-! Property C95: reads of any range. -/
namespace Verif
open List

/-- A read that is answered is answered as in C75. -/
theorem replied_answer {sn : Snappy} {utf8 : Str → Bool} {s : Site} {qs : List PQuery} {r : Response} (h : Replied sn utf8 s (.call (.read qs)) (some r)) :
    Answered sn utf8 s (.call (.read qs)) (some r) := by
  simp only [Replied] at h
  split at h
  · cases h
  · exact h

/-- C95, the exact behaviour for any clock and any ranges: as C94_partial_history, where reads may ask for any range of signed 64-bit times.
A read with a query that is fatal (the range, as unsigned numbers, is inverted, and in some chunk reached both ends lie within the span of a
matching series with a sample strictly between them) is not answered and ends the process; every other read is answered as in C75. (Missing:
that a read with an inverted range does not end the process, and that negative times mean times before 1970 - see C95_violated_crash,
C95_violated_epoch, C95_violated_end.) -/
theorem C95_partial_history (B : BinSearch) (H : Hash) (sn : Snappy) (rt : PbRt) (P : Paths) (hP : P.read ≠ P.write) (base : Str)
    (hb : ∀ b ∈ base, isCont b = false) (size t0 : U64) (es : List HostEvent) (hs : List Happening) (hm : Forall₂ (Means sn rt.utf8 P) es hs)
    (hp : RangedAll H rt size (Site.fresh size t0) hs) (hlen : sent hs < 2 ^ 64 - 1) (xs : List (Option Response)) (h' : Host)
    (hrun : (Host.fresh size t0).run B H (pbFormats sn rt) P base size es = (xs, h')) :
    xs.length = hs.length ∧ h'.up = ((Site.fresh size t0).faced size hs).up ∧
    ∀ (i : Nat) (hi : i < hs.length) (hx : i < xs.length), Replied sn rt.utf8 ((Site.fresh size t0).faced size (hs.take i)) hs[i] xs[i] := by
  obtain ⟨xs', h'', e1, e2, e3, e4⟩ := (fresh_hostLoose B rt size t0).faced H sn hP hb hm hp (by omega)
  rw [e1] at hrun
  simp only [Prod.mk.injEq] at hrun
  obtain ⟨rfl, rfl⟩ := hrun
  exact ⟨e2, e4.up, e3⟩

/-- C95, availability: on a running server a read all of whose ranges are, as unsigned numbers, not inverted is answered by 200. -/
theorem C95_partial_serves (B : BinSearch) (H : Hash) (sn : Snappy) (rt : PbRt) (P : Paths) (hP : P.read ≠ P.write) (base : Str)
    (hb : ∀ b ∈ base, isCont b = false) (size t0 : U64) (es : List HostEvent) (hs : List Happening) (hm : Forall₂ (Means sn rt.utf8 P) es hs)
    (hp : RangedAll H rt size (Site.fresh size t0) hs) (hlen : sent hs < 2 ^ 64 - 1) (xs : List (Option Response)) (h' : Host)
    (hrun : (Host.fresh size t0).run B H (pbFormats sn rt) P base size es = (xs, h'))
    (j : Nat) (qs : List PQuery) (hj : hs[j]? = some (.call (.read qs))) (hup : ((Site.fresh size t0).faced size (hs.take j)).up = true)
    (hq : ∀ q ∈ qs, (asU64 q.start_).toNat ≤ (asU64 q.end_).toNat) : ∃ body, xs[j]? = some (some ⟨200, body⟩) := by
  obtain ⟨hlx, -, hall⟩ := C95_partial_history B H sn rt P hP base hb size t0 es hs hm hp hlen xs h' hrun
  obtain ⟨hj1, hj2⟩ := List.getElem?_eq_some_iff.mp hj
  have aj := hall j hj1 (by omega)
  rw [hj2] at aj
  have hnf : qs.any (fatal ((Site.fresh size t0).faced size (hs.take j)).g) = false := by
    rw [List.any_eq_false]
    intro q hm hf
    have := fatal_inverted hf
    have := hq q hm
    omega
  simp only [Replied] at aj
  rw [hnf] at aj
  simp only [Bool.and_false, Bool.false_eq_true, if_false, Answered, if_pos hup] at aj
  obtain ⟨body, out, e, -⟩ := aj
  exact ⟨body, List.getElem?_eq_some_iff.mpr ⟨by omega, e⟩⟩

/-- C95, inverted ranges: in an answered read, the result of every query whose range is, as unsigned numbers, inverted is empty. -/
theorem C95_partial_empty (B : BinSearch) (H : Hash) (sn : Snappy) (rt : PbRt) (P : Paths) (hP : P.read ≠ P.write) (base : Str)
    (hb : ∀ b ∈ base, isCont b = false) (size t0 : U64) (es : List HostEvent) (hs : List Happening) (hm : Forall₂ (Means sn rt.utf8 P) es hs)
    (hp : RangedAll H rt size (Site.fresh size t0) hs) (hlen : sent hs < 2 ^ 64 - 1) (xs : List (Option Response)) (h' : Host)
    (hrun : (Host.fresh size t0).run B H (pbFormats sn rt) P base size es = (xs, h'))
    (j : Nat) (qs : List PQuery) (hj : hs[j]? = some (.call (.read qs))) (body : Str) (hres : xs[j]? = some (some ⟨200, body⟩))
    (k : Nat) (hk : k < qs.length) (hinv : (asU64 qs[k].end_).toNat < (asU64 qs[k].start_).toNat) :
    ∃ out, sn.decompress body = some out ∧ (out.length < 2 ^ 32 → ∃ rs, (∀ m, IsResponse rt.utf8 m out ↔ m = rs) ∧ rs.length = qs.length ∧ rs[k]? = some []) := by
  obtain ⟨hlx, -, hall⟩ := C95_partial_history B H sn rt P hP base hb size t0 es hs hm hp hlen xs h' hrun
  obtain ⟨hj1, hj2⟩ := List.getElem?_eq_some_iff.mp hj
  have aj := hall j hj1 (by omega)
  rw [hj2, (List.getElem?_eq_some_iff.mp hres).2] at aj
  have aj := replied_answer aj
  generalize (Site.fresh size t0).faced size (hs.take j) = sj at *
  have huj : sj.up = true := by
    by_contra hu
    simp only [Answered, if_neg hu] at aj
    cases aj
  simp only [Answered, if_pos huj] at aj
  obtain ⟨body', out, a1, a2, rs, a3, a4⟩ := aj
  simp only [Option.some.injEq, Response.mk.injEq, true_and] at a1
  subst a1
  refine ⟨out, a2, fun hl => ⟨rs, a4 hl, a3.length_eq.symm, ?_⟩⟩
  obtain ⟨r, r1, es', r2, r3⟩ := Forall₂.getElem_left a3 k hk
  rw [r1, r3]
  have : es' = [] := by
    rw [List.eq_nil_iff_forall_not_mem]
    rintro ⟨ls, ps⟩ he
    obtain ⟨hne, -⟩ := (r2.entries ls ps).mp he
    refine hne ?_
    unfold seriesWith
    rw [List.flatMap_eq_nil_iff]
    intro a ha
    obtain ⟨c, -, rfl⟩ := List.mem_map.mp ha
    rw [answer_inverted c _ hinv]
    rfl
  rw [this]; rfl

/-- C95, durability for any clock and any other reads: a sample of a write answered by 200, strictly inside the window that was current at that time, is in every
later answer to a query from time 0 to a time not before anything stored, by some of the labels of its series. -/
theorem C95_partial_durable (B : BinSearch) (H : Hash) (sn : Snappy) (rt : PbRt) (P : Paths) (hP : P.read ≠ P.write) (base : Str)
    (hb : ∀ b ∈ base, isCont b = false) (size t0 : U64) (es : List HostEvent) (hs : List Happening) (hm : Forall₂ (Means sn rt.utf8 P) es hs)
    (hp : RangedAll H rt size (Site.fresh size t0) hs) (hlen : sent hs < 2 ^ 64 - 1) (xs : List (Option Response)) (h' : Host)
    (hrun : (Host.fresh size t0).run B H (pbFormats sn rt) P base size es = (xs, h'))
    (i j : Nat) (hij : i < j) (m : List PSeries) (hi : hs[i]? = some (.call (.write m))) (hack : xs[i]? = some (some ⟨200, []⟩))
    (ser : PSeries) (hser : ser ∈ m) (x : Sample) (hx : x ∈ ser.samples)
    (hin : inside ((Site.fresh size t0).faced size (hs.take i)).g.cur.lo ((Site.fresh size t0).faced size (hs.take i)).g.cur.hi x.point = true)
    (qs : List PQuery) (hj : hs[j]? = some (.call (.read qs))) (body : Str) (hres : xs[j]? = some (some ⟨200, body⟩))
    (k : Nat) (hk : k < qs.length) (hne : qs[k].matchers ≠ []) (hsub : ∀ y ∈ qs[k].matchers, (⟨y.name, y.value⟩ : Label) ∈ ser.labels)
    (h0 : qs[k].start_ = 0)
    (hcov : ∀ c ∈ ((Site.fresh size t0).faced size (hs.take j)).g.all, ∀ w ∈ c.h, w.2.ts.toNat ≤ (asU64 qs[k].end_).toNat) :
    ∃ out, sn.decompress body = some out ∧ (out.length < 2 ^ 32 → ∃ rs r, (∀ m, IsResponse rt.utf8 m out ↔ m = rs) ∧ rs[k]? = some r ∧
      ∃ y ∈ r, y.labels = sortLabels ser.labels ∧ asReported x.point ∈ y.samples) := by
  obtain ⟨hlx, -, hall⟩ := C95_partial_history B H sn rt P hP base hb size t0 es hs hm hp hlen xs h' hrun
  obtain ⟨hi1, hi2⟩ := List.getElem?_eq_some_iff.mp hi
  obtain ⟨hj1, hj2⟩ := List.getElem?_eq_some_iff.mp hj
  have ai := hall i hi1 (by omega)
  have aj := hall j hj1 (by omega)
  have exi : xs[i] = some ⟨200, []⟩ := (List.getElem?_eq_some_iff.mp hack).2
  have exj : xs[j] = some ⟨200, body⟩ := (List.getElem?_eq_some_iff.mp hres).2
  rw [hi2, exi] at ai
  rw [hj2, exj] at aj
  generalize hsi : (Site.fresh size t0).faced size (hs.take i) = si at *
  generalize hsj : (Site.fresh size t0).faced size (hs.take j) = sj at *
  have hui : si.up = true := by
    by_contra hu
    simp only [Replied, Answered, if_neg hu] at ai
    cases ai
  have aj := replied_answer aj
  have huj : sj.up = true := by
    by_contra hu
    simp only [Answered, if_neg hu] at aj
    cases aj
  simp only [Replied, Answered, if_pos hui, Option.some.injEq, Response.mk.injEq, and_true] at ai
  simp only [Answered, if_pos huj] at aj
  have hno : ∀ s ∈ m, ¬ Refused si.g.cur s := by
    intro s hs hr
    rw [if_pos ⟨s, hs, hr⟩] at ai
    omega
  -- the sample is stored by the write
  have hst : ∃ c ∈ (si.faces size (.call (.write m))).g.all, (ser.labels, x.point) ∈ c.h := by
    simp only [Site.faces, Site.goes, Site.next, if_pos hui]
    refine ⟨_, List.mem_append_right _ (List.mem_singleton_self _), List.mem_append_right _ ?_⟩
    rw [takeUntil_all hno]
    exact newPoints_mem.mpr ⟨ser, hser, x, hx, rfl, hin⟩
  -- and kept until the read
  have hsplit : sj = (si.faces size (.call (.write m))).faced size ((hs.take j).drop (i + 1)) := by
    rw [← hsj, ← hsi]
    have e1 : hs.take j = hs.take i ++ (.call (.write m) :: (hs.take j).drop (i + 1)) := by
      have : hs.take i = (hs.take j).take i := by rw [List.take_take]; congr 1; omega
      rw [this]
      have hij' : i < (hs.take j).length := by rw [List.length_take]; omega
      have e : (hs.take j)[i] = .call (.write m) := by rw [List.getElem_take]; exact hi2
      rw [← e, List.getElem_cons_drop, List.take_append_drop]
    conv_lhs => rw [e1]
    rw [Site.faced_append]
    rfl
  obtain ⟨c, hc, hw⟩ := Site.faced_keeps (size := size) (hs := (hs.take j).drop (i + 1)) hst
  rw [← hsplit] at hc
  have hsound : ∀ c ∈ sj.g.all, ∀ w ∈ c.h, WFSet w.1 ∧ inside c.lo c.hi w.2 = true := by
    rw [← hsj]
    exact Site.faced_sound (hp.take j) (fresh_sound size t0)
  obtain ⟨body', out, a1, a2, rs, a3, a4⟩ := aj
  simp only [Option.some.injEq, Response.mk.injEq, true_and] at a1
  subst a1
  refine ⟨out, a2, fun hl => ?_⟩
  obtain ⟨r, r1, es', r2, r3⟩ := Forall₂.getElem_left a3 k hk
  refine ⟨rs, r, a4 hl, r1, ?_⟩
  rw [h0, show asU64 0 = 0#64 from by decide] at r2
  obtain ⟨y, hy, hyl, hyp⟩ := answer_finds hw (hsound c hc) (q := qs[k].matchers.map fun x => ⟨x.name, x.value⟩) (by simpa using hne)
    (by intro l hl; obtain ⟨z, hz, rfl⟩ := List.mem_map.mp hl; exact hsub z hz) (hcov c hc)
  have hsw : y ∈ seriesWith (sj.g.all.map fun c => c.answer (qs[k].matchers.map fun x => ⟨x.name, x.value⟩) 0#64 (asU64 qs[k].end_)) (sortLabels ser.labels) := by
    unfold seriesWith
    exact List.mem_flatMap.mpr ⟨_, List.mem_map.mpr ⟨c, hc, rfl⟩, List.mem_filter.mpr ⟨hy, by simpa using hyl⟩⟩
  have hent := (r2.entries (sortLabels ser.labels) _).mpr ⟨List.ne_nil_of_mem hsw, rfl⟩
  have hmem : (⟨sortLabels ser.labels, (mergedPoints (sj.g.all.map fun c => c.answer (qs[k].matchers.map fun x => ⟨x.name, x.value⟩) 0#64 (asU64 qs[k].end_))
      (sortLabels ser.labels)).map asReported⟩ : PSeries) ∈ r := by
    rw [r3]
    exact List.mem_map.mpr ⟨_, hent, rfl⟩
  exact ⟨_, hmem, rfl, List.mem_map_of_mem (List.mem_flatMap.mpr ⟨y, hsw, hyp⟩)⟩

/-! ### What does not hold -/

/-- The bytes of a read of any range. -/
theorem ask_says {a b : Int} (ha : -2 ^ 63 ≤ a ∧ a < 2 ^ 63) (hb : -2 ^ 63 ≤ b ∧ b < 2 ^ 63) (hl : (encRead [unAsk a b]).length < 2 ^ 32) :
    IsRead exRt.utf8 [unAsk a b] (encRead [unAsk a b]) :=
  encRead_is (by
    intro q hq
    simp only [List.mem_singleton] at hq; subst hq
    exact ⟨ha, hb, fun _ _ => ⟨rfl, rfl⟩⟩) hl

/-- C95 is false: one read with an inverted range ends the process; nothing is answered until a restart. -/
theorem C95_violated_crash : ckRun [ckWrite [1100, 1200, 1300], ckRead 1250 1150, ckRead 0 10000, ckRestart 3000#64, ckRead 0 10000] =
      [some ⟨200, []⟩, none, none, none, some ⟨200, unBody [1100, 1200, 1300]⟩] ∧
    IsRead exRt.utf8 [unAsk 1250 1150] (encRead [unAsk 1250 1150]) ∧
    ∃ out, exSnappy.decompress (unBody [1100, 1200, 1300]) = some out ∧ ∀ m, IsResponse exRt.utf8 m out ↔ m = [[unSer [1100, 1200, 1300]]] :=
  ⟨by decide +kernel, ask_says (by decide) (by decide) (by decide +kernel), unBody_reads _ (by unfold I64; decide) (by decide +kernel)⟩

/-- C95 is false: a read from a time before 1970 (here -1; clients ask for all of time by the smallest 64-bit number) reports nothing, although
a sample lies in the range. -/
theorem C95_violated_epoch : ckRun [ckWrite [1100], ckRead 0 10000, ckRead (-1) 10000, ckRead (-2 ^ 63) (2 ^ 63 - 1)] =
      [some ⟨200, []⟩, some ⟨200, unBody [1100]⟩, some ⟨200, unBody []⟩, some ⟨200, unBody []⟩] ∧
    IsRead exRt.utf8 [unAsk (-1) 10000] (encRead [unAsk (-1) 10000]) ∧
    IsRead exRt.utf8 [unAsk (-2 ^ 63) (2 ^ 63 - 1)] (encRead [unAsk (-2 ^ 63) (2 ^ 63 - 1)]) ∧
    (∃ out, exSnappy.decompress (unBody [1100]) = some out ∧ ∀ m, IsResponse exRt.utf8 m out ↔ m = [[unSer [1100]]]) ∧
    ∃ out, exSnappy.decompress (unBody []) = some out ∧ ∀ m, IsResponse exRt.utf8 m out ↔ m = [[]] :=
  ⟨by decide +kernel, ask_says (by decide) (by decide) (by decide +kernel), ask_says (by decide) (by decide) (by decide +kernel),
    unBody_reads _ (by unfold I64; decide) (by decide +kernel), unBody_reads _ (by unfold I64; decide) (by decide +kernel)⟩

/-- C95 is false: a read from 0 to -1, an empty range, reports a sample. -/
theorem C95_violated_end : ckRun [ckWrite [1100], ckRead 0 (-1)] = [some ⟨200, []⟩, some ⟨200, unBody [1100]⟩] ∧
    IsRead exRt.utf8 [unAsk 0 (-1)] (encRead [unAsk 0 (-1)]) ∧
    ∃ out, exSnappy.decompress (unBody [1100]) = some out ∧ ∀ m, IsResponse exRt.utf8 m out ↔ m = [[unSer [1100]]] :=
  ⟨by decide +kernel, ask_says (by decide) (by decide) (by decide +kernel), unBody_reads _ (by unfold I64; decide) (by decide +kernel)⟩

/-! ### The hypotheses of the theorems hold: a clock set back, an inverted range that is answered, one that is not, a restart -/

def rgStory : List HostEvent := [ckWrite [1100, 1200, 1300], .tick 800#64, ckRead 1150 1120, ckRead 1350 1250, ckRead 1250 1150, ckRead 0 10000, ckRestart 3000#64, ckRead 0 10000]
def rgSaid : List Happening :=
  [.call (.write [unSer [1100, 1200, 1300]]), .tick 800#64, .call (.read [unAsk 1150 1120]), .call (.read [unAsk 1350 1250]), .call (.read [unAsk 1250 1150]),
    .call (.read [unAsk 0 10000]), .restart id (fun _ => 3000#64) 3000#64, .call (.read [unAsk 0 10000])]

theorem rgStory_means : Forall₂ (Means exSnappy exRt.utf8 ⟨[114#8], [119#8]⟩) rgStory rgSaid :=
  .cons ⟨rfl, _, _, rfl, rfl, unWrite_says _ (by unfold I64; decide) (by decide +kernel)⟩ (.cons rfl
    (.cons ⟨rfl, _, _, rfl, rfl, ask_says (by decide) (by decide) (by decide +kernel)⟩ (.cons ⟨rfl, _, _, rfl, rfl, ask_says (by decide) (by decide) (by decide +kernel)⟩
      (.cons ⟨rfl, _, _, rfl, rfl, ask_says (by decide) (by decide) (by decide +kernel)⟩ (.cons ⟨rfl, _, _, rfl, rfl, unRead_says⟩
        (.cons ⟨rfl, rfl, rfl⟩ (.cons ⟨rfl, _, _, rfl, rfl, unRead_says⟩ .nil)))))))

theorem rgStory_ranged : RangedAll idealHash exRt 1000#64 (Site.fresh 1000#64 1000#64) rgSaid := by
  have hwf : ∀ ts, ∀ ser ∈ [unSer ts], WFSet ser.labels := by
    intro ts s hs; simp only [List.mem_singleton] at hs; subst hs; exact wfSet_of (show wfSetB [lbl "a" "1", lbl "b" "2"] = true by decide +kernel)
  have hq : ∀ (s : Site) (a b : Int), (∀ c ∈ s.g.all, SIncr (c.h.map (·.2))) → Ranged idealHash exRt 1000#64 s (.call (.read [unAsk a b])) := by
    intro s a b hi _
    refine ⟨by simp, fun c hc ls => incr_pointsFor (hi c hc) ls, ?_⟩
    intro q hq
    simp only [List.mem_singleton] at hq; subst hq
    exact ⟨by intro x hx; simp only [unAsk, List.mem_singleton] at hx; subst hx; exact wfLabel_of (by decide +kernel), idealHash_good _⟩
  exact ⟨fun _ => hwf _, fun _ => ⟨by decide +kernel, by decide +kernel⟩, hq _ _ _ (by unfold SIncr; decide +kernel), hq _ _ _ (by unfold SIncr; decide +kernel),
    hq _ _ _ (by unfold SIncr; decide +kernel), hq _ _ _ (by unfold SIncr; decide +kernel),
    ⟨fun _ => List.Perm.refl _, by decide +kernel, by decide +kernel⟩, hq _ _ _ (by unfold SIncr; decide +kernel), True.intro⟩

theorem rgStory_runs (xs : List (Option Response)) (h' : Host) (hrun : (Host.fresh 1000#64 1000#64).run stdBinSearch idealHash (pbFormats exSnappy exRt) ⟨[114#8], [119#8]⟩
      [100#8] 1000#64 rgStory = (xs, h')) :
    xs = [some ⟨200, []⟩, none, some ⟨200, unBody []⟩, some ⟨200, unBody []⟩, none, none, none, some ⟨200, unBody [1100, 1200, 1300]⟩] := by
  have h0 : ckRun rgStory = [some ⟨200, []⟩, none, some ⟨200, unBody []⟩, some ⟨200, unBody []⟩, none, none, none, some ⟨200, unBody [1100, 1200, 1300]⟩] := by decide +kernel
  have : ckRun rgStory = xs := by unfold ckRun; rw [hrun]
  rw [← this]; exact h0

-- the specification says the same: the fifth event ends the process, the seventh starts it again
example : (List.range 9).map (fun i => ((Site.fresh 1000#64 1000#64).faced 1000#64 (rgSaid.take i)).up) = [true, true, true, true, true, false, false, true, true] := by
  decide +kernel

-- all theorems apply to this history
example (xs : List (Option Response)) (h' : Host) (hrun : (Host.fresh 1000#64 1000#64).run stdBinSearch idealHash (pbFormats exSnappy exRt) ⟨[114#8], [119#8]⟩
      [100#8] 1000#64 rgStory = (xs, h')) :
    (h'.up = true) ∧ (∃ body, xs[7]? = some (some ⟨200, body⟩)) ∧
    (∃ out, exSnappy.decompress (unBody []) = some out ∧ (out.length < 2 ^ 32 → ∃ rs, (∀ m, IsResponse exRt.utf8 m out ↔ m = rs) ∧ rs.length = 1 ∧ rs[0]? = some [])) ∧
    ∃ out, exSnappy.decompress (unBody [1100, 1200, 1300]) = some out ∧ (out.length < 2 ^ 32 → ∃ rs r, (∀ m, IsResponse exRt.utf8 m out ↔ m = rs) ∧ rs[0]? = some r ∧
      ∃ y ∈ r, y.labels = sortLabels (unSer [1100, 1200, 1300]).labels ∧ asReported (Sample.point ⟨0x3ff0000000000000#64, 1300⟩) ∈ y.samples) := by
  have hx := rgStory_runs xs h' hrun
  subst hx
  refine ⟨?_, ?_, ?_, ?_⟩
  · rw [(C95_partial_history stdBinSearch idealHash exSnappy exRt ⟨[114#8], [119#8]⟩ (by decide) [100#8] (by decide) 1000#64 1000#64 rgStory rgSaid rgStory_means
      rgStory_ranged (by decide +kernel) _ h' hrun).2.1]
    decide +kernel
  · exact C95_partial_serves stdBinSearch idealHash exSnappy exRt ⟨[114#8], [119#8]⟩ (by decide) [100#8] (by decide) 1000#64 1000#64 rgStory rgSaid rgStory_means
      rgStory_ranged (by decide +kernel) _ h' hrun 7 [unAsk 0 10000] rfl (by decide +kernel) (by decide +kernel)
  · exact C95_partial_empty stdBinSearch idealHash exSnappy exRt ⟨[114#8], [119#8]⟩ (by decide) [100#8] (by decide) 1000#64 1000#64 rgStory rgSaid rgStory_means
      rgStory_ranged (by decide +kernel) _ h' hrun 3 [unAsk 1350 1250] rfl _ rfl 0 (by decide) (by decide +kernel)
  · exact C95_partial_durable stdBinSearch idealHash exSnappy exRt ⟨[114#8], [119#8]⟩ (by decide) [100#8] (by decide) 1000#64 1000#64 rgStory rgSaid rgStory_means
      rgStory_ranged (by decide +kernel) _ h' hrun 0 7 (by decide) [unSer [1100, 1200, 1300]] rfl rfl (unSer [1100, 1200, 1300]) (by simp) ⟨0x3ff0000000000000#64, 1300⟩ (by simp [unSer])
      (by decide +kernel) [unAsk 0 10000] rfl _ rfl 0 (by decide) (by simp [unAsk]) (by decide +kernel) rfl (by decide +kernel)

end Verif
