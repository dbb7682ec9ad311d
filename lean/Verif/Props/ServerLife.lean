import Verif.Lemmas.ServerLife
/-! Property C75: the server from the outside, over its whole life. -/
namespace Verif
open List

/-- C75: from a server started in an empty directory, through any sequence of requests (as bytes, in any valid encoding), requests that
are not Snappy data, damaged read requests, ticks of the swap timer and restarts in any order, every response is the specified one for
the specified state at that moment, and at the end the machine is in the specified state (so that the next answers are right, too). -/
theorem C75_history (B : BinSearch) (H : Hash) (sn : Snappy) (rt : PbRt) (P : Paths) (hP : P.read ≠ P.write) (base : Str)
    (hb : ∀ b ∈ base, isCont b = false) (size t0 : U64) (es : List HostEvent) (hs : List Happening) (hm : Forall₂ (Means sn rt.utf8 P) es hs)
    (hp : ProperAll H rt size (Site.fresh size t0) hs) (hlen : sent hs < 2 ^ 64 - 1) (xs : List (Option Response)) (h' : Host)
    (hrun : (Host.fresh size t0).run B H (pbFormats sn rt) P base size es = (xs, h')) :
    xs.length = hs.length ∧ h'.up = ((Site.fresh size t0).after size hs).up ∧
    ∀ (i : Nat) (hi : i < hs.length) (hx : i < xs.length), Answered sn rt.utf8 ((Site.fresh size t0).after size (hs.take i)) hs[i] xs[i] := by
  obtain ⟨xs', h'', e1, e2, e3, e4⟩ := (fresh_hostRep B rt size t0).run H sn hP hb hm hp (by omega)
  rw [e1] at hrun
  simp only [Prod.mk.injEq] at hrun
  obtain ⟨rfl, rfl⟩ := hrun
  exact ⟨e2, e4.up, e3⟩

theorem Forall₂.getElem_left {α β : Type} {R : α → β → Prop} {l : List α} {m : List β} (h : Forall₂ R l m) (k : Nat) (hk : k < l.length) :
    ∃ y, m[k]? = some y ∧ R l[k] y := by
  induction h generalizing k with
  | nil => simp at hk
  | cons h1 _ ih =>
    cases k with
    | zero => exact ⟨_, rfl, h1⟩
    | succ k => exact ih k (by simpa using hk)

theorem fresh_sound (size t0 : U64) : ∀ c ∈ (Site.fresh size t0).g.all, ∀ w ∈ c.h, WFSet w.1 ∧ inside c.lo c.hi w.2 = true := by
  simp [Site.fresh, Gens.all, Gens.fresh, Gen.new]

/-- C75, durability: a sample of a write answered by 200, strictly inside the window that was current at that time, is in every later
answer to a query from time 0 to a time not before anything stored, by some of the labels of its series - whatever happened in between:
other writes, swaps, crashes, restarts. -/
theorem C75_durable (B : BinSearch) (H : Hash) (sn : Snappy) (rt : PbRt) (P : Paths) (hP : P.read ≠ P.write) (base : Str)
    (hb : ∀ b ∈ base, isCont b = false) (size t0 : U64) (es : List HostEvent) (hs : List Happening) (hm : Forall₂ (Means sn rt.utf8 P) es hs)
    (hp : ProperAll H rt size (Site.fresh size t0) hs) (hlen : sent hs < 2 ^ 64 - 1) (xs : List (Option Response)) (h' : Host)
    (hrun : (Host.fresh size t0).run B H (pbFormats sn rt) P base size es = (xs, h'))
    (i j : Nat) (hij : i < j) (m : List PSeries) (hi : hs[i]? = some (.call (.write m))) (hack : xs[i]? = some (some ⟨200, []⟩))
    (ser : PSeries) (hser : ser ∈ m) (x : Sample) (hx : x ∈ ser.samples)
    (hin : inside ((Site.fresh size t0).after size (hs.take i)).g.cur.lo ((Site.fresh size t0).after size (hs.take i)).g.cur.hi x.point = true)
    (qs : List PQuery) (hj : hs[j]? = some (.call (.read qs))) (body : Str) (hres : xs[j]? = some (some ⟨200, body⟩))
    (k : Nat) (hk : k < qs.length) (hne : qs[k].matchers ≠ []) (hsub : ∀ y ∈ qs[k].matchers, (⟨y.name, y.value⟩ : Label) ∈ ser.labels)
    (h0 : qs[k].start_ = 0)
    (hcov : ∀ c ∈ ((Site.fresh size t0).after size (hs.take j)).g.all, ∀ w ∈ c.h, w.2.ts.toNat ≤ (asU64 qs[k].end_).toNat) :
    ∃ out, sn.decompress body = some out ∧ (out.length < 2 ^ 32 → ∃ rs r, (∀ m, IsResponse rt.utf8 m out ↔ m = rs) ∧ rs[k]? = some r ∧
      ∃ y ∈ r, y.labels = sortLabels ser.labels ∧ asReported x.point ∈ y.samples) := by
  obtain ⟨hlx, -, hall⟩ := C75_history B H sn rt P hP base hb size t0 es hs hm hp hlen xs h' hrun
  obtain ⟨hi1, hi2⟩ := List.getElem?_eq_some_iff.mp hi
  obtain ⟨hj1, hj2⟩ := List.getElem?_eq_some_iff.mp hj
  have ai := hall i hi1 (by omega)
  have aj := hall j hj1 (by omega)
  have exi : xs[i] = some ⟨200, []⟩ := (List.getElem?_eq_some_iff.mp hack).2
  have exj : xs[j] = some ⟨200, body⟩ := (List.getElem?_eq_some_iff.mp hres).2
  rw [hi2, exi] at ai
  rw [hj2, exj] at aj
  generalize hsi : (Site.fresh size t0).after size (hs.take i) = si at *
  generalize hsj : (Site.fresh size t0).after size (hs.take j) = sj at *
  have hui : si.up = true := by
    by_contra hu
    simp only [Answered, if_neg hu] at ai
    cases ai
  have huj : sj.up = true := by
    by_contra hu
    simp only [Answered, if_neg hu] at aj
    cases aj
  simp only [Answered, if_pos hui, Option.some.injEq, Response.mk.injEq, and_true] at ai
  simp only [Answered, if_pos huj] at aj
  have hno : ∀ s ∈ m, ¬ Refused si.g.cur s := by
    intro s hs hr
    rw [if_pos ⟨s, hs, hr⟩] at ai
    omega
  -- the sample is stored by the write
  have hst : ∃ c ∈ (si.next size (.call (.write m))).g.all, (ser.labels, x.point) ∈ c.h := by
    simp only [Site.next, if_pos hui]
    refine ⟨_, List.mem_append_right _ (List.mem_singleton_self _), List.mem_append_right _ ?_⟩
    rw [takeUntil_all hno]
    exact newPoints_mem.mpr ⟨ser, hser, x, hx, rfl, hin⟩
  -- and kept until the read
  have hsplit : sj = (si.next size (.call (.write m))).after size ((hs.take j).drop (i + 1)) := by
    rw [← hsj, ← hsi]
    have e1 : hs.take j = hs.take i ++ (.call (.write m) :: (hs.take j).drop (i + 1)) := by
      have : hs.take i = (hs.take j).take i := by rw [List.take_take]; congr 1; omega
      rw [this]
      have hij' : i < (hs.take j).length := by rw [List.length_take]; omega
      have e : (hs.take j)[i] = .call (.write m) := by rw [List.getElem_take]; exact hi2
      rw [← e, List.getElem_cons_drop, List.take_append_drop]
    conv_lhs => rw [e1]
    rw [Site.after_append]
    rfl
  obtain ⟨c, hc, hw⟩ := Site.after_keeps (size := size) (hs := (hs.take j).drop (i + 1)) hst
  rw [← hsplit] at hc
  have hsound : ∀ c ∈ sj.g.all, ∀ w ∈ c.h, WFSet w.1 ∧ inside c.lo c.hi w.2 = true := by
    rw [← hsj]
    exact Site.after_sound (hp.take j) (fresh_sound size t0)
  obtain ⟨body', out, a1, a2, rs, a3, a4⟩ := aj
  simp only [Option.some.injEq, Response.mk.injEq, true_and] at a1
  subst a1
  refine ⟨out, a2, fun hl => ?_⟩
  obtain ⟨r, r1, es', r2, r3⟩ := Forall₂.getElem_left a3 k hk
  refine ⟨rs, r, a4 hl, r1, ?_⟩
  rw [h0, show asU64 0 = 0#64 from by decide] at r2
  obtain ⟨y, hy, hyl, hyp⟩ := answer_finds hw (hsound c hc) (q := qs[k].matchers.map fun x => ⟨x.name, x.value⟩) (by simpa using hne)
    (by intro l hl; obtain ⟨z, hz, rfl⟩ := List.mem_map.mp hl; exact hsub z hz) (hcov c hc)
  have hsw : y ∈ seriesWith (sj.g.all.map fun c => c.answer (qs[k].matchers.map fun x => ⟨x.name, x.value⟩) 0#64 (asU64 qs[k].end_)) (sortLabels ser.labels) := by
    unfold seriesWith
    exact List.mem_flatMap.mpr ⟨_, List.mem_map.mpr ⟨c, hc, rfl⟩, List.mem_filter.mpr ⟨hy, by simpa using hyl⟩⟩
  have hent := (r2.entries (sortLabels ser.labels) _).mpr ⟨List.ne_nil_of_mem hsw, rfl⟩
  have hmem : (⟨sortLabels ser.labels, (mergedPoints (sj.g.all.map fun c => c.answer (qs[k].matchers.map fun x => ⟨x.name, x.value⟩) 0#64 (asU64 qs[k].end_))
      (sortLabels ser.labels)).map asReported⟩ : PSeries) ∈ r := by
    rw [r3]
    exact List.mem_map.mpr ⟨_, hent, rfl⟩
  exact ⟨_, hmem, rfl, List.mem_map_of_mem (List.mem_flatMap.mpr ⟨y, hsw, hyp⟩)⟩

/-- C75, honesty: every sample in an answer was sent, as a sample of a series with these labels, in an earlier write request, and lies in
the range asked for. -/
theorem C75_honest (B : BinSearch) (H : Hash) (sn : Snappy) (rt : PbRt) (P : Paths) (hP : P.read ≠ P.write) (base : Str)
    (hb : ∀ b ∈ base, isCont b = false) (size t0 : U64) (es : List HostEvent) (hs : List Happening) (hm : Forall₂ (Means sn rt.utf8 P) es hs)
    (hp : ProperAll H rt size (Site.fresh size t0) hs) (hlen : sent hs < 2 ^ 64 - 1) (xs : List (Option Response)) (h' : Host)
    (hrun : (Host.fresh size t0).run B H (pbFormats sn rt) P base size es = (xs, h'))
    (j : Nat) (qs : List PQuery) (hj : hs[j]? = some (.call (.read qs))) (body : Str) (hres : xs[j]? = some (some ⟨200, body⟩)) :
    ∃ out, sn.decompress body = some out ∧ (out.length < 2 ^ 32 → ∃ rs, (∀ m, IsResponse rt.utf8 m out ↔ m = rs) ∧ rs.length = qs.length ∧
      ∀ (k : Nat) (hk : k < qs.length) (r : List PSeries), rs[k]? = some r → (r.map (·.labels)).Nodup ∧ ∀ y ∈ r, ∀ z ∈ y.samples,
        ∃ i m ser x, i < j ∧ hs[i]? = some (.call (.write m)) ∧ ser ∈ m ∧ x ∈ ser.samples ∧ y.labels = sortLabels ser.labels ∧ z = asReported x.point ∧
          (asU64 qs[k].start_).toNat ≤ x.point.ts.toNat ∧ x.point.ts.toNat ≤ (asU64 qs[k].end_).toNat) := by
  obtain ⟨hlx, -, hall⟩ := C75_history B H sn rt P hP base hb size t0 es hs hm hp hlen xs h' hrun
  obtain ⟨hj1, hj2⟩ := List.getElem?_eq_some_iff.mp hj
  have aj := hall j hj1 (by omega)
  have exj : xs[j] = some ⟨200, body⟩ := (List.getElem?_eq_some_iff.mp hres).2
  rw [hj2, exj] at aj
  have hsound := Site.after_sound (hp.take j) (fresh_sound size t0)
  have hfrom : ∀ c ∈ ((Site.fresh size t0).after size (hs.take j)).g.all, ∀ w ∈ c.h, ∃ i m ser x, i < j ∧ hs[i]? = some (.call (.write m)) ∧
      ser ∈ m ∧ x ∈ ser.samples ∧ w = (ser.labels, x.point) := by
    intro c hc w hw
    rcases Site.after_from hc hw with ⟨c0, hc0, h1⟩ | ⟨i, m, h1, ser, h2, x, h3, h4⟩
    · simp [Site.fresh, Gens.all, Gens.fresh, Gen.new] at hc0; subst hc0; simp at h1
    · obtain ⟨h5, h6⟩ := List.getElem?_eq_some_iff.mp h1
      rw [List.length_take] at h5
      refine ⟨i, m, ser, x, by omega, ?_, h2, h3, h4⟩
      rw [List.getElem_take] at h6
      exact List.getElem?_eq_some_iff.mpr ⟨by omega, h6⟩
  generalize (Site.fresh size t0).after size (hs.take j) = sj at *
  have huj : sj.up = true := by
    by_contra hu
    simp only [Answered, if_neg hu] at aj
    cases aj
  simp only [Answered, if_pos huj] at aj
  obtain ⟨body', out, a1, a2, rs, a3, a4⟩ := aj
  simp only [Option.some.injEq, Response.mk.injEq, true_and] at a1
  subst a1
  refine ⟨out, a2, fun hl => ⟨rs, a4 hl, a3.length_eq.symm, ?_⟩⟩
  intro k hk r hr
  obtain ⟨r', r1, es', r2, r3⟩ := Forall₂.getElem_left a3 k hk
  rw [hr] at r1
  obtain rfl : r = r' := Option.some.inj r1
  constructor
  · rw [r3, List.map_map]; exact r2.once
  · intro y hy z hz
    rw [r3] at hy
    obtain ⟨⟨ls, ps⟩, he, rfl⟩ := List.mem_map.mp hy
    obtain ⟨p, hpp, rfl⟩ := List.mem_map.mp hz
    obtain ⟨-, rfl⟩ := (r2.entries ls ps).mp he
    obtain ⟨s, hs', hps⟩ := List.mem_flatMap.mp hpp
    obtain ⟨a, ha, hs''⟩ := List.mem_flatMap.mp hs'
    obtain ⟨c, hc, rfl⟩ := List.mem_map.mp ha
    rw [List.mem_filter, decide_eq_true_eq] at hs''
    obtain ⟨w, hw, h1, h2, h3, h4⟩ := answer_held (hsound c hc) hs''.1 hps
    obtain ⟨i, m, ser, x, i1, i2, i3, i4, rfl⟩ := hfrom c hc w hw
    simp only [] at h1 h2
    subst h1
    exact ⟨i, m, ser, x, i1, i2, i3, i4, hs''.2.symm.trans h2.symm, rfl, h3, h4⟩

/-! ### Example -/

/-- The sample 1.0 at 200. -/
def exSer : PSeries := ⟨[lbl "b" "2", lbl "a" "1"], [⟨0x3ff0000000000000#64, 200⟩]⟩
/-- Everything with `a=1` up to time 10000. -/
def exAsk : PQuery := ⟨0, 10000, [⟨.eq, (lbl "a" "1").key, (lbl "a" "1").value⟩]⟩

/-- A write, a broken request that ends the server, a write that gets no answer, a restart, a tick, a read. -/
def exEvents : List HostEvent :=
  [.request ⟨[119#8], some (encWrite [exSer])⟩, .request ⟨[119#8], none⟩, .request ⟨[119#8], some (encWrite [exSer])⟩, .restart id (fun _ => 5000#64) 5000#64,
    .tick 6001#64, .request ⟨[114#8], some (encRead [exAsk])⟩]
def exHappenings : List Happening :=
  [.call (.write [exSer]), .call .garbage, .call (.write [exSer]), .restart id (fun _ => 5000#64) 5000#64, .tick 6001#64, .call (.read [exAsk])]

theorem exEvents_mean : Forall₂ (Means exSnappy exRt.utf8 ⟨[114#8], [119#8]⟩) exEvents exHappenings := by
  have hw : IsWrite exRt.utf8 [exSer] (encWrite [exSer]) := by
    have := encWrite_is (utf8 := exRt.utf8) (m := [exSer]) (by
      intro s hs
      simp only [List.mem_singleton] at hs; subst hs
      exact ⟨fun _ _ => ⟨rfl, rfl⟩, by
        intro x hx; simp only [exSer, List.mem_cons, List.not_mem_nil, or_false] at hx; subst hx; exact ⟨by decide, by decide⟩⟩) (by decide +kernel)
    have e : [exSer].map wireSeries = [exSer] := by decide +kernel
    rwa [e] at this
  have hr : IsRead exRt.utf8 [exAsk] (encRead [exAsk]) :=
    encRead_is (by
      intro q hq
      simp only [List.mem_singleton] at hq; subst hq
      exact ⟨⟨by decide, by decide⟩, ⟨by decide, by decide⟩, fun _ _ => ⟨rfl, rfl⟩⟩) (by decide +kernel)
  exact .cons ⟨rfl, _, _, rfl, rfl, hw⟩ (.cons (by intro b hb; cases hb) (.cons ⟨rfl, _, _, rfl, rfl, hw⟩ (.cons ⟨rfl, rfl, rfl⟩ (.cons rfl
    (.cons ⟨rfl, _, _, rfl, rfl, hr⟩ .nil)))))

theorem exEvents_proper : ProperAll idealHash exRt 1000#64 (Site.fresh 1000#64 100#64) exHappenings := by
  have hwf : ∀ ser ∈ [exSer], WFSet ser.labels := by
    intro s hs; simp only [List.mem_singleton] at hs; subst hs; exact wfSet_of (by decide +kernel)
  refine ⟨fun _ => hwf, fun _ => True.intro, fun _ => hwf, ⟨fun _ => List.Perm.refl _, by decide +kernel, by decide +kernel⟩,
    fun _ => ⟨by decide +kernel, by decide +kernel⟩, fun _ => ⟨by simp, ?_, ?_⟩, True.intro⟩
  · have : ∀ c ∈ ((Site.fresh 1000#64 100#64).after 1000#64 (exHappenings.take 5)).g.all, SIncr (c.h.map (·.2)) := by unfold SIncr; decide +kernel
    intro c hc ls
    exact incr_pointsFor (this c hc) ls
  · intro q hq
    simp only [List.mem_singleton] at hq; subst hq
    exact ⟨by intro x hx; simp only [exAsk, List.mem_singleton] at hx; subst hx; exact wfLabel_of (by decide +kernel), by decide, idealHash_good _⟩

-- the six responses: 200, none, none, none, none, and a 200 whose body decodes to the sample written before the crash
example (xs : List (Option Response)) (h' : Host) (hrun : (Host.fresh 1000#64 100#64).run stdBinSearch idealHash (pbFormats exSnappy exRt) ⟨[114#8], [119#8]⟩ [100#8] 1000#64
      exEvents = (xs, h')) :
    ∃ body, xs = [some ⟨200, []⟩, none, none, none, none, some ⟨200, body⟩] ∧
      ∃ out, exSnappy.decompress body = some out ∧ (out.length < 2 ^ 32 → ∃ rs r, (∀ m, IsResponse exRt.utf8 m out ↔ m = rs) ∧ rs[0]? = some r ∧
      ∃ y ∈ r, y.labels = [lbl "a" "1", lbl "b" "2"] ∧ (⟨0x3ff0000000000000#64, 200⟩ : Sample) ∈ y.samples) := by
  have hb : ∀ b ∈ [100#8], isCont b = false := by decide
  have hh := C75_history stdBinSearch idealHash exSnappy exRt ⟨[114#8], [119#8]⟩ (by decide) [100#8] hb 1000#64 100#64 exEvents exHappenings exEvents_mean exEvents_proper
    (by decide +kernel) xs h' hrun
  obtain ⟨h1, -, h2⟩ := hh
  have h1 : xs.length = 6 := h1
  obtain ⟨x0, x1, x2, x3, x4, x5, rfl⟩ : ∃ a b c d e f, xs = [a, b, c, d, e, f] := by
    match xs, h1 with
    | [a, b, c, d, e, f], _ => exact ⟨a, b, c, d, e, f, rfl⟩
  have a0 : x0 = some ⟨200, []⟩ := h2 0 (by decide) (by simp)
  have a1 : x1 = none := h2 1 (by decide) (by simp)
  have a2 : x2 = none := h2 2 (by decide) (by simp)
  have a3 : x3 = none := h2 3 (by decide) (by simp)
  have a4 : x4 = none := h2 4 (by decide) (by simp)
  obtain ⟨body, -, a5, -⟩ := h2 5 (by decide) (by simp)
  have a5 : x5 = some ⟨200, body⟩ := a5
  subst a0 a1 a2 a3 a4 a5
  refine ⟨body, rfl, ?_⟩
  have hd := C75_durable stdBinSearch idealHash exSnappy exRt ⟨[114#8], [119#8]⟩ (by decide) [100#8] hb 1000#64 100#64 exEvents exHappenings exEvents_mean exEvents_proper
    (by decide +kernel) _ h' hrun 0 5 (by decide) [exSer] rfl rfl exSer (by simp) ⟨0x3ff0000000000000#64, 200⟩ (by simp [exSer]) (by decide +kernel) [exAsk] rfl body rfl 0
    (by decide) (by simp [exAsk]) (by decide +kernel) rfl (by decide +kernel)
  have e1 : sortLabels exSer.labels = [lbl "a" "1", lbl "b" "2"] := by decide +kernel
  have e2 : asReported (Sample.point ⟨0x3ff0000000000000#64, 200⟩) = ⟨0x3ff0000000000000#64, 200⟩ := by decide +kernel
  rw [e1, e2] at hd
  exact hd

end Verif
