import Verif.Lemmas.Clock
import Verif.Props.Unordered
/-! Property C94: whatever the clock does. -/
namespace Verif
open List

/-- C94, the exact behaviour for any clock: from a server started in an empty directory, through any sequence of requests, ticks of the swap
timer and restarts, the clock reading anything at each of them (only not the start of an older chunk's window to the millisecond), every
response is the specified one: as in C75, where after a restart the older chunks are listed in order of the start of their windows. (Missing:
that samples are reported in order of time, that a restart does not change an answer, and that samples ahead of the clock at a restart are
reported - see C94_violated_order, C94_violated_hides, C94_violated_dropped.) -/
theorem C94_partial_history (B : BinSearch) (H : Hash) (sn : Snappy) (rt : PbRt) (P : Paths) (hP : P.read ≠ P.write) (base : Str)
    (hb : ∀ b ∈ base, isCont b = false) (size t0 : U64) (es : List HostEvent) (hs : List Happening) (hm : Forall₂ (Means sn rt.utf8 P) es hs)
    (hp : TimelyAll H rt size (Site.fresh size t0) hs) (hlen : sent hs < 2 ^ 64 - 1) (xs : List (Option Response)) (h' : Host)
    (hrun : (Host.fresh size t0).run B H (pbFormats sn rt) P base size es = (xs, h')) :
    xs.length = hs.length ∧ h'.up = ((Site.fresh size t0).went size hs).up ∧
    ∀ (i : Nat) (hi : i < hs.length) (hx : i < xs.length), Answered sn rt.utf8 ((Site.fresh size t0).went size (hs.take i)) hs[i] xs[i] := by
  obtain ⟨xs', h'', e1, e2, e3, e4⟩ := (fresh_hostLoose B rt size t0).run H sn hP hb hm hp (by omega)
  rw [e1] at hrun
  simp only [Prod.mk.injEq] at hrun
  obtain ⟨rfl, rfl⟩ := hrun
  exact ⟨e2, e4.up, e3⟩

/-- C94, durability for any clock: a sample of a write answered by 200, strictly inside the window that was current at that time, is in every
later answer to a query from time 0 to a time not before anything stored, by some of the labels of its series. -/
theorem C94_partial_durable (B : BinSearch) (H : Hash) (sn : Snappy) (rt : PbRt) (P : Paths) (hP : P.read ≠ P.write) (base : Str)
    (hb : ∀ b ∈ base, isCont b = false) (size t0 : U64) (es : List HostEvent) (hs : List Happening) (hm : Forall₂ (Means sn rt.utf8 P) es hs)
    (hp : TimelyAll H rt size (Site.fresh size t0) hs) (hlen : sent hs < 2 ^ 64 - 1) (xs : List (Option Response)) (h' : Host)
    (hrun : (Host.fresh size t0).run B H (pbFormats sn rt) P base size es = (xs, h'))
    (i j : Nat) (hij : i < j) (m : List PSeries) (hi : hs[i]? = some (.call (.write m))) (hack : xs[i]? = some (some ⟨200, []⟩))
    (ser : PSeries) (hser : ser ∈ m) (x : Sample) (hx : x ∈ ser.samples)
    (hin : inside ((Site.fresh size t0).went size (hs.take i)).g.cur.lo ((Site.fresh size t0).went size (hs.take i)).g.cur.hi x.point = true)
    (qs : List PQuery) (hj : hs[j]? = some (.call (.read qs))) (body : Str) (hres : xs[j]? = some (some ⟨200, body⟩))
    (k : Nat) (hk : k < qs.length) (hne : qs[k].matchers ≠ []) (hsub : ∀ y ∈ qs[k].matchers, (⟨y.name, y.value⟩ : Label) ∈ ser.labels)
    (h0 : qs[k].start_ = 0)
    (hcov : ∀ c ∈ ((Site.fresh size t0).went size (hs.take j)).g.all, ∀ w ∈ c.h, w.2.ts.toNat ≤ (asU64 qs[k].end_).toNat) :
    ∃ out, sn.decompress body = some out ∧ (out.length < 2 ^ 32 → ∃ rs r, (∀ m, IsResponse rt.utf8 m out ↔ m = rs) ∧ rs[k]? = some r ∧
      ∃ y ∈ r, y.labels = sortLabels ser.labels ∧ asReported x.point ∈ y.samples) := by
  obtain ⟨hlx, -, hall⟩ := C94_partial_history B H sn rt P hP base hb size t0 es hs hm hp hlen xs h' hrun
  obtain ⟨hi1, hi2⟩ := List.getElem?_eq_some_iff.mp hi
  obtain ⟨hj1, hj2⟩ := List.getElem?_eq_some_iff.mp hj
  have ai := hall i hi1 (by omega)
  have aj := hall j hj1 (by omega)
  have exi : xs[i] = some ⟨200, []⟩ := (List.getElem?_eq_some_iff.mp hack).2
  have exj : xs[j] = some ⟨200, body⟩ := (List.getElem?_eq_some_iff.mp hres).2
  rw [hi2, exi] at ai
  rw [hj2, exj] at aj
  generalize hsi : (Site.fresh size t0).went size (hs.take i) = si at *
  generalize hsj : (Site.fresh size t0).went size (hs.take j) = sj at *
  have hui : si.up = true := by
    by_contra hu
    simp only [Answered, if_neg hu] at ai
    cases ai
  have huj : sj.up = true := by
    by_contra hu
    simp only [Answered, if_neg hu] at aj
    cases aj
  simp only [Answered, if_pos hui, Option.some.injEq, Response.mk.injEq, and_true] at ai
  simp only [Answered, if_pos huj] at aj
  have hno : ∀ s ∈ m, ¬ Refused si.g.cur s := by
    intro s hs hr
    rw [if_pos ⟨s, hs, hr⟩] at ai
    omega
  -- the sample is stored by the write
  have hst : ∃ c ∈ (si.next size (.call (.write m))).g.all, (ser.labels, x.point) ∈ c.h := by
    simp only [Site.next, if_pos hui]
    refine ⟨_, List.mem_append_right _ (List.mem_singleton_self _), List.mem_append_right _ ?_⟩
    rw [takeUntil_all hno]
    exact newPoints_mem.mpr ⟨ser, hser, x, hx, rfl, hin⟩
  -- and kept until the read
  have hsplit : sj = (si.next size (.call (.write m))).went size ((hs.take j).drop (i + 1)) := by
    rw [← hsj, ← hsi]
    have e1 : hs.take j = hs.take i ++ (.call (.write m) :: (hs.take j).drop (i + 1)) := by
      have : hs.take i = (hs.take j).take i := by rw [List.take_take]; congr 1; omega
      rw [this]
      have hij' : i < (hs.take j).length := by rw [List.length_take]; omega
      have e : (hs.take j)[i] = .call (.write m) := by rw [List.getElem_take]; exact hi2
      rw [← e, List.getElem_cons_drop, List.take_append_drop]
    conv_lhs => rw [e1]
    rw [Site.went_append]
    rfl
  obtain ⟨c, hc, hw⟩ := Site.went_keeps (size := size) (hs := (hs.take j).drop (i + 1)) hst
  rw [← hsplit] at hc
  have hsound : ∀ c ∈ sj.g.all, ∀ w ∈ c.h, WFSet w.1 ∧ inside c.lo c.hi w.2 = true := by
    rw [← hsj]
    exact Site.went_sound (hp.take j) (fresh_sound size t0)
  obtain ⟨body', out, a1, a2, rs, a3, a4⟩ := aj
  simp only [Option.some.injEq, Response.mk.injEq, true_and] at a1
  subst a1
  refine ⟨out, a2, fun hl => ?_⟩
  obtain ⟨r, r1, es', r2, r3⟩ := Forall₂.getElem_left a3 k hk
  refine ⟨rs, r, a4 hl, r1, ?_⟩
  rw [h0, show asU64 0 = 0#64 from by decide] at r2
  obtain ⟨y, hy, hyl, hyp⟩ := answer_finds hw (hsound c hc) (q := qs[k].matchers.map fun x => ⟨x.name, x.value⟩) (by simpa using hne)
    (by intro l hl; obtain ⟨z, hz, rfl⟩ := List.mem_map.mp hl; exact hsub z hz) (hcov c hc)
  have hsw : y ∈ seriesWith (sj.g.all.map fun c => c.answer (qs[k].matchers.map fun x => ⟨x.name, x.value⟩) 0#64 (asU64 qs[k].end_)) (sortLabels ser.labels) := by
    unfold seriesWith
    exact List.mem_flatMap.mpr ⟨_, List.mem_map.mpr ⟨c, hc, rfl⟩, List.mem_filter.mpr ⟨hy, by simpa using hyl⟩⟩
  have hent := (r2.entries (sortLabels ser.labels) _).mpr ⟨List.ne_nil_of_mem hsw, rfl⟩
  have hmem : (⟨sortLabels ser.labels, (mergedPoints (sj.g.all.map fun c => c.answer (qs[k].matchers.map fun x => ⟨x.name, x.value⟩) 0#64 (asU64 qs[k].end_))
      (sortLabels ser.labels)).map asReported⟩ : PSeries) ∈ r := by
    rw [r3]
    exact List.mem_map.mpr ⟨_, hent, rfl⟩
  exact ⟨_, hmem, rfl, List.mem_map_of_mem (List.mem_flatMap.mpr ⟨y, hsw, hyp⟩)⟩

/-- C94, honesty for any clock: every label set is in an answer once, and every sample in it was sent, with these labels, in an earlier write
request, and lies in the range asked for. -/
theorem C94_partial_honest (B : BinSearch) (H : Hash) (sn : Snappy) (rt : PbRt) (P : Paths) (hP : P.read ≠ P.write) (base : Str)
    (hb : ∀ b ∈ base, isCont b = false) (size t0 : U64) (es : List HostEvent) (hs : List Happening) (hm : Forall₂ (Means sn rt.utf8 P) es hs)
    (hp : TimelyAll H rt size (Site.fresh size t0) hs) (hlen : sent hs < 2 ^ 64 - 1) (xs : List (Option Response)) (h' : Host)
    (hrun : (Host.fresh size t0).run B H (pbFormats sn rt) P base size es = (xs, h'))
    (j : Nat) (qs : List PQuery) (hj : hs[j]? = some (.call (.read qs))) (body : Str) (hres : xs[j]? = some (some ⟨200, body⟩)) :
    ∃ out, sn.decompress body = some out ∧ (out.length < 2 ^ 32 → ∃ rs, (∀ m, IsResponse rt.utf8 m out ↔ m = rs) ∧ rs.length = qs.length ∧
      ∀ (k : Nat) (hk : k < qs.length) (r : List PSeries), rs[k]? = some r → (r.map (·.labels)).Nodup ∧ ∀ y ∈ r, ∀ z ∈ y.samples,
        ∃ i m ser x, i < j ∧ hs[i]? = some (.call (.write m)) ∧ ser ∈ m ∧ x ∈ ser.samples ∧ y.labels = sortLabels ser.labels ∧ z = asReported x.point ∧
          (asU64 qs[k].start_).toNat ≤ x.point.ts.toNat ∧ x.point.ts.toNat ≤ (asU64 qs[k].end_).toNat) := by
  obtain ⟨hlx, -, hall⟩ := C94_partial_history B H sn rt P hP base hb size t0 es hs hm hp hlen xs h' hrun
  obtain ⟨hj1, hj2⟩ := List.getElem?_eq_some_iff.mp hj
  have aj := hall j hj1 (by omega)
  have exj : xs[j] = some ⟨200, body⟩ := (List.getElem?_eq_some_iff.mp hres).2
  rw [hj2, exj] at aj
  have hsound := Site.went_sound (hp.take j) (fresh_sound size t0)
  have hfrom : ∀ c ∈ ((Site.fresh size t0).went size (hs.take j)).g.all, ∀ w ∈ c.h, ∃ i m ser x, i < j ∧ hs[i]? = some (.call (.write m)) ∧
      ser ∈ m ∧ x ∈ ser.samples ∧ w = (ser.labels, x.point) := by
    intro c hc w hw
    rcases Site.went_from hc hw with ⟨c0, hc0, h1⟩ | ⟨i, m, h1, ser, h2, x, h3, h4⟩
    · simp [Site.fresh, Gens.all, Gens.fresh, Gen.new] at hc0; subst hc0; simp at h1
    · obtain ⟨h5, h6⟩ := List.getElem?_eq_some_iff.mp h1
      rw [List.length_take] at h5
      refine ⟨i, m, ser, x, by omega, ?_, h2, h3, h4⟩
      rw [List.getElem_take] at h6
      exact List.getElem?_eq_some_iff.mpr ⟨by omega, h6⟩
  generalize (Site.fresh size t0).went size (hs.take j) = sj at *
  have huj : sj.up = true := by
    by_contra hu
    simp only [Answered, if_neg hu] at aj
    cases aj
  simp only [Answered, if_pos huj] at aj
  obtain ⟨body', out, a1, a2, rs, a3, a4⟩ := aj
  simp only [Option.some.injEq, Response.mk.injEq, true_and] at a1
  subst a1
  refine ⟨out, a2, fun hl => ⟨rs, a4 hl, a3.length_eq.symm, ?_⟩⟩
  intro k hk r hr
  obtain ⟨r', r1, es', r2, r3⟩ := Forall₂.getElem_left a3 k hk
  rw [hr] at r1
  obtain rfl : r = r' := Option.some.inj r1
  constructor
  · rw [r3, List.map_map]; exact r2.once
  · intro y hy z hz
    rw [r3] at hy
    obtain ⟨⟨ls, ps⟩, he, rfl⟩ := List.mem_map.mp hy
    obtain ⟨p, hpp, rfl⟩ := List.mem_map.mp hz
    obtain ⟨-, rfl⟩ := (r2.entries ls ps).mp he
    obtain ⟨s, hs', hps⟩ := List.mem_flatMap.mp hpp
    obtain ⟨a, ha, hs''⟩ := List.mem_flatMap.mp hs'
    obtain ⟨c, hc, rfl⟩ := List.mem_map.mp ha
    rw [List.mem_filter, decide_eq_true_eq] at hs''
    obtain ⟨w, hw, h1, h2, h3, h4⟩ := answer_held (hsound c hc) hs''.1 hps
    obtain ⟨i, m, ser, x, i1, i2, i3, i4, rfl⟩ := hfrom c hc w hw
    simp only [] at h1 h2
    subst h1
    exact ⟨i, m, ser, x, i1, i2, i3, i4, hs''.2.symm.trans h2.symm, rfl, h3, h4⟩

/-- C94, restarts for any clock: if no stored sample is ahead of the clock at any restart, then the same read before and after a restart
finds the same label sets with the same samples, in a possibly different order. -/
theorem C94_partial_restart (B : BinSearch) (H : Hash) (sn : Snappy) (rt : PbRt) (P : Paths) (hP : P.read ≠ P.write) (base : Str)
    (hb : ∀ b ∈ base, isCont b = false) (size t0 : U64) (es : List HostEvent) (hs : List Happening) (hm : Forall₂ (Means sn rt.utf8 P) es hs)
    (hp : TimelyAll H rt size (Site.fresh size t0) hs) (hlen : sent hs < 2 ^ 64 - 1) (xs : List (Option Response)) (h' : Host)
    (hrun : (Host.fresh size t0).run B H (pbFormats sn rt) P base size es = (xs, h'))
    (hn : ∀ (i : Nat) (e : Happening), hs[i]? = some e → NoneAhead ((Site.fresh size t0).went size (hs.take i)) e)
    (j : Nat) (qs : List PQuery) (o : List Slot → List Slot) (c : Str → U64) (n : U64)
    (hj : hs[j]? = some (.call (.read qs))) (hr : hs[j + 1]? = some (.restart o c n)) (hj' : hs[j + 2]? = some (.call (.read qs)))
    (body body' : Str) (hres : xs[j]? = some (some ⟨200, body⟩)) (hres' : xs[j + 2]? = some (some ⟨200, body'⟩)) :
    ∃ out out', sn.decompress body = some out ∧ sn.decompress body' = some out' ∧ (out.length < 2 ^ 32 → out'.length < 2 ^ 32 →
      ∃ rs rs', (∀ m, IsResponse rt.utf8 m out ↔ m = rs) ∧ (∀ m, IsResponse rt.utf8 m out' ↔ m = rs') ∧
      Forall₂ (fun r r' => (∀ y ∈ r, ∃ y' ∈ r', y'.labels = y.labels ∧ y'.samples.Perm y.samples) ∧
        ∀ y' ∈ r', ∃ y ∈ r, y'.labels = y.labels ∧ y'.samples.Perm y.samples) rs rs') := by
  obtain ⟨hlx, -, hall⟩ := C94_partial_history B H sn rt P hP base hb size t0 es hs hm hp hlen xs h' hrun
  obtain ⟨hj1, hj2⟩ := List.getElem?_eq_some_iff.mp hj
  obtain ⟨hk1, hk2⟩ := List.getElem?_eq_some_iff.mp hj'
  obtain ⟨hr1, hr2⟩ := List.getElem?_eq_some_iff.mp hr
  have aj := hall j hj1 (by omega)
  have ak := hall (j + 2) hk1 (by omega)
  rw [hj2, (List.getElem?_eq_some_iff.mp hres).2] at aj
  rw [hk2, (List.getElem?_eq_some_iff.mp hres').2] at ak
  have hsound := Site.went_sound (hp.take j) (fresh_sound size t0)
  have hfull : FullyShown ((Site.fresh size t0).went size (hs.take j)) := by
    refine FullyShown.went ⟨rfl, ?_⟩ (hp.take j) (fresh_sound size t0) ?_
    · intro c hc w hw
      exact absurd hw (by
        have : c.h = [] := by
          simp only [Site.fresh, Gens.all, Gens.fresh, List.nil_append, List.mem_singleton] at hc
          subst hc; rfl
        rw [this]; simp)
    · intro i e he
      obtain ⟨h1, h2⟩ := List.getElem?_eq_some_iff.mp he
      rw [List.length_take] at h1
      rw [List.getElem_take] at h2
      have := hn i e (List.getElem?_eq_some_iff.mpr ⟨by omega, h2⟩)
      rw [List.take_take, Nat.min_eq_left (by omega)]
      exact this
  have hna := hn (j + 1) _ hr
  have hs1 : hs.take (j + 1) = hs.take j ++ [.call (.read qs)] := by rw [List.take_add_one, hj]; rfl
  have hs2 : hs.take (j + 2) = hs.take j ++ [.call (.read qs), .restart o c n] := by
    rw [List.take_add_one (i := j + 1), hr, hs1]; simp
  rw [hs2, Site.went_append] at ak
  rw [hs1, Site.went_append] at hna
  generalize (Site.fresh size t0).went size (hs.take j) = s at *
  have huj : s.up = true := by
    by_contra hu
    simp only [Answered, if_neg hu] at aj
    cases aj
  have hsame : s.went size [.call (.read qs)] = s := by
    show s.next size (.call (.read qs)) = s
    simp only [Site.next, if_pos huj]
  have hnext : s.went size [.call (.read qs), .restart o c n] = s.goes size (.restart o c n) := by
    show (s.went size [.call (.read qs)]).goes size (.restart o c n) = _
    rw [hsame]
  rw [hnext] at ak
  rw [hsame] at hna
  have huk : (s.goes size (.restart o c n)).up = true := rfl
  simp only [Answered, if_pos huj] at aj
  simp only [Answered, if_pos huk] at ak
  obtain ⟨b1, out, a1, a2, rs, a3, a4⟩ := aj
  obtain ⟨b2, out', k1, k2, rs', k3, k4⟩ := ak
  simp only [Option.some.injEq, Response.mk.injEq, true_and] at a1 k1
  subst a1 k1
  refine ⟨out, out', a2, k2, fun hl hl' => ⟨rs, rs', a4 hl, k4 hl', ?_⟩⟩
  clear a4 k4 hj hj' hj2 hk2 hall hs1 hs2 hn hnext hsame hr hr2
  induction a3 generalizing rs' with
  | nil => cases k3; exact .nil
  | @cons q r qs rs h1 _ ih =>
    cases k3 with
    | @cons _ r' _ rs' h2 h3 =>
      refine .cons ?_ (ih _ h3)
      obtain ⟨e1, m1, rfl⟩ := h1
      obtain ⟨e2, m2, rfl⟩ := h2
      obtain ⟨ms, n1, n2⟩ := restart_answers (size := size) hfull (fun c hc w hw => (hsound c hc w hw).2) hna
        (q.matchers.map fun x => ⟨x.name, x.value⟩) (asU64 q.start_) (asU64 q.end_)
      rw [n1] at m2
      obtain ⟨r1, r2⟩ := merge_reordered n2 m1 m2
      constructor
      · intro y hy
        obtain ⟨e, he, rfl⟩ := List.mem_map.mp hy
        obtain ⟨e', he', l1, l2⟩ := r1 e he
        exact ⟨_, List.mem_map.mpr ⟨e', he', rfl⟩, l1, l2.map _⟩
      · intro y hy
        obtain ⟨e', he', rfl⟩ := List.mem_map.mp hy
        obtain ⟨e, he, l1, l2⟩ := r2 e' he'
        exact ⟨_, List.mem_map.mpr ⟨e, he, rfl⟩, l1, l2.map _⟩

/-! ### What does not hold -/

/-- The responses of a server started at 1000 with chunks of 1000. -/
def ckRun (es : List HostEvent) : List (Option Response) :=
  ((Host.fresh 1000#64 1000#64).run stdBinSearch idealHash (pbFormats exSnappy exRt) ⟨[114#8], [119#8]⟩ [100#8] 1000#64 es).1
/-- A write of samples of the series `{a="1", b="2"}` at these times. -/
def ckWrite (ts : List Int) : HostEvent := .request ⟨[119#8], some (encWrite [unSer ts])⟩
/-- A read of everything with `a=1` in a range. -/
def ckRead (a b : Int) : HostEvent := .request ⟨[114#8], some (encRead [unAsk a b])⟩
/-- A restart; the clock reads this. -/
def ckRestart (t : U64) : HostEvent := .restart id (fun _ => t) t

/-- C94 is false: the clock is set back before the timer ticks (window [801, 1801] after [1000, 2000]); two samples sent and stored in order
of time are reported in order of time, and after a restart in the other order. -/
theorem C94_violated_order : ckRun [ckWrite [1100], .tick 800#64, ckWrite [1200], ckRead 0 10000, ckRestart 3000#64, ckRead 0 10000] =
      [some ⟨200, []⟩, none, some ⟨200, []⟩, some ⟨200, unBody [1100, 1200]⟩, none, some ⟨200, unBody [1200, 1100]⟩] ∧
    (∃ out, exSnappy.decompress (unBody [1100, 1200]) = some out ∧ ∀ m, IsResponse exRt.utf8 m out ↔ m = [[unSer [1100, 1200]]]) ∧
    ∃ out, exSnappy.decompress (unBody [1200, 1100]) = some out ∧ ∀ m, IsResponse exRt.utf8 m out ↔ m = [[unSer [1200, 1100]]] :=
  ⟨by decide +kernel, unBody_reads _ (by unfold I64; decide) (by decide +kernel), unBody_reads _ (by unfold I64; decide) (by decide +kernel)⟩

/-- C94 is false: a restart after the clock was set back (to 1500) hides a sample that was reported before, until the next restart at which
the clock has passed it. -/
theorem C94_violated_hides : ckRun [ckWrite [1100, 1800], ckRead 1600 1900, ckRestart 1500#64, ckRead 1600 1900, ckRestart 3000#64, ckRead 1600 1900] =
      [some ⟨200, []⟩, some ⟨200, unBody [1800]⟩, none, some ⟨200, unBody []⟩, none, some ⟨200, unBody [1800]⟩] ∧
    (∃ out, exSnappy.decompress (unBody [1800]) = some out ∧ ∀ m, IsResponse exRt.utf8 m out ↔ m = [[unSer [1800]]]) ∧
    ∃ out, exSnappy.decompress (unBody []) = some out ∧ ∀ m, IsResponse exRt.utf8 m out ↔ m = [[]] :=
  ⟨by decide +kernel, unBody_reads _ (by unfold I64; decide) (by decide +kernel), unBody_reads _ (by unfold I64; decide) (by decide +kernel)⟩

/-- C94 is false: after a tick with the clock set back, a sample in the window of the chunk just closed is acknowledged and never reported. -/
theorem C94_violated_dropped : ckRun [ckWrite [1100], .tick 800#64, ckWrite [1900], ckRead 0 10000, ckRestart 3000#64, ckRead 0 10000] =
      [some ⟨200, []⟩, none, some ⟨200, []⟩, some ⟨200, unBody [1100]⟩, none, some ⟨200, unBody [1100]⟩] ∧
    ∃ out, exSnappy.decompress (unBody [1100]) = some out ∧ ∀ m, IsResponse exRt.utf8 m out ↔ m = [[unSer [1100]]] :=
  ⟨by decide +kernel, unBody_reads _ (by unfold I64; decide) (by decide +kernel)⟩

/-! ### The hypotheses of the theorems hold: the history of C94_violated_order -/

def ckStory : List HostEvent := [ckWrite [1100], .tick 800#64, ckWrite [1200], ckRead 0 10000, ckRestart 3000#64, ckRead 0 10000]
def ckSaid : List Happening :=
  [.call (.write [unSer [1100]]), .tick 800#64, .call (.write [unSer [1200]]), .call (.read [unAsk 0 10000]), .restart id (fun _ => 3000#64) 3000#64,
    .call (.read [unAsk 0 10000])]

theorem ckStory_means : Forall₂ (Means exSnappy exRt.utf8 ⟨[114#8], [119#8]⟩) ckStory ckSaid :=
  .cons ⟨rfl, _, _, rfl, rfl, unWrite_says _ (by unfold I64; decide) (by decide +kernel)⟩ (.cons rfl
    (.cons ⟨rfl, _, _, rfl, rfl, unWrite_says _ (by unfold I64; decide) (by decide +kernel)⟩ (.cons ⟨rfl, _, _, rfl, rfl, unRead_says⟩
      (.cons ⟨rfl, rfl, rfl⟩ (.cons ⟨rfl, _, _, rfl, rfl, unRead_says⟩ .nil)))))

theorem ckStory_timely : TimelyAll idealHash exRt 1000#64 (Site.fresh 1000#64 1000#64) ckSaid := by
  have hwf : ∀ ts, ∀ ser ∈ [unSer ts], WFSet ser.labels := by
    intro ts s hs; simp only [List.mem_singleton] at hs; subst hs; exact wfSet_of (show wfSetB [lbl "a" "1", lbl "b" "2"] = true by decide +kernel)
  have hq : ∀ (s : Site), (∀ c ∈ s.g.all, SIncr (c.h.map (·.2))) → Timely idealHash exRt 1000#64 s (.call (.read [unAsk 0 10000])) := by
    intro s hi _
    refine ⟨by simp, fun c hc ls => incr_pointsFor (hi c hc) ls, ?_⟩
    intro q hq
    simp only [List.mem_singleton] at hq; subst hq
    exact ⟨by intro x hx; simp only [unAsk, List.mem_singleton] at hx; subst hx; exact wfLabel_of (by decide +kernel), by decide, idealHash_good _⟩
  exact ⟨fun _ => hwf _, fun _ => ⟨by decide +kernel, by decide +kernel⟩, fun _ => hwf _, hq _ (by unfold SIncr; decide +kernel),
    ⟨fun _ => List.Perm.refl _, by decide +kernel, by decide +kernel⟩, hq _ (by unfold SIncr; decide +kernel), True.intro⟩

theorem ckStory_runs (xs : List (Option Response)) (h' : Host) (hrun : (Host.fresh 1000#64 1000#64).run stdBinSearch idealHash (pbFormats exSnappy exRt) ⟨[114#8], [119#8]⟩
      [100#8] 1000#64 ckStory = (xs, h')) :
    xs = [some ⟨200, []⟩, none, some ⟨200, []⟩, some ⟨200, unBody [1100, 1200]⟩, none, some ⟨200, unBody [1200, 1100]⟩] := by
  have h0 := C94_violated_order.1
  have : ckRun ckStory = xs := by unfold ckRun; rw [hrun]
  rw [← this]; exact h0

-- the first sample is in the last answer
example (xs : List (Option Response)) (h' : Host) (hrun : (Host.fresh 1000#64 1000#64).run stdBinSearch idealHash (pbFormats exSnappy exRt) ⟨[114#8], [119#8]⟩
      [100#8] 1000#64 ckStory = (xs, h')) :
    ∃ out, exSnappy.decompress (unBody [1200, 1100]) = some out ∧ (out.length < 2 ^ 32 → ∃ rs r, (∀ m, IsResponse exRt.utf8 m out ↔ m = rs) ∧ rs[0]? = some r ∧
      ∃ y ∈ r, y.labels = sortLabels (unSer [1100]).labels ∧ asReported (Sample.point ⟨0x3ff0000000000000#64, 1100⟩) ∈ y.samples) := by
  have hx := ckStory_runs xs h' hrun
  subst hx
  exact C94_partial_durable stdBinSearch idealHash exSnappy exRt ⟨[114#8], [119#8]⟩ (by decide) [100#8] (by decide) 1000#64 1000#64 ckStory ckSaid ckStory_means
    ckStory_timely (by decide +kernel) _ h' hrun 0 5 (by decide) [unSer [1100]] rfl rfl (unSer [1100]) (by simp) ⟨0x3ff0000000000000#64, 1100⟩ (by simp [unSer])
    (by decide +kernel) [unAsk 0 10000] rfl _ rfl 0 (by decide) (by simp [unAsk]) (by decide +kernel) rfl (by decide +kernel)

-- the reads before and after the restart differ only in the order of samples
example (xs : List (Option Response)) (h' : Host) (hrun : (Host.fresh 1000#64 1000#64).run stdBinSearch idealHash (pbFormats exSnappy exRt) ⟨[114#8], [119#8]⟩
      [100#8] 1000#64 ckStory = (xs, h')) :
    ∃ out out', exSnappy.decompress (unBody [1100, 1200]) = some out ∧ exSnappy.decompress (unBody [1200, 1100]) = some out' ∧ (out.length < 2 ^ 32 → out'.length < 2 ^ 32 →
      ∃ rs rs', (∀ m, IsResponse exRt.utf8 m out ↔ m = rs) ∧ (∀ m, IsResponse exRt.utf8 m out' ↔ m = rs') ∧
      Forall₂ (fun r r' => (∀ y ∈ r, ∃ y' ∈ r', y'.labels = y.labels ∧ y'.samples.Perm y.samples) ∧
        ∀ y' ∈ r', ∃ y ∈ r, y'.labels = y.labels ∧ y'.samples.Perm y.samples) rs rs') := by
  have hx := ckStory_runs xs h' hrun
  subst hx
  refine C94_partial_restart stdBinSearch idealHash exSnappy exRt ⟨[114#8], [119#8]⟩ (by decide) [100#8] (by decide) 1000#64 1000#64 ckStory ckSaid ckStory_means
    ckStory_timely (by decide +kernel) _ h' hrun ?_ 3 [unAsk 0 10000] id (fun _ => 3000#64) 3000#64 rfl rfl rfl _ _ rfl rfl
  intro i e he
  match i, he with
  | 0, he => cases he; exact True.intro
  | 1, he => cases he; exact True.intro
  | 2, he => cases he; exact True.intro
  | 3, he => cases he; exact True.intro
  | 4, he =>
    cases he
    show ∀ c ∈ ((Site.fresh 1000#64 1000#64).went 1000#64 (ckSaid.take 4)).g.all, ∀ w ∈ c.h, w.2.ts.toNat ≤ (3000#64).toNat
    decide +kernel
  | 5, he => cases he; exact True.intro
  | n + 6, he => simp [ckSaid] at he

-- every sample in the last answer was sent
example (xs : List (Option Response)) (h' : Host) (hrun : (Host.fresh 1000#64 1000#64).run stdBinSearch idealHash (pbFormats exSnappy exRt) ⟨[114#8], [119#8]⟩
      [100#8] 1000#64 ckStory = (xs, h')) : ∃ out, exSnappy.decompress (unBody [1200, 1100]) = some out ∧
      (out.length < 2 ^ 32 → ∃ rs, (∀ m, IsResponse exRt.utf8 m out ↔ m = rs) ∧ rs.length = 1) := by
  have hx := ckStory_runs xs h' hrun
  subst hx
  obtain ⟨out, h1, h2⟩ := C94_partial_honest stdBinSearch idealHash exSnappy exRt ⟨[114#8], [119#8]⟩ (by decide) [100#8] (by decide) 1000#64 1000#64 ckStory ckSaid
    ckStory_means ckStory_timely (by decide +kernel) _ h' hrun 5 [unAsk 0 10000] rfl _ rfl
  refine ⟨out, h1, fun hl => ?_⟩
  obtain ⟨rs, h3, h4, -⟩ := h2 hl
  exact ⟨rs, h3, h4⟩

end Verif
