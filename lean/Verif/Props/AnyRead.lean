import Verif.Lemmas.AnyRead
import Verif.Props.AnyTime
import Verif.Props.Ranges
/-! Property C102: no read, whatever it asks for, takes anything accepted away from later ones. -/
namespace Verif
open List

/-- C102, service: whatever was read before - with any ranges, any labels, any bytes - if the server runs (a restart always makes it run), it answers a write
as specified and a read with well-formed labels and no inverted range by 200. -/
theorem C102_serves (B : BinSearch) (hB : Careful B) (H : Hash) (sn : Snappy) (rt : PbRt) (P : Paths) (hP : P.read ≠ P.write) (base : Str)
    (hb : ∀ b ∈ base, isCont b = false) (size t0 : U64) (es : List HostEvent) (hs : List Happening) (hm : Forall₂ (Means sn rt.utf8 P) es hs)
    (hlen : sent hs < 2 ^ 64 - 1) (xs : List (Option Response)) (h' : Host)
    (hrun : (Host.fresh size t0).run B H (pbFormats sn rt) P base size es = (xs, h')) (hp : AnyReadAll H rt size (Site.fresh size t0) hs xs) :
    xs.length = hs.length ∧ (∀ (i : Nat) (m : List PSeries) (x : Option Response), hs[i]? = some (.call (.write m)) → xs[i]? = some x →
      ((Site.fresh size t0).seen size (hs.take i) (xs.take i)).up = true →
      x = some ⟨if ∃ ser ∈ m, Refused ((Site.fresh size t0).seen size (hs.take i) (xs.take i)).g.cur ser then 500 else 200, []⟩) ∧
    ∀ (j : Nat) (qs : List PQuery) (x : Option Response), hs[j]? = some (.call (.read qs)) → xs[j]? = some x →
      ((Site.fresh size t0).seen size (hs.take j) (xs.take j)).up = true →
      ProperAny H rt size ((Site.fresh size t0).seen size (hs.take j) (xs.take j)) (.call (.read qs)) →
      AnsweredBy B sn rt.utf8 ((Site.fresh size t0).seen size (hs.take j) (xs.take j)) (.call (.read qs)) x ∧ ∃ body, x = some ⟨200, body⟩ := by
  obtain ⟨h1, h2⟩ := (fresh_hostLoose B rt size t0).seen H sn hP hb hm (by omega) hrun hp
  refine ⟨h1, ?_, ?_⟩
  · intro i m x hi hx hup
    obtain ⟨e, hi', ni, m1, m2, m3, m4, m5⟩ := h2 i _ hi
    have := (m3.see H sn hP hb m1 m4 m2).1 (fun h => h)
    rw [hx] at m5
    cases m5
    simpa only [Answered, if_pos hup] using this
  · intro j qs x hj hx hup hpr
    obtain ⟨e, hj', nj, m1, m2, m3, -, m5⟩ := h2 j _ hj
    obtain ⟨y, h'', k1, k2, -⟩ := m3.step_any hB H sn hP hb (size := size) m1 hpr m2
    rw [hx, k1] at m5
    cases m5
    refine ⟨k2, ?_⟩
    simp only [AnsweredBy, if_pos hup] at k2
    obtain ⟨body, out, e1, -⟩ := k2
    exact ⟨body, e1⟩

/-- C102, the exact answer: whatever was read before, from time 0 to a time after everything accepted a query with well-formed labels reports for
every accepted label set that has them exactly the samples accepted for it, each as often as it was accepted. -/
theorem C102_exact (B : BinSearch) (hB : Careful B) (H : Hash) (sn : Snappy) (rt : PbRt) (P : Paths) (hP : P.read ≠ P.write) (base : Str)
    (hb : ∀ b ∈ base, isCont b = false) (size t0 : U64) (es : List HostEvent) (hs : List Happening) (hm : Forall₂ (Means sn rt.utf8 P) es hs)
    (hlen : sent hs < 2 ^ 64 - 1) (xs : List (Option Response)) (h' : Host)
    (hrun : (Host.fresh size t0).run B H (pbFormats sn rt) P base size es = (xs, h')) (hp : AnyReadAll H rt size (Site.fresh size t0) hs xs)
    (j : Nat) (qs : List PQuery) (hj : hs[j]? = some (.call (.read qs))) (hup : ((Site.fresh size t0).seen size (hs.take j) (xs.take j)).up = true)
    (hpr : ProperAny H rt size ((Site.fresh size t0).seen size (hs.take j) (xs.take j)) (.call (.read qs)))
    (k : Nat) (hk : k < qs.length) (hne : qs[k].matchers ≠ []) (h0 : qs[k].start_ = 0)
    (hcov : ∀ w ∈ (Site.fresh size t0).took size (hs.take j) (xs.take j), w.2.ts.toNat < (asU64 qs[k].end_).toNat) :
    ∃ body out, xs[j]? = some (some ⟨200, body⟩) ∧ sn.decompress body = some out ∧
      (out.length < 2 ^ 32 → ∃ rs r, (∀ m, IsResponse rt.utf8 m out ↔ m = rs) ∧ rs[k]? = some r ∧ (r.map (·.labels)).Nodup ∧
      ∀ w ∈ (Site.fresh size t0).took size (hs.take j) (xs.take j), (∀ y ∈ qs[k].matchers, (⟨y.name, y.value⟩ : Label) ∈ w.1) →
        ∃ y ∈ r, y.labels = sortLabels w.1 ∧ y.samples.Perm ((pointsFor ((Site.fresh size t0).took size (hs.take j) (xs.take j)) w.1).map asReported)) := by
  obtain ⟨h1, -, h3⟩ := C102_serves B hB H sn rt P hP base hb size t0 es hs hm hlen xs h' hrun hp
  obtain ⟨hj1, -⟩ := List.getElem?_eq_some_iff.mp hj
  obtain ⟨aj, -⟩ := h3 j qs xs[j] hj (List.getElem?_eq_getElem _) hup hpr
  have hh := fresh_seen_holds size t0 (hs.take j) (xs.take j)
  obtain ⟨body, out, a1, a2, a3⟩ := answered_covering hB aj hup (Site.seen_sound (hp.take j) (fresh_sound size t0)) hk hne h0
    (fun c hc w hw => hcov w (hh.mem_iff.mp (List.mem_flatMap.mpr ⟨c, hc, hw⟩)))
  refine ⟨body, out, by rw [List.getElem?_eq_getElem (by omega), a1], a2, fun hl => ?_⟩
  obtain ⟨rs, r, r1, r2, r3, r4⟩ := a3 hl
  refine ⟨rs, r, r1, r2, r3, fun w hw hsub => ⟨_, r4 w (hh.mem_iff.mpr hw) hsub, rfl, ?_⟩⟩
  exact List.Perm.map _ (List.Perm.map _ (hh.filter _))

/-- C102, the whole answer: whatever was read before, for a query by one label, from time 0 to a time after everything accepted, the series reported are exactly those accepted
with this label, each once and with exactly the samples accepted for it, each as often as it was accepted - and nothing else. -/
theorem C102_whole (B : BinSearch) (hB : Careful B) (H : Hash) (sn : Snappy) (rt : PbRt) (P : Paths) (hP : P.read ≠ P.write) (base : Str)
    (hb : ∀ b ∈ base, isCont b = false) (size t0 : U64) (es : List HostEvent) (hs : List Happening) (hm : Forall₂ (Means sn rt.utf8 P) es hs)
    (hlen : sent hs < 2 ^ 64 - 1) (xs : List (Option Response)) (h' : Host)
    (hrun : (Host.fresh size t0).run B H (pbFormats sn rt) P base size es = (xs, h')) (hp : AnyReadAll H rt size (Site.fresh size t0) hs xs)
    (j : Nat) (qs : List PQuery) (hj : hs[j]? = some (.call (.read qs))) (hup : ((Site.fresh size t0).seen size (hs.take j) (xs.take j)).up = true)
    (hpr : ProperAny H rt size ((Site.fresh size t0).seen size (hs.take j) (xs.take j)) (.call (.read qs)))
    (k : Nat) (hk : k < qs.length) (x : LabelMatcher) (hx : qs[k].matchers = [x]) (h0 : qs[k].start_ = 0)
    (hcov : ∀ w ∈ (Site.fresh size t0).took size (hs.take j) (xs.take j), w.2.ts.toNat < (asU64 qs[k].end_).toNat) :
    ∃ body out, xs[j]? = some (some ⟨200, body⟩) ∧ sn.decompress body = some out ∧
      (out.length < 2 ^ 32 → ∃ rs r, (∀ m, IsResponse rt.utf8 m out ↔ m = rs) ∧ rs[k]? = some r ∧ (r.map (·.labels)).Nodup ∧
      (∀ ls, (∃ y ∈ r, y.labels = ls) ↔ ∃ w ∈ (Site.fresh size t0).took size (hs.take j) (xs.take j), sortLabels w.1 = ls ∧ (⟨x.name, x.value⟩ : Label) ∈ w.1) ∧
      ∀ w ∈ (Site.fresh size t0).took size (hs.take j) (xs.take j), ∀ y ∈ r, y.labels = sortLabels w.1 →
        y.samples.Perm ((pointsFor ((Site.fresh size t0).took size (hs.take j) (xs.take j)) w.1).map asReported)) := by
  obtain ⟨body, out, c1, c2, c3⟩ := C102_exact B hB H sn rt P hP base hb size t0 es hs hm hlen xs h' hrun hp j qs hj hup hpr k hk (by simp [hx]) h0 hcov
  obtain ⟨hlx, -, hall⟩ := C102_serves B hB H sn rt P hP base hb size t0 es hs hm hlen xs h' hrun hp
  obtain ⟨hj1, hj2⟩ := List.getElem?_eq_some_iff.mp hj
  obtain ⟨aj, -⟩ := hall j qs xs[j] hj (List.getElem?_eq_getElem _) hup hpr
  have hsound := Site.seen_sound (hp.take j) (fresh_sound size t0)
  have hh := fresh_seen_holds size t0 (hs.take j) (xs.take j)
  generalize (Site.fresh size t0).took size (hs.take j) (xs.take j) = acc at *
  generalize (Site.fresh size t0).seen size (hs.take j) (xs.take j) = sj at *
  simp only [AnsweredBy, if_pos hup] at aj
  obtain ⟨body', out', a1, a2, rs', a3, a4⟩ := aj
  rw [List.getElem?_eq_getElem (by omega), a1] at c1
  simp only [Option.some.injEq, Response.mk.injEq, true_and] at c1
  subst c1
  rw [a2] at c2
  cases c2
  refine ⟨body', out, by rw [List.getElem?_eq_getElem (by omega), a1], a2, fun hl => ?_⟩
  obtain ⟨rs, r, r1, r2, r3, r4⟩ := c3 hl
  have hrs : rs' = rs := (r1 rs').mp ((a4 hl rs').mpr rfl)
  subst hrs
  obtain ⟨r', q1, es', q2, q3⟩ := Forall₂.getElem_left a3 k hk
  rw [r2] at q1
  cases q1
  rw [h0, show asU64 0 = 0#64 from by decide] at q2
  -- what is reported was accepted, and has the label
  have honest : ∀ y ∈ r, ∃ w ∈ acc, sortLabels w.1 = y.labels ∧ (⟨x.name, x.value⟩ : Label) ∈ w.1 := by
    intro y hy
    rw [q3] at hy
    obtain ⟨⟨ls, ps⟩, he, rfl⟩ := List.mem_map.mp hy
    obtain ⟨hne, -⟩ := (q2.entries ls ps).mp he
    obtain ⟨s, hs'⟩ := List.exists_mem_of_ne_nil _ hne
    obtain ⟨a, ha, hs''⟩ := List.mem_flatMap.mp hs'
    obtain ⟨c, hc, rfl⟩ := List.mem_map.mp ha
    rw [List.mem_filter, decide_eq_true_eq] at hs''
    have hab : (0#64 : U64).toNat ≤ (asU64 qs[k].end_).toNat := by simp
    have hwf : ∀ w ∈ c.h, WFSet w.1 := fun w hw => (hsound c hc w hw).1
    obtain ⟨n1, -⟩ := answerBy_held hB hwf hab hs''.1
    obtain ⟨p, hp⟩ := List.exists_mem_of_ne_nil _ n1
    obtain ⟨w, hw, -, e, ⟨l, l1, l2⟩, -⟩ := answerBy_asked hB hwf hab hs''.1 p hp
    rw [hx] at l1
    simp only [List.map_cons, List.map_nil, List.mem_singleton] at l1
    subst l1
    exact ⟨w, hh.mem_iff.mp (List.mem_flatMap.mpr ⟨c, hc, hw⟩), e.trans hs''.2, l2⟩
  refine ⟨rs', r, r1, r2, r3, fun ls => ⟨?_, ?_⟩, ?_⟩
  · rintro ⟨y, hy, rfl⟩
    exact honest y hy
  · rintro ⟨w, hw, rfl, hl'⟩
    obtain ⟨y, hy, e1, -⟩ := r4 w hw (by rw [hx]; intro z hz; simp only [List.mem_singleton] at hz; subst hz; exact hl')
    exact ⟨y, hy, e1⟩
  · intro w hw y hy e
    obtain ⟨v, hv, e1, e2⟩ := honest y hy
    have hwf : ∀ w ∈ acc, WFSet w.1 := by
      intro w hw
      obtain ⟨c, hc, hw⟩ := List.mem_flatMap.mp (hh.mem_iff.mpr hw)
      exact (hsound c hc w hw).1
    have hpm : v.1.Perm w.1 := perm_of_sortLabels_eq (e1.trans e)
    obtain ⟨y', hy', f1, f2⟩ := r4 w hw (by
      rw [hx]; intro z hz; simp only [List.mem_singleton] at hz; subst hz; exact hpm.mem_iff.mp e2)
    have : y = y' := by
      have hn := r3
      clear r2 r4 q3 r1 honest
      induction r with
      | nil => simp at hy
      | cons a r ih =>
        rw [List.map_cons, List.nodup_cons] at hn
        rcases List.mem_cons.mp hy with g | g <;> rcases List.mem_cons.mp hy' with g' | g'
        · rw [g, g']
        · exact absurd (List.mem_map.mpr ⟨y', g', by rw [f1, ← e, g]⟩) hn.1
        · exact absurd (List.mem_map.mpr ⟨y, g, by rw [e, ← f1, g']⟩) hn.1
        · exact ih hn.2 g g' hn.2
    rw [this]
    exact f2

/-- C102, durability: a sample of a write answered by 200, strictly inside the window that was current, is in every later answer to a query from time
0 to a time after everything accepted by some of its labels, whatever was read in between. -/
theorem C102_durable (B : BinSearch) (hB : Careful B) (H : Hash) (sn : Snappy) (rt : PbRt) (P : Paths) (hP : P.read ≠ P.write) (base : Str)
    (hb : ∀ b ∈ base, isCont b = false) (size t0 : U64) (es : List HostEvent) (hs : List Happening) (hm : Forall₂ (Means sn rt.utf8 P) es hs)
    (hlen : sent hs < 2 ^ 64 - 1) (xs : List (Option Response)) (h' : Host)
    (hrun : (Host.fresh size t0).run B H (pbFormats sn rt) P base size es = (xs, h')) (hp : AnyReadAll H rt size (Site.fresh size t0) hs xs)
    (i j : Nat) (hij : i < j) (m : List PSeries) (hi : hs[i]? = some (.call (.write m))) (hack : xs[i]? = some (some ⟨200, []⟩))
    (ser : PSeries) (hser : ser ∈ m) (x : Sample) (hx : x ∈ ser.samples)
    (hin : inside ((Site.fresh size t0).seen size (hs.take i) (xs.take i)).g.cur.lo ((Site.fresh size t0).seen size (hs.take i) (xs.take i)).g.cur.hi x.point = true)
    (qs : List PQuery) (hj : hs[j]? = some (.call (.read qs))) (hup : ((Site.fresh size t0).seen size (hs.take j) (xs.take j)).up = true)
    (hpr : ProperAny H rt size ((Site.fresh size t0).seen size (hs.take j) (xs.take j)) (.call (.read qs)))
    (k : Nat) (hk : k < qs.length) (hne : qs[k].matchers ≠ []) (hsub : ∀ y ∈ qs[k].matchers, (⟨y.name, y.value⟩ : Label) ∈ ser.labels)
    (h0 : qs[k].start_ = 0)
    (hcov : ∀ w ∈ (Site.fresh size t0).took size (hs.take j) (xs.take j), w.2.ts.toNat < (asU64 qs[k].end_).toNat) :
    ∃ body out, xs[j]? = some (some ⟨200, body⟩) ∧ sn.decompress body = some out ∧
      (out.length < 2 ^ 32 → ∃ rs r, (∀ m, IsResponse rt.utf8 m out ↔ m = rs) ∧ rs[k]? = some r ∧
      ∃ y ∈ r, y.labels = sortLabels ser.labels ∧ asReported x.point ∈ y.samples) := by
  obtain ⟨body, out, c1, c2, c3⟩ := C102_exact B hB H sn rt P hP base hb size t0 es hs hm hlen xs h' hrun hp j qs hj hup hpr k hk hne h0 hcov
  obtain ⟨h1, h2⟩ := (fresh_hostLoose B rt size t0).seen H sn hP hb hm (by omega) hrun hp
  obtain ⟨e, hi', ni, m1, m2, m3, m4, m5⟩ := h2 i _ hi
  have ai := (m3.see H sn hP hb m1 m4 m2).1 (fun h => h)
  rw [hack, Option.some.injEq] at m5
  rw [← m5] at ai
  have hacc : (ser.labels, x.point) ∈ (Site.fresh size t0).took size (hs.take j) (xs.take j) := by
    obtain ⟨l, l', e1⟩ := took_split size hs xs (Site.fresh size t0) hij hi h1
    rw [e1]
    refine List.mem_append_right _ (List.mem_append_left _ ?_)
    clear m3 m4 hcov c3 e1
    generalize (Site.fresh size t0).seen size (hs.take i) (xs.take i) = si at *
    have hui : si.up = true := by
      by_contra hu
      simp only [Answered, if_neg hu] at ai
      cases ai
    simp only [Answered, if_pos hui, Option.some.injEq, Response.mk.injEq, and_true] at ai
    have hno : ∀ s ∈ m, ¬ Refused si.g.cur s := by
      intro s hs hr
      rw [if_pos ⟨s, hs, hr⟩] at ai
      omega
    simp only [Site.brings, if_pos hui]
    rw [takeUntil_all hno]
    exact newPoints_mem.mpr ⟨ser, hser, x, hx, rfl, hin⟩
  refine ⟨body, out, c1, c2, fun hl => ?_⟩
  obtain ⟨rs, r, r1, r2, -, r3⟩ := c3 hl
  obtain ⟨y, hy, e1, e2⟩ := r3 _ hacc hsub
  refine ⟨rs, r, r1, r2, y, hy, e1, e2.mem_iff.mpr (List.mem_map_of_mem ?_)⟩
  unfold pointsFor
  exact List.mem_map.mpr ⟨(ser.labels, x.point), List.mem_filter.mpr ⟨hacc, by simp⟩, rfl⟩

/-- C102, repeated reads: if nothing is written between two such reads - other reads of any kind, restarts, ticks - both report the same samples for every
series that has the labels of the query, each the same number of times. -/
theorem C102_same (B : BinSearch) (hB : Careful B) (H : Hash) (sn : Snappy) (rt : PbRt) (P : Paths) (hP : P.read ≠ P.write) (base : Str)
    (hb : ∀ b ∈ base, isCont b = false) (size t0 : U64) (es : List HostEvent) (hs : List Happening) (hm : Forall₂ (Means sn rt.utf8 P) es hs)
    (hlen : sent hs < 2 ^ 64 - 1) (xs : List (Option Response)) (h' : Host)
    (hrun : (Host.fresh size t0).run B H (pbFormats sn rt) P base size es = (xs, h')) (hp : AnyReadAll H rt size (Site.fresh size t0) hs xs)
    (i j : Nat) (hij : i ≤ j) (hquiet : ∀ (n : Nat) (e : Happening), i ≤ n → n < j → hs[n]? = some e → e.quiet)
    (qs qs' : List PQuery) (hi : hs[i]? = some (.call (.read qs))) (hj : hs[j]? = some (.call (.read qs')))
    (hui : ((Site.fresh size t0).seen size (hs.take i) (xs.take i)).up = true) (huj : ((Site.fresh size t0).seen size (hs.take j) (xs.take j)).up = true)
    (hpi : ProperAny H rt size ((Site.fresh size t0).seen size (hs.take i) (xs.take i)) (.call (.read qs)))
    (hpj : ProperAny H rt size ((Site.fresh size t0).seen size (hs.take j) (xs.take j)) (.call (.read qs')))
    (k k' : Nat) (hk : k < qs.length) (hk' : k' < qs'.length) (hne : qs[k].matchers ≠ []) (hsame : qs'[k'] = qs[k]) (h0 : qs[k].start_ = 0)
    (hcov : ∀ w ∈ (Site.fresh size t0).took size (hs.take i) (xs.take i), w.2.ts.toNat < (asU64 qs[k].end_).toNat) :
    ∃ body out body' out', xs[i]? = some (some ⟨200, body⟩) ∧ sn.decompress body = some out ∧ xs[j]? = some (some ⟨200, body'⟩) ∧
      sn.decompress body' = some out' ∧ (out.length < 2 ^ 32 → out'.length < 2 ^ 32 → ∃ rs r rs' r', (∀ m, IsResponse rt.utf8 m out ↔ m = rs) ∧
      (∀ m, IsResponse rt.utf8 m out' ↔ m = rs') ∧ rs[k]? = some r ∧ rs'[k']? = some r' ∧
      ∀ w ∈ (Site.fresh size t0).took size (hs.take i) (xs.take i), (∀ y ∈ qs[k].matchers, (⟨y.name, y.value⟩ : Label) ∈ w.1) →
        ∃ y ∈ r, ∃ y' ∈ r', y.labels = sortLabels w.1 ∧ y'.labels = sortLabels w.1 ∧ y.samples.Perm y'.samples) := by
  have htook : (Site.fresh size t0).took size (hs.take j) (xs.take j) = (Site.fresh size t0).took size (hs.take i) (xs.take i) := by
    generalize Site.fresh size t0 = s
    clear hp hrun hm hlen hi hj hui huj hpi hpj hcov
    have hz : ∀ (l : List Happening) (ys : List (Option Response)) (s : Site), (∀ e ∈ l, e.quiet) → s.took size l ys = [] := by
      intro l
      induction l with
      | nil => intro ys s _; cases ys <;> rfl
      | cons e l ih =>
        intro ys s hl
        cases ys with
        | nil => rfl
        | cons y ys =>
          rw [Site.took, ih _ _ fun x hx => hl x (by simp [hx])]
          have := hl e (by simp)
          rcases e with (_ | _ | _ | _ | _) | _ | _
          · exact this.elim
          all_goals rfl
    induction hs generalizing s xs i j with
    | nil => simp [Site.took]
    | cons e es ih =>
      cases xs with
      | nil => cases i <;> cases j <;> rfl
      | cons x xs =>
        cases j with
        | zero =>
          have : i = 0 := by omega
          subst this; rfl
        | succ j =>
          cases i with
          | zero =>
            refine (hz _ _ _ ?_).trans rfl
            intro a ha
            obtain ⟨n, hn, rfl⟩ := List.mem_iff_getElem.mp ha
            rw [List.length_take] at hn
            rw [List.getElem_take]
            exact hquiet n _ (by omega) (by omega) (List.getElem?_eq_getElem (by omega))
          | succ i =>
            rw [List.take_succ_cons, List.take_succ_cons, List.take_succ_cons, List.take_succ_cons, Site.took, Site.took]
            rw [ih xs i j (by omega) (fun n e h1 h2 h3 => hquiet (n + 1) e (by omega) (by omega) (by simpa using h3))]
  obtain ⟨b1, o1, c1, c2, c3⟩ := C102_exact B hB H sn rt P hP base hb size t0 es hs hm hlen xs h' hrun hp i qs hi hui hpi k hk hne h0 hcov
  obtain ⟨b2, o2, d1, d2, d3⟩ := C102_exact B hB H sn rt P hP base hb size t0 es hs hm hlen xs h' hrun hp j qs' hj huj hpj k' hk' (by rw [hsame]; exact hne)
    (by rw [hsame]; exact h0) (by rw [hsame, htook]; exact hcov)
  refine ⟨b1, o1, b2, o2, c1, c2, d1, d2, fun hl hl' => ?_⟩
  obtain ⟨rs, r, r1, r2, -, r4⟩ := c3 hl
  obtain ⟨rs', r', r1', r2', -, r4'⟩ := d3 hl'
  refine ⟨rs, r, rs', r', r1, r1', r2, r2', fun w hw hsub => ?_⟩
  obtain ⟨y, hy, s1, s2⟩ := r4 w hw hsub
  obtain ⟨y', hy', s1', s2'⟩ := r4' w (by rw [htook]; exact hw) (by rw [hsame]; exact hsub)
  rw [htook] at s2'
  exact ⟨y, hy, y', hy', s1, s1', s2.trans s2'.symm⟩

/-- C102, a restart repairs: after a restart the server runs, whatever was read before. -/
theorem C102_recovers (B : BinSearch) (H : Hash) (sn : Snappy) (rt : PbRt) (P : Paths) (hP : P.read ≠ P.write) (base : Str)
    (hb : ∀ b ∈ base, isCont b = false) (size t0 : U64) (es : List HostEvent) (hs : List Happening) (hm : Forall₂ (Means sn rt.utf8 P) es hs)
    (hlen : sent hs < 2 ^ 64 - 1) (xs : List (Option Response)) (h' : Host)
    (hrun : (Host.fresh size t0).run B H (pbFormats sn rt) P base size es = (xs, h')) (hp : AnyReadAll H rt size (Site.fresh size t0) hs xs)
    (order : List Slot → List Slot) (clock : Str → U64) (now : U64)
    (hr : AnyRead H rt size ((Site.fresh size t0).seen size hs xs) (.restart order clock now)) :
    (h'.step B H (pbFormats sn rt) P base size (.restart order clock now)).2.up = true := by
  have h1 : ∀ (es : List HostEvent) (hs : List Happening) (n : Nat) (h : Host) (s : Site) (xs : List (Option Response)),
      Forall₂ (Means sn rt.utf8 P) es hs → HostLoose B rt n h s → n + sent hs < 2 ^ 64 - 1 → h.run B H (pbFormats sn rt) P base size es = (xs, h') →
      AnyReadAll H rt size s hs xs → HostLoose B rt (n + sent hs) h' (s.seen size hs xs) := by
    intro es hs n h s xs hm
    induction hm generalizing n h s xs with
    | nil =>
      intro hr _ hrun _
      simp only [Host.run, Prod.mk.injEq] at hrun
      obtain ⟨rfl, rfl⟩ := hrun
      exact hr
    | @cons e e' es hs h1 _ ih =>
      intro hr hlen hrun hp
      rw [sent_cons] at hlen ⊢
      simp only [Host.run, Prod.mk.injEq] at hrun
      obtain ⟨rfl, e2⟩ := hrun
      rw [← Nat.add_assoc]
      exact ih _ _ _ _ (hr.see H sn hP hb h1 hp.1 (by omega)).2 (by omega) (Prod.ext rfl e2) hp.2
  have h2 := h1 es hs 0 _ _ xs hm (fresh_hostLoose B rt size t0) (by omega) hrun hp
  exact (h2.see H sn hP hb (e := .restart order clock now) (e' := .restart order clock now) ⟨rfl, rfl, rfl⟩ hr (by have : sent [.restart order clock now] = 0 := rfl; omega)).2.up

/-! ### The hypotheses of the theorems hold: samples out of order and repeated, inverted ranges, a read that ends the process, a restart -/

def acStory : List HostEvent := [ckWrite [1100, 1300, 1200, 1200, 1300], .tick 800#64, ckRead (-1) 10000, ckRead 1250 1150, ckRead 0 10000, ckRestart 3000#64, ckRead 0 10000]
def acSaid : List Happening :=
  [.call (.write [unSer [1100, 1300, 1200, 1200, 1300]]), .tick 800#64, .call (.read [unAsk (-1) 10000]), .call (.read [unAsk 1250 1150]),
    .call (.read [unAsk 0 10000]), .restart id (fun _ => 3000#64) 3000#64, .call (.read [unAsk 0 10000])]

theorem acStory_runs : ckRun acStory = [some ⟨200, []⟩, none, some ⟨200, unBody []⟩, none, none, none, some ⟨200, unBody [1100, 1300, 1200, 1200, 1300]⟩] := by
  decide +kernel

theorem acStory_means : Forall₂ (Means exSnappy exRt.utf8 ⟨[114#8], [119#8]⟩) acStory acSaid :=
  .cons ⟨rfl, _, _, rfl, rfl, unWrite_says _ (by unfold I64; decide) (by decide +kernel)⟩ (.cons rfl
    (.cons ⟨rfl, _, _, rfl, rfl, ask_says (by decide) (by decide) (by decide +kernel)⟩ (.cons ⟨rfl, _, _, rfl, rfl, ask_says (by decide) (by decide) (by decide +kernel)⟩
      (.cons ⟨rfl, _, _, rfl, rfl, unRead_says⟩ (.cons ⟨rfl, rfl, rfl⟩ (.cons ⟨rfl, _, _, rfl, rfl, unRead_says⟩ .nil))))))

theorem acStory_anyRead : AnyReadAll idealHash exRt 1000#64 (Site.fresh 1000#64 1000#64) acSaid (ckRun acStory) := by
  rw [acStory_runs]
  have hwf : ∀ ser ∈ [unSer [1100, 1300, 1200, 1200, 1300]], WFSet ser.labels := by
    intro s hs; simp only [List.mem_singleton] at hs; subst hs; exact wfSet_of (show wfSetB [lbl "a" "1", lbl "b" "2"] = true by decide +kernel)
  exact ⟨fun _ => hwf, fun _ => ⟨by decide, by decide +kernel⟩, trivial, trivial, trivial, ⟨fun _ => Perm.refl _, by decide, by decide +kernel⟩, trivial, trivial⟩

theorem acStory_proper (s : Site) : ProperAny idealHash exRt 1000#64 s (.call (.read [unAsk 0 10000])) := by
  refine fun _ => ⟨by simp, fun q hq => ?_⟩
  simp only [List.mem_singleton] at hq; subst hq
  exact ⟨by intro x hx; simp only [unAsk, List.mem_singleton] at hx; subst hx; exact wfLabel_of (by decide +kernel), by decide, idealHash_good _⟩

-- the fourth event ends the process, the sixth starts it again; all five samples are held
example : (List.range 8).map (fun i => ((Site.fresh 1000#64 1000#64).seen 1000#64 (acSaid.take i) ((ckRun acStory).take i)).up) =
    [true, true, true, true, false, false, true, true] := by
  rw [acStory_runs]; decide +kernel
example : (Site.fresh 1000#64 1000#64).took 1000#64 acSaid (ckRun acStory) =
    [1100#64, 1300#64, 1200#64, 1200#64, 1300#64].map fun t => ([lbl "a" "1", lbl "b" "2"], ⟨t, 0x3ff0000000000000#64⟩) := by
  rw [acStory_runs]; decide +kernel

-- the theorems apply to this history
example (xs : List (Option Response)) (h' : Host) (hrun : (Host.fresh 1000#64 1000#64).run stdBinSearch idealHash (pbFormats exSnappy exRt) ⟨[114#8], [119#8]⟩
      [100#8] 1000#64 acStory = (xs, h')) (hx : xs = ckRun acStory) :=
  C102_whole stdBinSearch stdBinSearch_careful idealHash exSnappy exRt ⟨[114#8], [119#8]⟩ (by decide) [100#8] (by decide) 1000#64 1000#64
      acStory acSaid acStory_means (by decide +kernel) xs h' hrun (by rw [hx]; exact acStory_anyRead) 6 [unAsk 0 10000] rfl (by rw [hx, acStory_runs]; decide +kernel)
      (acStory_proper _) 0 (by decide) _ rfl rfl (by rw [hx, acStory_runs]; decide +kernel)
example (xs : List (Option Response)) (h' : Host) (hrun : (Host.fresh 1000#64 1000#64).run stdBinSearch idealHash (pbFormats exSnappy exRt) ⟨[114#8], [119#8]⟩
      [100#8] 1000#64 acStory = (xs, h')) (hx : xs = ckRun acStory) :=
  C102_exact stdBinSearch stdBinSearch_careful idealHash exSnappy exRt ⟨[114#8], [119#8]⟩ (by decide) [100#8] (by decide) 1000#64 1000#64
      acStory acSaid acStory_means (by decide +kernel) xs h' hrun (by rw [hx]; exact acStory_anyRead) 6 [unAsk 0 10000] rfl (by rw [hx, acStory_runs]; decide +kernel)
      (acStory_proper _) 0 (by decide) (by simp [unAsk]) rfl (by rw [hx, acStory_runs]; decide +kernel)
example (xs : List (Option Response)) (h' : Host) (hrun : (Host.fresh 1000#64 1000#64).run stdBinSearch idealHash (pbFormats exSnappy exRt) ⟨[114#8], [119#8]⟩
      [100#8] 1000#64 acStory = (xs, h')) :
    (∃ body, xs[6]? = some (some ⟨200, body⟩)) ∧
    (∃ body out, xs[6]? = some (some ⟨200, body⟩) ∧ exSnappy.decompress body = some out ∧
      (out.length < 2 ^ 32 → ∃ rs r, (∀ m, IsResponse exRt.utf8 m out ↔ m = rs) ∧ rs[0]? = some r ∧
      ∃ y ∈ r, y.labels = sortLabels (unSer [1100, 1300, 1200, 1200, 1300]).labels ∧ asReported (Sample.point ⟨0x3ff0000000000000#64, 1200⟩) ∈ y.samples)) ∧
    (h'.step stdBinSearch idealHash (pbFormats exSnappy exRt) ⟨[114#8], [119#8]⟩ [100#8] 1000#64 (.restart id (fun _ => 9000#64) 9000#64)).2.up = true := by
  have hx : xs = ckRun acStory := by unfold ckRun; rw [hrun]
  subst hx
  have hu : ((Site.fresh 1000#64 1000#64).seen 1000#64 (acSaid.take 6) ((ckRun acStory).take 6)).up = true := by rw [acStory_runs]; decide +kernel
  have hc : ∀ w ∈ (Site.fresh 1000#64 1000#64).took 1000#64 (acSaid.take 6) ((ckRun acStory).take 6), w.2.ts.toNat < (asU64 (unAsk 0 10000).end_).toNat := by
    rw [acStory_runs]; decide +kernel
  refine ⟨?_, ?_, ?_⟩
  · obtain ⟨-, -, h3⟩ := C102_serves stdBinSearch stdBinSearch_careful idealHash exSnappy exRt ⟨[114#8], [119#8]⟩ (by decide) [100#8] (by decide) 1000#64 1000#64
      acStory acSaid acStory_means (by decide +kernel) _ h' hrun acStory_anyRead
    obtain ⟨-, body, e⟩ := h3 6 [unAsk 0 10000] _ rfl (by rw [acStory_runs]; rfl) hu (acStory_proper _)
    exact ⟨body, by rw [acStory_runs, ← e]; rfl⟩
  · exact C102_durable stdBinSearch stdBinSearch_careful idealHash exSnappy exRt ⟨[114#8], [119#8]⟩ (by decide) [100#8] (by decide) 1000#64 1000#64
      acStory acSaid acStory_means (by decide +kernel) _ h' hrun acStory_anyRead 0 6 (by decide) [unSer [1100, 1300, 1200, 1200, 1300]] rfl
      (by rw [acStory_runs]; rfl) (unSer [1100, 1300, 1200, 1200, 1300]) (by simp) ⟨0x3ff0000000000000#64, 1200⟩ (by simp [unSer]) (by decide +kernel)
      [unAsk 0 10000] rfl hu (acStory_proper _) 0 (by decide) (by simp [unAsk])
      (by intro y hy; simp only [unAsk, List.getElem_cons_zero, List.mem_singleton] at hy; subst hy; simp [unSer]) rfl hc
  · exact C102_recovers stdBinSearch idealHash exSnappy exRt ⟨[114#8], [119#8]⟩ (by decide) [100#8] (by decide) 1000#64 1000#64
      acStory acSaid acStory_means (by decide +kernel) _ h' hrun acStory_anyRead id (fun _ => 9000#64) 9000#64
      ⟨fun _ => Perm.refl _, by decide, by rw [acStory_runs]; decide +kernel⟩

-- the same answer before and after a read that ends the process
def adStory : List HostEvent := [ckWrite [1100, 1300, 1200, 1200, 1300], ckRead 0 10000, ckRead 1250 1150, ckRestart 3000#64, ckRead 0 10000]
def adSaid : List Happening :=
  [.call (.write [unSer [1100, 1300, 1200, 1200, 1300]]), .call (.read [unAsk 0 10000]), .call (.read [unAsk 1250 1150]),
    .restart id (fun _ => 3000#64) 3000#64, .call (.read [unAsk 0 10000])]

theorem adStory_runs : ckRun adStory = [some ⟨200, []⟩, some ⟨200, unBody [1100, 1300, 1200, 1200, 1300]⟩, none, none,
    some ⟨200, unBody [1100, 1300, 1200, 1200, 1300]⟩] := by
  decide +kernel

theorem adStory_means : Forall₂ (Means exSnappy exRt.utf8 ⟨[114#8], [119#8]⟩) adStory adSaid :=
  .cons ⟨rfl, _, _, rfl, rfl, unWrite_says _ (by unfold I64; decide) (by decide +kernel)⟩ (.cons ⟨rfl, _, _, rfl, rfl, unRead_says⟩
    (.cons ⟨rfl, _, _, rfl, rfl, ask_says (by decide) (by decide) (by decide +kernel)⟩ (.cons ⟨rfl, rfl, rfl⟩ (.cons ⟨rfl, _, _, rfl, rfl, unRead_says⟩ .nil))))

theorem adStory_anyRead : AnyReadAll idealHash exRt 1000#64 (Site.fresh 1000#64 1000#64) adSaid (ckRun adStory) := by
  rw [adStory_runs]
  have hwf : ∀ ser ∈ [unSer [1100, 1300, 1200, 1200, 1300]], WFSet ser.labels := by
    intro s hs; simp only [List.mem_singleton] at hs; subst hs; exact wfSet_of (show wfSetB [lbl "a" "1", lbl "b" "2"] = true by decide +kernel)
  exact ⟨fun _ => hwf, trivial, trivial, ⟨fun _ => Perm.refl _, by decide, by decide +kernel⟩, trivial, trivial⟩

example (xs : List (Option Response)) (h' : Host) (hrun : (Host.fresh 1000#64 1000#64).run stdBinSearch idealHash (pbFormats exSnappy exRt) ⟨[114#8], [119#8]⟩
      [100#8] 1000#64 adStory = (xs, h')) (hx : xs = ckRun adStory) :=
  C102_same stdBinSearch stdBinSearch_careful idealHash exSnappy exRt ⟨[114#8], [119#8]⟩ (by decide) [100#8] (by decide) 1000#64 1000#64
      adStory adSaid adStory_means (by decide +kernel) xs h' hrun (by rw [hx]; exact adStory_anyRead) 1 4 (by decide)
      (by intro n e h1 h2 h3
          obtain rfl | rfl | rfl : n = 1 ∨ n = 2 ∨ n = 3 := by omega
          all_goals (cases h3; trivial))
      [unAsk 0 10000] [unAsk 0 10000] rfl rfl (by rw [hx, adStory_runs]; decide +kernel) (by rw [hx, adStory_runs]; decide +kernel)
      (acStory_proper _) (acStory_proper _) 0 0 (by decide) (by decide) (by simp [unAsk]) rfl rfl (by rw [hx, adStory_runs]; decide +kernel)

end Verif
