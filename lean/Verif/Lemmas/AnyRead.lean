import Verif.Spec.AnyRead
import Verif.Lemmas.AnyTime
import Verif.Props.ServerLife
namespace Verif
open List

/-- A read leaves the database as it is. -/
theorem process_read_db {δ : Type} (D : DbApi δ) (F : Formats) (P : Paths) (db : δ) (r : Request) (h : r.url = P.read) :
    (process D F P db r).2 = db := by
  unfold process
  split
  · rfl
  · split
    · rfl
    · rw [if_pos h]
      split
      · rfl
      · split
        · rfl
        · split <;> rfl

/-- A request to the read path. -/
def Happening.reads : Happening → Prop
  | .call (.read _) => True
  | .call .badRead => True
  | _ => False

/-- A request to the read path leaves the machine as it is, but for its end. -/
theorem HostLoose.see_read {B : BinSearch} (H : Hash) {rt : PbRt} (sn : Snappy) {P : Paths} {base : Str} {size : U64} {n : Nat} {h : Host} {s : Site}
    (hr : HostLoose B rt n h s) {r : Request} (hurl : r.url = P.read) :
    HostLoose B rt n (h.step B H (pbFormats sn rt) P base size (.request r)).2
      (if (h.step B H (pbFormats sn rt) P base size (.request r)).1 = none then { s with up := false } else s) := by
  obtain ⟨hu, db⟩ := h
  obtain ⟨su, g⟩ := s
  have hup : hu = su := hr.up
  subst hup
  have down : HostLoose B rt n ⟨false, db⟩ ⟨false, g⟩ := ⟨rfl, hr.life, hr.wf, hr.utf8, hr.len⟩
  cases hu with
  | false => exact down
  | true =>
    have hdb := process_read_db (liveApi B H) (pbFormats sn rt) P db r hurl
    simp only [Host.step, if_true]
    generalize process (liveApi B H) (pbFormats sn rt) P db r = z at hdb
    obtain ⟨x, db'⟩ := z
    simp only [] at hdb
    subst hdb
    cases x with
    | none => exact down
    | some x => exact hr

/-- One happening. -/
theorem HostLoose.see {B : BinSearch} (H : Hash) {rt : PbRt} (sn : Snappy) {P : Paths} (hP : P.read ≠ P.write) {base : Str}
    (hb : ∀ b ∈ base, isCont b = false) {size : U64} {n : Nat} {h : Host} {s : Site} (hr : HostLoose B rt n h s) {e : HostEvent} {e' : Happening}
    (hm : Means sn rt.utf8 P e e') (hp : AnyRead H rt size s e') (hlen : n + sent [e'] < 2 ^ 64 - 1) :
    (¬ e'.reads → Answered sn rt.utf8 s e' (h.step B H (pbFormats sn rt) P base size e).1) ∧
    HostLoose B rt (n + sent [e']) (h.step B H (pbFormats sn rt) P base size e).2
      (s.sees size e' (h.step B H (pbFormats sn rt) P base size e).1) := by
  by_cases hread : e'.reads
  · refine ⟨fun h => absurd hread h, ?_⟩
    rcases e' with (_ | qs | _ | _ | _) | _ | _
    all_goals first | exact hread.elim | skip
    all_goals
      cases e with
      | tick r => exact hm.elim
      | restart o k n => exact hm.elim
      | request r => exact hr.see_read H sn hm.1
  · have h1 : Timely H rt size s e' := by
      rcases e' with (_ | qs | _ | _ | _) | _ | _
      all_goals first | exact hp | exact absurd trivial hread
    obtain ⟨x, h', k1, k2, k3⟩ := hr.step H sn hP hb hm h1 hlen
    rw [k1]
    refine ⟨fun _ => k2, ?_⟩
    rcases e' with (_ | qs | _ | _ | _) | _ | _
    all_goals first | exact k3 | exact absurd trivial hread

/-- A history: before each of its happenings the machine is as seen. -/
theorem HostLoose.seen {B : BinSearch} (H : Hash) {rt : PbRt} (sn : Snappy) {P : Paths} (hP : P.read ≠ P.write) {base : Str} (hb : ∀ b ∈ base, isCont b = false)
    {size : U64} {es : List HostEvent} {hs : List Happening} (hm : Forall₂ (Means sn rt.utf8 P) es hs) {n : Nat} {h : Host} {s : Site}
    (hr : HostLoose B rt n h s) (hlen : n + sent hs < 2 ^ 64 - 1) {xs : List (Option Response)} {h' : Host}
    (hrun : h.run B H (pbFormats sn rt) P base size es = (xs, h')) (hp : AnyReadAll H rt size s hs xs) :
    xs.length = hs.length ∧ ∀ (i : Nat) (e' : Happening), hs[i]? = some e' → ∃ e hi ni, Means sn rt.utf8 P e e' ∧ ni + sent [e'] < 2 ^ 64 - 1 ∧
      HostLoose B rt ni hi (s.seen size (hs.take i) (xs.take i)) ∧ AnyRead H rt size (s.seen size (hs.take i) (xs.take i)) e' ∧
      xs[i]? = some (hi.step B H (pbFormats sn rt) P base size e).1 := by
  induction hm generalizing n h s xs with
  | nil =>
    simp only [Host.run, Prod.mk.injEq] at hrun
    obtain ⟨rfl, rfl⟩ := hrun
    exact ⟨rfl, by simp⟩
  | @cons e e' es hs h1 _ ih =>
    rw [sent_cons] at hlen
    simp only [Host.run, Prod.mk.injEq] at hrun
    obtain ⟨rfl, e2⟩ := hrun
    have h3 := (hr.see H sn hP hb h1 hp.1 (by omega)).2
    obtain ⟨i2, i3⟩ := ih h3 (by omega) (Prod.ext rfl e2) hp.2
    refine ⟨by simp [i2], ?_⟩
    intro i a ha
    cases i with
    | zero =>
      simp only [List.getElem?_cons_zero, Option.some.injEq] at ha
      subst ha
      exact ⟨e, h, n, h1, by omega, hr, hp.1, rfl⟩
    | succ i => exact i3 i a (by simpa using ha)

/-! ### Facts about the specification -/

theorem Site.sees_g (size : U64) (s : Site) (e : Happening) (x : Option Response) : (s.sees size e x).g = (s.goes size e).g := by
  rcases e with (_ | qs | _ | _ | _) | _ | _
  case call.read =>
    simp only [Site.sees, Site.goes, Site.next]
    split <;> split <;> rfl
  case call.badRead =>
    simp only [Site.sees, Site.goes, Site.next]
    split <;> split <;> rfl
  all_goals rfl

theorem Site.seen_sound {H : Hash} {rt : PbRt} {size : U64} {hs : List Happening} {xs : List (Option Response)} {s : Site} (hp : AnyReadAll H rt size s hs xs)
    (h : ∀ c ∈ s.g.all, ∀ w ∈ c.h, WFSet w.1 ∧ inside c.lo c.hi w.2 = true) :
    ∀ c ∈ (s.seen size hs xs).g.all, ∀ w ∈ c.h, WFSet w.1 ∧ inside c.lo c.hi w.2 = true := by
  induction hs generalizing s xs with
  | nil => cases xs <;> exact h
  | cons e es ih =>
    cases xs with
    | nil => exact h
    | cons x xs =>
      refine ih hp.2 fun c hc w hw => ?_
      rw [Site.sees_g] at hc
      rcases Site.next_chunk ((s.goes_perm size e).mem_iff.mp hc) with ⟨c0, hc0, e1, e2, h3⟩ | h0
      · rw [e1, e2]
        rcases h3 w hw with h4 | ⟨m, rfl, hu, rfl, h4⟩
        · exact h c0 hc0 w h4
        · obtain ⟨x, hx, y, -, rfl, hi⟩ := newPoints_mem.mp h4
          have hp1 : Timely H rt size s (.call (.write m)) := hp.1
          exact ⟨hp1 hu x (takeUntil_mem hx), hi⟩
      · rw [h0] at hw; simp at hw

theorem AnyReadAll.take {H : Hash} {rt : PbRt} {size : U64} {hs : List Happening} {xs : List (Option Response)} {s : Site} (h : AnyReadAll H rt size s hs xs)
    (n : Nat) : AnyReadAll H rt size s (hs.take n) (xs.take n) := by
  induction hs generalizing s n xs with
  | nil => cases xs <;> cases n <;> exact True.intro
  | cons e es ih =>
    cases xs with
    | nil => cases n <;> exact True.intro
    | cons x xs =>
      cases n with
      | zero => exact True.intro
      | succ n => exact ⟨h.1, ih h.2 n⟩

theorem sees_holds (size : U64) (s : Site) (e : Happening) (x : Option Response) : (s.sees size e x).holds.Perm (s.holds ++ s.brings e) := by
  have : (s.sees size e x).holds = (s.goes size e).holds := by unfold Site.holds; rw [Site.sees_g]
  rw [this]
  exact goes_holds size s e

/-- What is stored is what was accepted. -/
theorem seen_holds (size : U64) (hs : List Happening) (xs : List (Option Response)) (s : Site) :
    (s.seen size hs xs).holds.Perm (s.holds ++ s.took size hs xs) := by
  induction hs generalizing s xs with
  | nil => cases xs <;> simp [Site.seen, Site.took]
  | cons e es ih =>
    cases xs with
    | nil => simp [Site.seen, Site.took]
    | cons x xs =>
      refine (ih xs (s.sees size e x)).trans ?_
      rw [Site.took, ← List.append_assoc]
      exact (sees_holds size s e x).append_right _

theorem fresh_seen_holds (size t0 : U64) (hs : List Happening) (xs : List (Option Response)) :
    ((Site.fresh size t0).seen size hs xs).holds.Perm ((Site.fresh size t0).took size hs xs) := by
  have := seen_holds size hs xs (Site.fresh size t0)
  simpa [Site.holds, Site.fresh, Gens.fresh, Gens.all, Gen.new] using this

theorem took_split (size : U64) (hs : List Happening) (xs : List (Option Response)) (s : Site) {i j : Nat} (hij : i < j) {e : Happening}
    (he : hs[i]? = some e) (hl : xs.length = hs.length) :
    ∃ l l', s.took size (hs.take j) (xs.take j) = l ++ ((s.seen size (hs.take i) (xs.take i)).brings e ++ l') := by
  induction hs generalizing s xs i j with
  | nil => simp at he
  | cons a hs ih =>
    cases xs with
    | nil => simp at hl
    | cons x xs =>
      obtain ⟨j, rfl⟩ : ∃ k, j = k + 1 := ⟨j - 1, by omega⟩
      cases i with
      | zero =>
        simp only [List.getElem?_cons_zero, Option.some.injEq] at he
        subst he
        exact ⟨[], _, rfl⟩
      | succ i =>
        obtain ⟨l, l', h⟩ := ih xs (s.sees size a x) (by omega : i < j) (by simpa using he) (by simpa using hl)
        refine ⟨s.brings a ++ l, l', ?_⟩
        simp only [List.take_succ_cons, Site.took, Site.seen, h, List.append_assoc]

/-- The answer to a query around everything stored. -/
theorem answered_covering {B : BinSearch} (hB : Careful B) {sn : Snappy} {utf8 : Str → Bool} {sj : Site} {x : Option Response} {qs : List PQuery}
    (aj : AnsweredBy B sn utf8 sj (.call (.read qs)) x) (hup : sj.up = true) (hsound : ∀ c ∈ sj.g.all, ∀ w ∈ c.h, WFSet w.1 ∧ inside c.lo c.hi w.2 = true)
    {k : Nat} (hk : k < qs.length) (hne : qs[k].matchers ≠ []) (h0 : qs[k].start_ = 0)
    (hcov : ∀ c ∈ sj.g.all, ∀ w ∈ c.h, w.2.ts.toNat < (asU64 qs[k].end_).toNat) :
    ∃ body out, x = some ⟨200, body⟩ ∧ sn.decompress body = some out ∧
      (out.length < 2 ^ 32 → ∃ rs r, (∀ m, IsResponse utf8 m out ↔ m = rs) ∧ rs[k]? = some r ∧ (r.map (·.labels)).Nodup ∧
      ∀ w ∈ sj.holds, (∀ y ∈ qs[k].matchers, (⟨y.name, y.value⟩ : Label) ∈ w.1) →
        (⟨sortLabels w.1, (pointsFor sj.holds w.1).map asReported⟩ : PSeries) ∈ r) := by
  simp only [AnsweredBy, if_pos hup] at aj
  obtain ⟨body, out, a1, a2, rs, a3, a4⟩ := aj
  refine ⟨body, out, a1, a2, fun hl => ?_⟩
  obtain ⟨r, r1, es', r2, r3⟩ := Forall₂.getElem_left a3 k hk
  refine ⟨rs, r, a4 hl, r1, by rw [r3, List.map_map]; exact r2.once, ?_⟩
  rw [h0, show asU64 0 = 0#64 from by decide] at r2
  intro w hw hsub
  obtain ⟨c, hc, hw⟩ := List.mem_flatMap.mp hw
  have hpts : ∀ c ∈ sj.g.all, (((c.answerBy B (qs[k].matchers.map fun x => ⟨x.name, x.value⟩) 0#64 (asU64 qs[k].end_)).filter
      fun s => decide (s.labels = sortLabels w.1)).flatMap (·.points)) = pointsFor c.h w.1 := fun d hd =>
    answerBy_covering hB (hsound d hd) (by simpa using hne) (hcov d hd) (hsound c hc w hw).1
      (by intro l hl; obtain ⟨z, hz, rfl⟩ := List.mem_map.mp hl; exact hsub z hz)
  have hmp : mergedPoints (sj.g.all.map fun c => c.answerBy B (qs[k].matchers.map fun x => ⟨x.name, x.value⟩) 0#64 (asU64 qs[k].end_)) (sortLabels w.1) =
      arrived sj w.1 := by
    rw [mergedPoints_map]
    unfold arrived
    generalize sj.g.all = l at hpts
    induction l with
    | nil => rfl
    | cons d l ih => rw [List.flatMap_cons, List.flatMap_cons, hpts d (by simp), ih fun x hx => hpts x (by simp [hx])]
  have hw' : w.2 ∈ arrived sj w.1 := by
    unfold arrived pointsFor
    exact List.mem_flatMap.mpr ⟨c, hc, List.mem_map.mpr ⟨w, List.mem_filter.mpr ⟨hw, by simp⟩, rfl⟩⟩
  have hsw : seriesWith (sj.g.all.map fun c => c.answerBy B (qs[k].matchers.map fun x => ⟨x.name, x.value⟩) 0#64 (asU64 qs[k].end_)) (sortLabels w.1) ≠ [] := by
    intro h
    rw [← hmp] at hw'
    unfold mergedPoints at hw'
    rw [h] at hw'
    simp at hw'
  have hent := (r2.entries (sortLabels w.1) _).mpr ⟨hsw, rfl⟩
  rw [hmp, arrived_holds] at hent
  rw [r3]
  exact List.mem_map.mpr ⟨_, hent, rfl⟩

end Verif
