import Verif.Lemmas.PowerLossInv
import Verif.Props.SledFault
/-! C79: a chunk on sled trees whose computer loses power. -/
namespace Verif
open List

/-- `s` is what is found on the disk after the power was lost: after a history of inserts, or in the middle of a further one. -/
def AfterLoss (lo hi : U64) (h : List FaultyInsert) (s : SledStores) : Prop :=
  (plRun lo hi h).2.Leaves s ∨ ∃ w ∈ h.getLast?, ∃ n, (plCut lo hi h.dropLast w n).Leaves s

/-- The trees come back as they are. -/
theorem Volatile.settled_leaves (s : SledStores) : (Volatile.settled s).Leaves s := fun t _ => ⟨s.tree t, by simp [Volatile.settled], rfl⟩

/-! ### Not true: what was acknowledged survives -/

theorem execV_current {α : Type} (p : TreeProg α) (os : List OpOutcome) (v : Volatile) (t : TreeName) (h : v.now.tree t ∈ v.held t) :
    (p.execV os v).2.now.tree t ∈ (p.execV os v).2.held t := by
  have hset : ∀ (v : Volatile) (u : TreeName) (k x : Str), v.now.tree t ∈ v.held t → (v.set u k x).now.tree t ∈ (v.set u k x).held t := by
    intro v u k x h
    unfold Volatile.set
    simp only
    by_cases e : t = u
    · rw [if_pos e]; simp
    · rw [if_neg e, tree_set_other _ (Ne.symm e)]; exact h
  induction p generalizing os v with
  | ret a => exact h
  | get u k next ih => simp only [TreeProg.execV]; split <;> exact ih _ _ _ h
  | set u k x next ih =>
    simp only [TreeProg.execV]
    split
    · exact ih _ _ _ (hset _ _ _ _ h)
    · exact ih _ _ _ h
    · exact ih _ _ _ (hset _ _ _ _ h)
  | flush u next ih =>
    simp only [TreeProg.execV]
    split
    · refine ih _ _ _ ?_
      unfold Volatile.flush
      simp only
      split
      · simp
      · exact h
    · exact ih _ _ _ h

theorem plRun_current (lo hi : U64) (h : List FaultyInsert) (t : TreeName) : (plRun lo hi h).2.now.tree t ∈ (plRun lo hi h).2.held t := by
  induction h using List.reverseRecOn with
  | nil => simp [plRun, plNew, Volatile.settled]
  | append_singleton h w ih => rw [plRun_append]; exact execV_current _ _ _ _ ih

/-- After any history of inserts whatsoever, the power loss can leave the index as it is and no points at all: the program never flushes
the points. -/
theorem C79_violated (lo hi : U64) (h : List FaultyInsert) : AfterLoss lo hi h ⟨(plRun lo hi h).2.now.idx, KV.empty⟩ := by
  left
  intro t k
  cases t with
  | idx => exact ⟨_, plRun_current lo hi h .idx, rfl⟩
  | ser =>
    refine ⟨KV.empty, ?_, rfl⟩
    induction h using List.reverseRecOn with
    | nil => simp [plRun, plNew, Volatile.settled, noStores, SledStores.tree]
    | append_singleton h w ih =>
      rw [plRun_append]
      rcases slInsertP_held (plRun lo hi h).1 w.ls w.p w.os (plRun lo hi h).2 with e | e
      · show _ ∈ ((slInsertP (plRun lo hi h).1 w.ls w.p).execV w.os (plRun lo hi h).2).2.held .ser
        rw [e]; exact ih
      · show _ ∈ ((slInsertP (plRun lo hi h).1 w.ls w.p).execV w.os (plRun lo hi h).2).2.held .ser
        rw [e]; exact List.mem_append_left _ ih

/-- One insert without failures. -/
def exPlOne : List FaultyInsert := [⟨[lbl "a" "1"], ⟨10#64, 5#64⟩, []⟩]

/-- An insert reports success and a query finds its point; then the power is lost, and no query finds it. -/
theorem C79_violated_lost :
    (plInsert (plNew 0#64 1000#64) ⟨[lbl "a" "1"], ⟨10#64, 5#64⟩, []⟩).1 = .ok () ∧
    slFaultyQuery stdBinSearch ((plRun 0#64 1000#64 exPlOne).1, (plRun 0#64 1000#64 exPlOne).2.now) [lbl "a" "1"] 0#64 2000#64 [] =
      .ok [⟨1#64, [lbl "a" "1"], [⟨10#64, 5#64⟩]⟩] ∧
    ∃ s, AfterLoss 0#64 1000#64 exPlOne s ∧
      slFaultyQuery stdBinSearch (plReopen 0#64 1000#64, s) [lbl "a" "1"] 0#64 2000#64 [] = .err .notFound :=
  ⟨by decide +kernel, by decide +kernel, _, C79_violated _ _ _, by decide +kernel⟩

/-- A series with two points, then another one that shares a label. -/
def exTwoSeries : List FaultyInsert :=
  [⟨[lbl "a" "1"], ⟨10#64, 5#64⟩, []⟩, ⟨[lbl "a" "1"], ⟨20#64, 6#64⟩, []⟩, ⟨[lbl "a" "1", lbl "b" "2"], ⟨30#64, 7#64⟩, []⟩]

/-- Only the last point is lost, the other two are on the disk, but no query for the label returns them any more. -/
theorem C79_violated_blocks :
    ∃ s, AfterLoss 0#64 1000#64 exTwoSeries s ∧
      sledRead stdBinSearch s.ser 1#64 0#64 2000#64 = .ok [⟨10#64, 5#64⟩, ⟨20#64, 6#64⟩] ∧
      slFaultyQuery stdBinSearch ((plRun 0#64 1000#64 exTwoSeries).1, (plRun 0#64 1000#64 exTwoSeries).2.now) [lbl "a" "1"] 0#64 2000#64 [] =
        .ok [⟨1#64, [lbl "a" "1"], [⟨10#64, 5#64⟩, ⟨20#64, 6#64⟩]⟩, ⟨2#64, [lbl "a" "1", lbl "b" "2"], [⟨30#64, 7#64⟩]⟩] ∧
      slFaultyQuery stdBinSearch (plReopen 0#64 1000#64, s) [lbl "a" "1"] 0#64 2000#64 [] = .err .notFound := by
  refine ⟨⟨(plRun 0#64 1000#64 exTwoSeries).2.now.idx, (plRun 0#64 1000#64 (exTwoSeries.take 2)).2.now.ser⟩, .inl ?_, by decide +kernel, by decide +kernel,
    by decide +kernel⟩
  intro t k
  cases t with
  | idx => exact ⟨_, plRun_current _ _ _ .idx, rfl⟩
  | ser =>
    refine ⟨_, ?_, rfl⟩
    have h2 := plRun_current 0#64 1000#64 (exTwoSeries.take 2) .ser
    have : plRun 0#64 1000#64 exTwoSeries = (plInsert (plRun 0#64 1000#64 (exTwoSeries.take 2)) ⟨[lbl "a" "1", lbl "b" "2"], ⟨30#64, 7#64⟩, []⟩).2 := rfl
    rw [this]
    rcases slInsertP_held (plRun 0#64 1000#64 (exTwoSeries.take 2)).1 [lbl "a" "1", lbl "b" "2"] ⟨30#64, 7#64⟩ [] (plRun 0#64 1000#64 (exTwoSeries.take 2)).2 with e | e
    · show _ ∈ ((slInsertP _ _ _).execV _ _).2.held .ser
      rw [e]; exact h2
    · show _ ∈ ((slInsertP _ _ _).execV _ _).2.held .ser
      rw [e]; exact List.mem_append_left _ h2

/-! ### What is true -/

/-- Loss of power in the middle of an insert is a history in which its remaining operations fail. -/
theorem afterLoss_run {lo hi : U64} {h : List FaultyInsert} {s : SledStores} (hs : AfterLoss lo hi h s) :
    ∃ h' : List FaultyInsert, (h' = h ∨ ∃ (w : FaultyInsert) (os' : List OpOutcome), h.getLast? = some w ∧ h' = h.dropLast ++ [⟨w.ls, w.p, os'⟩]) ∧ (plRun lo hi h').2.Leaves s := by
  rcases hs with hs | ⟨w, hw, n, hs⟩
  · exact ⟨h, .inl rfl, hs⟩
  · obtain ⟨os', e⟩ := plCut_run lo hi h.dropLast w n
    rw [e] at hs
    exact ⟨_, .inr ⟨w, os', hw, rfl⟩, hs⟩

theorem callsOf_last {h : List FaultyInsert} {w : FaultyInsert} (hw : h.getLast? = some w) (os' : List OpOutcome) :
    callsOf (h.dropLast ++ [⟨w.ls, w.p, os'⟩]) = callsOf h ∧ (h.dropLast ++ [(⟨w.ls, w.p, os'⟩ : FaultyInsert)]).length = h.length := by
  have h0 : h ≠ [] := by rintro rfl; simp at hw
  have e : h.dropLast ++ [w] = h := by
    rw [List.getLast?_eq_getLast_of_ne_nil h0] at hw
    have := List.dropLast_append_getLast h0
    rw [← Option.some.inj hw]; exact this
  constructor
  · conv_rhs => rw [← e]
    simp [callsOf]
  · conv_rhs => rw [← e]
    simp

/-- Whatever fails, and whenever the power is lost: afterwards a query invents nothing. Each series it returns has labels that were inserted,
and points that were inserted for them, in order of insertion, and in the range; it has one of the labels asked for, and all of those
the index has an entry for. It does not panic. -/
theorem C79_partial_sound (B : BinSearch) (lo hi hi' : U64) (h : List FaultyInsert) (hwf : ∀ w ∈ h, WFSet w.ls) (hlen : h.length < 2 ^ 64 - 1)
    (hincr : ∀ ls, SIncr (pointsFor (insideOnly lo hi (h.map fun w => (w.ls, w.p))) ls)) (s : SledStores) (hs : AfterLoss lo hi h s)
    (q : Labels) (hq : ∀ l ∈ q, WFLabel l) (a b : U64) (hab : a.toNat ≤ b.toNat) (os : List OpOutcome) :
    slFaultyQuery B (plReopen lo hi', s) q a b os ≠ .panic ∧
    ∀ ss, slFaultyQuery B (plReopen lo hi', s) q a b os = .ok ss → ∀ x ∈ ss,
      (∃ w ∈ h, x.labels.Perm w.ls) ∧ x.points ≠ [] ∧
      x.points <+ inRange (pointsFor (insideOnly lo hi (h.map fun w => (w.ls, w.p))) x.labels) a b ∧
      (∃ l ∈ q, l ∈ x.labels) ∧ ∀ l ∈ q, s.idx (encodeLabel l) ≠ none → l ∈ x.labels := by
  obtain ⟨h', hh, hl⟩ := afterLoss_run hs
  have hc : callsOf h' = callsOf h ∧ h'.length = h.length ∧ ∀ w ∈ h', WFSet w.ls := by
    rcases hh with rfl | ⟨w, os', hw, rfl⟩
    · exact ⟨rfl, rfl, hwf⟩
    · refine ⟨(callsOf_last hw os').1, (callsOf_last hw os').2, ?_⟩
      intro x hx
      rcases List.mem_append.mp hx with hx | hx
      · exact hwf x (List.dropLast_subset _ hx)
      · rw [List.mem_singleton] at hx; subst hx
        exact hwf w (List.mem_of_getLast? hw)
  obtain ⟨⟨c, ser, R⟩, -⟩ := plRun_rep lo hi h' hc.2.2 (by omega)
  obtain ⟨ser', S, -⟩ := R.leaves hl
  rw [hc.1] at S
  obtain ⟨g1, g2⟩ := S.answer (st := (plReopen lo hi', s)) rfl hincr B hq hab os
  refine ⟨g1, fun ss hss x hx => ?_⟩
  obtain ⟨⟨⟨w, hw, hwp, -⟩, h2, h3⟩, h4⟩ := g2 ss hss x hx
  obtain ⟨y, hy, rfl⟩ := List.mem_map.mp (List.mem_filter.mp hw).1
  exact ⟨⟨y, hy, hwp⟩, h2, h3, h4⟩

/-- The index survives: if no operation failed and the power is lost between two inserts, it comes back as it was. -/
theorem C79_partial_index (lo hi : U64) (h : List FaultyInsert) (hwf : ∀ w ∈ h, WFSet w.ls) (hos : ∀ w ∈ h, ∀ o ∈ w.os, o = .done) (s : SledStores)
    (hs : (plRun lo hi h).2.Leaves s) : s.idx = (plRun lo hi h).2.now.idx := by
  funext k
  obtain ⟨kv, hkv, e⟩ := hs .idx k
  rw [plRun_flushed lo hi h hwf hos, List.mem_singleton] at hkv
  rw [← hkv]; exact e

/-- So if sled happened to have written the points to the disk, all queries are answered as before. -/
theorem C79_partial_flushed (B : BinSearch) (lo hi : U64) (h : List FaultyInsert) (hwf : ∀ w ∈ h, WFSet w.ls) (hlen : h.length < 2 ^ 64 - 1)
    (hos : ∀ w ∈ h, ∀ o ∈ w.os, o = .done) (s : SledStores) (hs : (plRun lo hi h).2.Leaves s) (hser : s.ser = (plRun lo hi h).2.now.ser)
    (q : Labels) (a b : U64) (os : List OpOutcome) :
    slFaultyQuery B (plReopen lo hi, s) q a b os = slFaultyQuery B (slFaultyRun lo hi h) q a b os := by
  have h1 := C79_partial_index lo hi h hwf hos s hs
  obtain ⟨⟨c, ser, R⟩, -⟩ := plRun_rep lo hi h hwf hlen
  have h2 : s = (slFaultyRun lo hi h).2 := by
    rw [← plRun_now]
    show s = (plRun lo hi h).2.now
    obtain ⟨x, y⟩ := s
    simp only at h1 hser
    rw [h1, hser]
  have e1 : (slFaultyRun lo hi h).1.start_ = lo := by rw [← plRun_now]; exact R.base.lo_eq
  have e2 : (slFaultyRun lo hi h).1.end_ = hi := by rw [← plRun_now]; exact R.base.hi_eq
  have e3 : (slFaultyRun lo hi h).1.poisoned = false := by rw [← plRun_now]; exact R.base.fine
  rw [h2]
  unfold slFaultyQuery slQueryP Chunk.isWithRange
  rw [e1, e2, e3]
  rfl

/-- A label set none of whose inserts failed or was interrupted, whatever happened to others: there is one prefix of its points such that
every query for some of its labels that is answered returns exactly this prefix (in the range). -/
theorem C79_partial_prefix (B : BinSearch) (lo hi hi' : U64) (h : List FaultyInsert) (hwf : ∀ w ∈ h, WFSet w.ls) (hlen : h.length < 2 ^ 64 - 1)
    (L : Labels) (hL : WFSet L) (hgood : ∀ w ∈ h, w.ls.Perm L → ∀ o ∈ w.os, o = .done)
    (hincr : SIncr (pointsFor (insideOnly lo hi (h.map fun w => (w.ls, w.p))) L)) (s : SledStores)
    (hs : (plRun lo hi h).2.Leaves s ∨ ∃ w ∈ h.getLast?, ¬ w.ls.Perm L ∧ ∃ n, (plCut lo hi h.dropLast w n).Leaves s) :
    ∃ n, ∀ (q : Labels), (∀ l ∈ q, l ∈ L) → q ≠ [] → ∀ (a b : U64), a.toNat ≤ b.toNat → ∀ os ss,
      slFaultyQuery B (plReopen lo hi', s) q a b os = .ok ss →
      inRange ((pointsFor (insideOnly lo hi (h.map fun w => (w.ls, w.p))) L).take n) a b ≠ [] →
      ∃ x ∈ ss, x.labels.Perm L ∧ x.points = inRange ((pointsFor (insideOnly lo hi (h.map fun w => (w.ls, w.p))) L).take n) a b := by
  have hs' : ∃ h', callsOf h' = callsOf h ∧ h'.length = h.length ∧ (∀ w ∈ h', WFSet w.ls) ∧ (∀ w ∈ h', w.ls.Perm L → AllDone w.os) ∧
      (plRun lo hi h').2.Leaves s := by
    rcases hs with hs | ⟨w, hw, hn, n, hs⟩
    · exact ⟨h, rfl, rfl, hwf, hgood, hs⟩
    · obtain ⟨os', e⟩ := plCut_run lo hi h.dropLast w n
      rw [e] at hs
      refine ⟨_, (callsOf_last hw os').1, (callsOf_last hw os').2, ?_, ?_, hs⟩
      · intro x hx
        rcases List.mem_append.mp hx with hx | hx
        · exact hwf x (List.dropLast_subset _ hx)
        · rw [List.mem_singleton] at hx; subst hx
          exact hwf w (List.mem_of_getLast? hw)
      · intro x hx hp
        rcases List.mem_append.mp hx with hx | hx
        · exact hgood x (List.dropLast_subset _ hx) hp
        · rw [List.mem_singleton] at hx; subst hx
          exact absurd hp hn
  obtain ⟨h', hc, hl, hw', hg', hs'⟩ := hs'
  obtain ⟨⟨c, ser, R⟩, H⟩ := plRun_rep lo hi h' hw' (by omega)
  have H := H L hL hg'
  rw [hc] at H
  obtain ⟨ser', S, -⟩ := R.leaves hs'
  rcases H.leaves R hs' with h0 | ⟨i, ls, n, hp, E, hpt⟩
  · refine ⟨0, fun q _ _ a b _ os ss _ hne => absurd ?_ hne⟩
    simp [inRange]
  · refine ⟨n, fun q hq hq0 a b hab os ss hss hne => ?_⟩
    have hne0 : (pointsFor (insideOnly lo hi (callsOf h)) L).take n ≠ [] := by
      intro e
      apply hne
      show inRange ((pointsFor (insideOnly lo hi (callsOf h)) L).take n) a b = []
      rw [e]; rfl
    rw [if_neg hne0] at hpt
    have W : SlWhole L ((pointsFor (insideOnly lo hi (callsOf h)) L).take n) s i ls := ⟨hp, E.key, E.metad, E.rev, hpt, hne0⟩
    exact S.finds (st := (plReopen lo hi', s)) rfl B hL W (hincr.sublist (List.take_sublist _ _)) hq hq0 hab hss hne

/-! The hypotheses are met: the history with failures of C77, and a loss of power in the middle of its last insert; the label set of its
second insert has lost nothing. -/

theorem exTwoSeries_wf : ∀ w ∈ exTwoSeries, WFSet w.ls := by
  intro w hw
  simp only [exTwoSeries, List.mem_cons, List.not_mem_nil, or_false] at hw
  rcases hw with rfl | rfl | rfl <;> exact wfSet_of (by decide +kernel)

example : ∀ ls, SIncr (pointsFor (insideOnly 0#64 1000#64 (exTwoSeries.map fun w => (w.ls, w.p))) ls) :=
  incr_pointsFor (by unfold SIncr; decide +kernel)

/-- The power is lost after the second operation of the last insert (its label set is new: only the lookups were done), and sled had
written both points. -/
def exCutTrees : SledStores := (plRun 0#64 1000#64 (exTwoSeries.take 2)).2.now

theorem exCut_after : AfterLoss 0#64 1000#64 exTwoSeries exCutTrees :=
  .inr ⟨⟨[lbl "a" "1", lbl "b" "2"], ⟨30#64, 7#64⟩, []⟩, rfl, 0, fun t _ => ⟨_, plRun_current 0#64 1000#64 (exTwoSeries.take 2) t, rfl⟩⟩

example : ∃ n, ∀ (q : Labels), (∀ l ∈ q, l ∈ [lbl "a" "1"]) → q ≠ [] → ∀ (a b : U64), a.toNat ≤ b.toNat → ∀ os ss,
      slFaultyQuery stdBinSearch (plReopen 0#64 1000#64, exCutTrees) q a b os = .ok ss →
      inRange ([⟨10#64, 5#64⟩, ⟨20#64, 6#64⟩].take n) a b ≠ [] →
      ∃ x ∈ ss, x.labels.Perm [lbl "a" "1"] ∧ x.points = inRange ([⟨10#64, 5#64⟩, ⟨20#64, 6#64⟩].take n) a b :=
  C79_partial_prefix stdBinSearch 0#64 1000#64 1000#64 exTwoSeries exTwoSeries_wf (by decide) [lbl "a" "1"] (wfSet_of (by decide +kernel))
    (by decide +kernel) (by unfold SIncr; decide +kernel) exCutTrees
    (.inr ⟨⟨[lbl "a" "1", lbl "b" "2"], ⟨30#64, 7#64⟩, []⟩, rfl, by decide +kernel, 0, fun t _ => ⟨_, plRun_current 0#64 1000#64 (exTwoSeries.take 2) t, rfl⟩⟩)

example : slFaultyQuery stdBinSearch (plReopen 0#64 1000#64, exCutTrees) [lbl "a" "1"] 0#64 2000#64 [] =
    .ok [⟨1#64, [lbl "a" "1"], [⟨10#64, 5#64⟩, ⟨20#64, 6#64⟩]⟩] := by decide +kernel

end Verif
