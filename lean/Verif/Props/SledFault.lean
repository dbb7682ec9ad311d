import Verif.Lemmas.SledFaultComplete
import Verif.Props.TikvFault
/-! C77: a chunk on sled trees whose operations can fail. -/
namespace Verif
open List

/-! ### Without failures -/

/-- If no operation fails, inserts are the ones of the model without failures (to which C27 to C31 apply). -/
theorem C77_no_faults (B : BinSearch) (c : Chunk Unit) (s : SledStores) (os : List OpOutcome) (hos : ∀ o ∈ os, o = .done) (ls : Labels)
    (p : TimePoint) :
    (slFaultyInsert (c, s) ⟨ls, p, os⟩).1 = ((c.withStore s).insert (sledComp B) ls p).1 ∧
    (slFaultyInsert (c, s) ⟨ls, p, os⟩).2.1.withStore (slFaultyInsert (c, s) ⟨ls, p, os⟩).2.2 = ((c.withStore s).insert (sledComp B) ls p).2 := by
  have h1 := slInsertP_run B c ls p s
  have d1 := (slInsertP c ls p).exec_done hos s
  unfold TreeProg.run at h1
  simp only at h1
  rw [Prod.ext_iff] at h1
  unfold slFaultyInsert
  simp only
  rw [d1.1, d1.2.1]
  exact h1

/-- A whole history without failures. -/
theorem C77_no_faults_run (B : BinSearch) (lo hi : U64) (h : List FaultyInsert) (hos : ∀ w ∈ h, ∀ o ∈ w.os, o = .done) :
    (slFaultyRun lo hi h).1.withStore (slFaultyRun lo hi h).2 =
      (Chunk.new (⟨KV.empty, KV.empty⟩ : SledStores) lo hi).insertAll (sledComp B) (h.map fun w => (w.ls, w.p)) := by
  induction h using List.reverseRecOn with
  | nil => rfl
  | append_singleton h w ih =>
    have ih := ih fun x hx => hos x (by simp [hx])
    rw [slFaultyRun_append, List.map_append]
    have := (C77_no_faults B (slFaultyRun lo hi h).1 (slFaultyRun lo hi h).2 w.os (hos w (by simp)) w.ls w.p).2
    obtain ⟨ls, p, os⟩ := w
    simp only at this
    rw [ih] at this
    rw [this]
    simp only [Chunk.insertAll, List.map_cons, List.map_nil, List.foldl_append, List.foldl_cons, List.foldl_nil]

example : ∀ o ∈ [OpOutcome.done, .done], o = .done := by decide

/-! ### Queries are safe -/

/-- Whatever the chunk and its trees contain: a query whose operations fail in any way changes nothing, and either reports the I/O error or
returns exactly what it would have returned without failures; the latter if nothing failed. -/
theorem C77_query (B : BinSearch) (c : Chunk Unit) (s : SledStores) (q : Labels) (a b : U64) (os : List OpOutcome) :
    ((slQueryP B c q a b).exec os s).2 = s ∧
    (slFaultyQuery B (c, s) q a b os = .err .ioErr ∨ slFaultyQuery B (c, s) q a b os = (c.withStore s).query (sledComp B) q a b) ∧
    ((∀ o ∈ os, o = .done) → slFaultyQuery B (c, s) q a b os = (c.withStore s).query (sledComp B) q a b) := by
  have h := slQueryP_reports B c q a b
  refine ⟨h.same os s, h.result os s, ?_⟩
  intro hos
  unfold slFaultyQuery
  rw [((slQueryP B c q a b).exec_done hos s).1]
  exact h.clean s

/-- A history with one series of two points. -/
def exSlTwo : List FaultyInsert := [⟨[lbl "a" "1", lbl "b" "2"], ⟨10#64, 5#64⟩, []⟩, ⟨[lbl "a" "1", lbl "b" "2"], ⟨20#64, 6#64⟩, []⟩]

/-- Both outcomes occur (TiKV returns a wrong answer in the first case, `C74_violated_wrong`). -/
example : slFaultyQuery stdBinSearch (slFaultyRun 0#64 1000#64 exSlTwo) [lbl "a" "1", lbl "b" "2"] 0#64 2000#64 [.done, .failed] = .err .ioErr ∧
    slFaultyQuery stdBinSearch (slFaultyRun 0#64 1000#64 exSlTwo) [lbl "a" "1", lbl "b" "2"] 0#64 2000#64 [.done, .done, .done, .done, .failed] =
      .ok [⟨1#64, [lbl "a" "1", lbl "b" "2"], [⟨10#64, 5#64⟩, ⟨20#64, 6#64⟩]⟩] := by decide +kernel

/-! ### Not true: a failure of an insert is reported -/

/-- The storage drops the result of the write that extends a series: the insert reports success, and the point is not stored. -/
theorem C77_violated_dropped :
    (slFaultyInsert (slFaultyRun 0#64 1000#64 [⟨[lbl "a" "1"], ⟨10#64, 5#64⟩, []⟩]) ⟨[lbl "a" "1"], ⟨20#64, 6#64⟩, [.done, .done, .failed]⟩).1 =
      .ok () ∧
    slFaultyQuery stdBinSearch (slFaultyRun 0#64 1000#64 [⟨[lbl "a" "1"], ⟨10#64, 5#64⟩, []⟩,
      ⟨[lbl "a" "1"], ⟨20#64, 6#64⟩, [.done, .done, .failed]⟩]) [lbl "a" "1"] 0#64 2000#64 [] =
      .ok [⟨1#64, [lbl "a" "1"], [⟨10#64, 5#64⟩]⟩] := by decide +kernel

/-- Even if the storage reports that it could not read the series, the insert reports success. -/
theorem C77_violated_dropped_read :
    ((slWriteP 1#64 ⟨20#64, 6#64⟩).exec [.failed] (slFaultyRun 0#64 1000#64 [⟨[lbl "a" "1"], ⟨10#64, 5#64⟩, []⟩]).2).1.1 = .err .ioErr ∧
    (slFaultyInsert (slFaultyRun 0#64 1000#64 [⟨[lbl "a" "1"], ⟨10#64, 5#64⟩, []⟩]) ⟨[lbl "a" "1"], ⟨20#64, 6#64⟩, [.done, .failed]⟩).1 =
      .ok () := by decide +kernel

/-- The reverse entry of the only label cannot be written. -/
def exSlLost : FaultyInsert := ⟨[lbl "a" "1"], ⟨10#64, 5#64⟩, [.done, .done, .done, .done, .done, .failed]⟩

/-- The insert reports success, and the point is not found: not by the next query, and not after a further insert of the series that does
not fail and reports success as well. -/
theorem C77_violated_lost :
    (slFaultyInsert (Chunk.new () 0#64 1000#64, ⟨KV.empty, KV.empty⟩) exSlLost).1 = .ok () ∧
    slFaultyQuery stdBinSearch (slFaultyRun 0#64 1000#64 [exSlLost]) [lbl "a" "1"] 0#64 2000#64 [] = .ok [] ∧
    (slFaultyInsert (slFaultyRun 0#64 1000#64 [exSlLost]) ⟨[lbl "a" "1"], ⟨20#64, 5#64⟩, []⟩).1 = .ok () ∧
    slFaultyQuery stdBinSearch (slFaultyRun 0#64 1000#64 [exSlLost, ⟨[lbl "a" "1"], ⟨20#64, 5#64⟩, []⟩]) [lbl "a" "1"] 0#64 2000#64 [] =
      .ok [] := by decide +kernel

/-- The entry of the label set cannot be written: the next insert of the same labels makes a second series with the same labels. -/
theorem C77_violated_twice :
    (slFaultyInsert (Chunk.new () 0#64 1000#64, ⟨KV.empty, KV.empty⟩) ⟨[lbl "a" "1"], ⟨10#64, 5#64⟩, [.done, .done, .failed]⟩).1 = .ok () ∧
    slFaultyQuery stdBinSearch (slFaultyRun 0#64 1000#64 [⟨[lbl "a" "1"], ⟨10#64, 5#64⟩, [.done, .done, .failed]⟩,
      ⟨[lbl "a" "1"], ⟨20#64, 6#64⟩, []⟩]) [lbl "a" "1"] 0#64 2000#64 [] =
      .ok [⟨1#64, [lbl "a" "1"], [⟨10#64, 5#64⟩]⟩, ⟨2#64, [lbl "a" "1"], [⟨20#64, 6#64⟩]⟩] := by decide +kernel

/-- The read of the reverse entry of the second label fails, and the insert says so. -/
def exHalf : FaultyInsert := ⟨[lbl "a" "1", lbl "b" "2"], ⟨10#64, 5#64⟩, [.done, .done, .done, .done, .done, .done, .done, .failed]⟩

/-- Trying again does not help: the second insert reports success, and the series is found by its first label, but not by both. -/
theorem C77_violated_half :
    (slFaultyInsert (Chunk.new () 0#64 1000#64, ⟨KV.empty, KV.empty⟩) exHalf).1 = .err .ioErr ∧
    (slFaultyInsert (slFaultyRun 0#64 1000#64 [exHalf]) ⟨[lbl "a" "1", lbl "b" "2"], ⟨10#64, 5#64⟩, []⟩).1 = .ok () ∧
    slFaultyQuery stdBinSearch (slFaultyRun 0#64 1000#64 [exHalf, ⟨[lbl "a" "1", lbl "b" "2"], ⟨10#64, 5#64⟩, []⟩]) [lbl "a" "1"] 0#64 2000#64 [] =
      .ok [⟨1#64, [lbl "a" "1", lbl "b" "2"], [⟨10#64, 5#64⟩]⟩] ∧
    slFaultyQuery stdBinSearch (slFaultyRun 0#64 1000#64 [exHalf, ⟨[lbl "a" "1", lbl "b" "2"], ⟨10#64, 5#64⟩, []⟩]) [lbl "b" "2"] 0#64 2000#64 [] =
      .ok [] := by decide +kernel

/-- A failure that is reported (here: of the first write of the points of a new series): queries without failures for labels it shares
with another series, all of whose inserts succeeded, now fail. -/
theorem C77_violated_blocks :
    (slFaultyInsert (slFaultyRun 0#64 1000#64 exSlTwo) ⟨[lbl "a" "1"], ⟨20#64, 6#64⟩, [.done, .done, .done, .done, .done, .done, .done, .done, .failed]⟩).1 =
      .err .ioErr ∧
    slFaultyQuery stdBinSearch (slFaultyRun 0#64 1000#64 exSlTwo) [lbl "a" "1"] 0#64 2000#64 [] =
      .ok [⟨1#64, [lbl "a" "1", lbl "b" "2"], [⟨10#64, 5#64⟩, ⟨20#64, 6#64⟩]⟩] ∧
    slFaultyQuery stdBinSearch (slFaultyRun 0#64 1000#64 (exSlTwo ++
      [⟨[lbl "a" "1"], ⟨20#64, 6#64⟩, [.done, .done, .done, .done, .done, .done, .done, .done, .failed]⟩])) [lbl "a" "1"] 0#64 2000#64 [] =
      .err .notFound := by decide +kernel

/-! ### What is true -/

/-- Whatever fails, in any history and in the query: an insert inside the window reports success or the I/O error and never panics, and a
query invents nothing: each series it returns has labels that were inserted, and points that were inserted for them, in order of
insertion, and in the range; it has one of the labels asked for, and all of those the index has an entry for. (Points of a label set come with increasing timestamps; sled storage does not check this.) -/
theorem C77_partial_sound (B : BinSearch) (lo hi : U64) (h : List FaultyInsert) (hwf : ∀ w ∈ h, WFSet w.ls) (hlen : h.length + 1 < 2 ^ 64 - 1)
    (hincr : ∀ ls, SIncr (pointsFor (insideOnly lo hi (h.map fun w => (w.ls, w.p))) ls)) :
    (∀ ls (p : TimePoint) os, WFSet ls → lo.toNat < p.ts.toNat ∧ p.ts.toNat < hi.toNat →
      (slFaultyInsert (slFaultyRun lo hi h) ⟨ls, p, os⟩).1 = .ok () ∨ (slFaultyInsert (slFaultyRun lo hi h) ⟨ls, p, os⟩).1 = .err .ioErr) ∧
    ∀ (q : Labels), (∀ l ∈ q, WFLabel l) → ∀ (a b : U64), a.toNat ≤ b.toNat → ∀ os,
      slFaultyQuery B (slFaultyRun lo hi h) q a b os ≠ .panic ∧
      ∀ ss, slFaultyQuery B (slFaultyRun lo hi h) q a b os = .ok ss → ∀ x ∈ ss,
        (∃ w ∈ h, x.labels.Perm w.ls) ∧ x.points ≠ [] ∧
        x.points <+ inRange (pointsFor (insideOnly lo hi (h.map fun w => (w.ls, w.p))) x.labels) a b ∧
        (∃ l ∈ q, l ∈ x.labels) ∧ ∀ l ∈ q, (slFaultyRun lo hi h).2.idx (encodeLabel l) ≠ none → l ∈ x.labels := by
  obtain ⟨⟨c, ser, R⟩, -⟩ := slFaultyRun_rep lo hi h hwf (by omega)
  have hll := insideOnly_length_le lo hi h
  refine ⟨?_, ?_⟩
  · intro ls p os hls hin
    exact ((R.insert (by omega) hls p os).2 (by simpa [inside] using hin)).1
  · intro q hq a b hab os
    obtain ⟨g1, g2⟩ := R.sound'.answer R.fine hincr B hq hab os
    refine ⟨g1, fun ss hss x hx => ?_⟩
    obtain ⟨⟨⟨w, hw, hwp, -⟩, h2, h3⟩, h4⟩ := g2 ss hss x hx
    obtain ⟨y, hy, rfl⟩ := List.mem_map.mp (List.mem_filter.mp hw).1
    exact ⟨⟨y, hy, hwp⟩, h2, h3, h4⟩

/-- What an insert reports after any history, whatever fails: if the lookup of the labels fails, an error, and nothing has changed; if the
labels are new to the index and it reports success, the point is stored. -/
theorem C77_partial_reported (lo hi : U64) (h : List FaultyInsert) (hwf : ∀ w ∈ h, WFSet w.ls) (hlen : h.length + 1 < 2 ^ 64 - 1) (ls : Labels)
    (hls : WFSet ls) (p : TimePoint) (hin : lo.toNat < p.ts.toNat ∧ p.ts.toNat < hi.toNat) (os : List OpOutcome) :
    let st := slFaultyRun lo hi h
    let r := slFaultyInsert st ⟨ls, p, os⟩
    (os.headD .done ≠ .done → r = (.err .ioErr, st)) ∧
    (r.1 = .ok () → sledByLabels st.2.idx ls = .ok none → ∃ i, st.2.ser (sledKey i) = none ∧ r.2.2.ser (sledKey i) = some (encodePoint p)) := by
  intro st r
  obtain ⟨⟨c, ser, R⟩, -⟩ := slFaultyRun_rep lo hi h hwf (by omega)
  have hin' : (slFaultyRun lo hi h).1.isInRange p.ts = true := by
    rw [inside_iff R.lo_eq R.hi_eq p]; simpa [inside] using hin
  have hcase := slInsertP_cases R.index R.fine hls hin' os
  change SlInsertCase ls p st r.2 r.1 at hcase
  have hnone : st.2.ser (sledKey st.1.nextId) = none := (R.store _).trans (by rw [if_pos R.next_empty])
  refine ⟨?_, ?_⟩
  · intro hh
    show slFaultyInsert st ⟨ls, p, os⟩ = _
    unfold slFaultyInsert slInsertP
    have h1 : st.1.poisoned = false := R.fine
    have h2 : st.1.isInRange p.ts = true := hin'
    rw [if_neg (by simp [h1]), if_pos h2, TreeProg.exec_bind]
    have : (slByLabelsP ls).exec os st.2 = ((.err .ioErr, os.tail), st.2) := by
      unfold slByLabelsP TreeProg.andThen
      rw [TreeProg.exec_bind]
      simp only [TreeProg.exec]
    simp only [this, TreeProg.exec]
  · intro hok hnew
    rcases hcase with ⟨hr, -⟩ | ⟨hb, hc, hn, hw, hr, hx⟩ | ⟨i, hb, hn, hix, hw, hr⟩
    · rw [hr] at hok; cases hok
    · refine ⟨st.1.nextId, hnone, ?_⟩
      rw [hx hnone hok]
      unfold sledWrite
      rw [hnone]; exact KV.set_same _ _ _
    · unfold sledByLabels at hnew
      rw [hb] at hnew
      simp [parseId_fmtId] at hnew

/-- The hypotheses are met after failures, and both results occur. -/
example : (slFaultyInsert (slFaultyRun 0#64 1000#64 [exSlLost, exHalf]) ⟨[lbl "b" "2"], ⟨7#64, 1#64⟩, [.done, .done, .failed]⟩).1 = .ok () ∧
    (slFaultyInsert (slFaultyRun 0#64 1000#64 [exSlLost, exHalf]) ⟨[lbl "b" "2"], ⟨7#64, 1#64⟩, [.lost]⟩).1 = .err .ioErr := by
  decide +kernel

/-- If no operation of the inserts of one label set failed (whatever happened to other inserts), any query for some of its labels, whatever
happens to its own operations, fails, or returns the series with exactly its points in the range. -/
theorem C77_partial_complete (B : BinSearch) (lo hi : U64) (h : List FaultyInsert) (hwf : ∀ w ∈ h, WFSet w.ls) (hlen : h.length + 1 < 2 ^ 64 - 1)
    (L : Labels) (hL : WFSet L) (hgood : ∀ w ∈ h, w.ls.Perm L → ∀ o ∈ w.os, o = .done)
    (hincr : SIncr (pointsFor (insideOnly lo hi (h.map fun w => (w.ls, w.p))) L)) (q : Labels) (hq : ∀ l ∈ q, l ∈ L) (hq0 : q ≠ []) (a b : U64)
    (hab : a.toNat ≤ b.toNat) (os : List OpOutcome) (ss : List Series)
    (hss : slFaultyQuery B (slFaultyRun lo hi h) q a b os = .ok ss)
    (hne : inRange (pointsFor (insideOnly lo hi (h.map fun w => (w.ls, w.p))) L) a b ≠ []) :
    ∃ x ∈ ss, x.labels.Perm L ∧ x.points = inRange (pointsFor (insideOnly lo hi (h.map fun w => (w.ls, w.p))) L) a b := by
  obtain ⟨⟨c, ser, R⟩, hw⟩ := slFaultyRun_rep lo hi h hwf (by omega)
  rcases hw L hL hgood with ⟨-, h0⟩ | ⟨i, ls, W⟩
  · exact absurd (by
      have : pointsFor (insideOnly lo hi (h.map fun w => (w.ls, w.p))) L = [] := h0
      rw [this]; rfl) hne
  · exact R.sound'.finds R.fine B hL W hincr hq hq0 hab hss hne

/-- A history in which the first and the second insert lose operations, and the third does not. -/
def exSlFaulty : List FaultyInsert :=
  [exSlLost, ⟨[lbl "a" "1", lbl "c" "3"], ⟨15#64, 1#64⟩, [.done, .done, .lost, .failed, .done, .lost]⟩, ⟨[lbl "a" "1", lbl "b" "2"], ⟨20#64, 6#64⟩, []⟩]

theorem exSlFaulty_wf : ∀ w ∈ exSlFaulty, WFSet w.ls := by
  intro w hw
  simp only [exSlFaulty, List.mem_cons, List.not_mem_nil, or_false] at hw
  rcases hw with rfl | rfl | rfl <;> exact wfSet_of (by decide +kernel)

example : ∀ ls, SIncr (pointsFor (insideOnly 0#64 1000#64 (exSlFaulty.map fun w => (w.ls, w.p))) ls) :=
  incr_pointsFor (by unfold SIncr; decide +kernel)

example : ∃ ss, slFaultyQuery stdBinSearch (slFaultyRun 0#64 1000#64 exSlFaulty) [lbl "a" "1"] 0#64 2000#64 [] = .ok ss ∧
    ∃ x ∈ ss, x.labels.Perm [lbl "b" "2", lbl "a" "1"] ∧ x.points = [⟨20#64, 6#64⟩] := by
  refine ⟨_, rfl, ?_⟩
  have := C77_partial_complete stdBinSearch 0#64 1000#64 exSlFaulty exSlFaulty_wf
    (by decide) [lbl "b" "2", lbl "a" "1"] (wfSet_of (by decide +kernel)) (by decide +kernel) (by unfold SIncr; decide +kernel) [lbl "a" "1"]
    (by decide +kernel) (by decide) 0#64 2000#64 (by decide) [] _ rfl (by decide +kernel)
  have e : inRange (pointsFor (insideOnly 0#64 1000#64 (exSlFaulty.map fun w => (w.ls, w.p))) [lbl "b" "2", lbl "a" "1"]) 0#64
      2000#64 = [⟨20#64, 6#64⟩] := by decide +kernel
  rw [e] at this
  exact this

end Verif
