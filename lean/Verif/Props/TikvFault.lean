import Verif.Lemmas.TikvFaultComplete
import Verif.Props.Chunk
/-! C74: a chunk on a TiKV cluster whose operations can fail. -/
namespace Verif
open List

/-- A cluster without entries of the chunk, and identifiers as the builders make them. -/
abbrev fI : Str := List.replicate 32 1#8

/-! ### Without failures -/

/-- If no operation fails, inserts and queries are the ones of the model without failures (to which C27 to C31 apply). -/
theorem C74_no_faults (B : BinSearch) (ipre spre : Str) (c : Chunk Unit) (kv : KV) (os : List OpOutcome) (hos : ∀ o ∈ os, o = .done) (ls : Labels)
    (p : TimePoint) (q : Labels) (a b : U64) :
    (faultyInsert ipre spre (c, kv) ⟨ls, p, os⟩).1 = ((c.withStore kv).insert (tikvComp B ipre spre) ls p).1 ∧
    (faultyInsert ipre spre (c, kv) ⟨ls, p, os⟩).2.1.withStore (faultyInsert ipre spre (c, kv) ⟨ls, p, os⟩).2.2 =
      ((c.withStore kv).insert (tikvComp B ipre spre) ls p).2 ∧
    faultyQuery B ipre spre (c, kv) q a b os = (c.withStore kv).query (tikvComp B ipre spre) q a b := by
  have h1 := insertP_run B ipre spre c ls p kv
  have h2 := queryP_run B ipre spre c q a b kv
  have d1 := (insertP ipre spre c ls p).exec_done hos kv
  have d2 := (queryP B ipre spre c q a b).exec_done hos kv
  unfold KvProg.run at h1 h2
  simp only at h1 h2
  rw [Prod.ext_iff] at h1 h2
  unfold faultyInsert faultyQuery
  simp only
  rw [d1.1, d1.2.1, d2.1]
  exact ⟨h1.1, h1.2, h2.1⟩

/-- A whole history without failures. -/
theorem C74_no_faults_run (B : BinSearch) (ipre spre : Str) (lo hi : U64) (kv : KV) (h : List FaultyInsert)
    (hos : ∀ w ∈ h, ∀ o ∈ w.os, o = .done) :
    (faultyRun ipre spre lo hi kv h).1.withStore (faultyRun ipre spre lo hi kv h).2 =
      (Chunk.new kv lo hi).insertAll (tikvComp B ipre spre) (h.map fun w => (w.ls, w.p)) := by
  induction h using List.reverseRecOn with
  | nil => rfl
  | append_singleton h w ih =>
    have ih := ih fun x hx => hos x (by simp [hx])
    rw [faultyRun_append, List.map_append]
    have := (C74_no_faults B ipre spre (faultyRun ipre spre lo hi kv h).1 (faultyRun ipre spre lo hi kv h).2 w.os (hos w (by simp))
      w.ls w.p [] 0#64 0#64).2.1
    obtain ⟨ls, p, os⟩ := w
    simp only at this
    rw [ih] at this
    rw [this]
    simp only [Chunk.insertAll, List.map_cons, List.map_nil, List.foldl_append, List.foldl_cons, List.foldl_nil]

example : ∀ o ∈ [OpOutcome.done, .done], o = .done := by decide

/-! ### The storage alone is safe -/

/-- A storage write whose operations fail in any way either reports an error of the client or does and reports what it would have without
failures; the store is never anything but unchanged or as without failures. -/
theorem C74_storage_write (spre : Str) (i : U64) (p : TimePoint) (os : List OpOutcome) (kv : KV) :
    (((writeP spre i p).exec os kv).2 = kv ∨ ((writeP spre i p).exec os kv).2 = (tikvWrite spre kv i p).2) ∧
      (((writeP spre i p).exec os kv).1.1 = .err .tikvErr ∨
        (((writeP spre i p).exec os kv).1.1 = (tikvWrite spre kv i p).1 ∧ ((writeP spre i p).exec os kv).2 = (tikvWrite spre kv i p).2)) :=
  writeP_exec spre i p os kv

/-- A storage read whose operation fails reports it. -/
theorem C74_storage_read (B : BinSearch) (spre : Str) (i a b : U64) (os : List OpOutcome) (kv : KV) :
    ((readP B spre i a b).exec os kv).2 = kv ∧
      (((readP B spre i a b).exec os kv).1.1 = .err .tikvErr ∨ ((readP B spre i a b).exec os kv).1.1 = tikvRead B spre kv i a b) :=
  readP_exec B spre i a b os kv

/-- A write whose answer is lost: stored, and an error reported. -/
example : ((writeP [] 1#64 ⟨5#64, 6#64⟩).exec [.done, .lost] KV.empty).1.1 = .err .tikvErr ∧
    ((writeP [] 1#64 ⟨5#64, 6#64⟩).exec [.done, .lost] KV.empty).2 (tikvKey [] 1#64) = some (encodePoint ⟨5#64, 6#64⟩) := by decide +kernel

/-! ### Not true: a failure is reported, and does not change what the caller sees otherwise -/

/-- The reverse entry of the only label cannot be written. -/
def exLost : FaultyInsert := ⟨[lbl "a" "1"], ⟨10#64, 5#64⟩, [.done, .done, .done, .done, .failed]⟩

/-- The insert reports success, and the point is not found: not by the next query, and not after any number of further inserts of the
series that do not fail and report success as well. -/
theorem C74_violated_lost :
    (faultyInsert fI [] (Chunk.new () 0#64 1000#64, KV.empty) exLost).1 = .ok () ∧
    faultyQuery stdBinSearch fI [] (faultyRun fI [] 0#64 1000#64 KV.empty [exLost]) [lbl "a" "1"] 0#64 2000#64 [] = .ok [] ∧
    (faultyInsert fI [] (faultyRun fI [] 0#64 1000#64 KV.empty [exLost]) ⟨[lbl "a" "1"], ⟨20#64, 5#64⟩, []⟩).1 = .ok () ∧
    faultyQuery stdBinSearch fI [] (faultyRun fI [] 0#64 1000#64 KV.empty [exLost, ⟨[lbl "a" "1"], ⟨20#64, 5#64⟩, []⟩]) [lbl "a" "1"] 0#64
      2000#64 [] = .ok [] := by decide +kernel

/-- The write of a point into an existing series fails, and the insert reports success. -/
theorem C74_violated_dropped :
    (faultyInsert fI [] (faultyRun fI [] 0#64 1000#64 KV.empty [⟨[lbl "a" "1"], ⟨10#64, 5#64⟩, []⟩])
      ⟨[lbl "a" "1"], ⟨20#64, 6#64⟩, [.done, .done, .failed]⟩).1 = .ok () ∧
    faultyQuery stdBinSearch fI [] (faultyRun fI [] 0#64 1000#64 KV.empty [⟨[lbl "a" "1"], ⟨10#64, 5#64⟩, []⟩,
      ⟨[lbl "a" "1"], ⟨20#64, 6#64⟩, [.done, .done, .failed]⟩]) [lbl "a" "1"] 0#64 2000#64 [] =
      .ok [⟨1#64, [lbl "a" "1"], [⟨10#64, 5#64⟩]⟩] := by decide +kernel

/-- The entry of the label set cannot be written: the next insert of the same labels makes a second series with the same labels. -/
theorem C74_violated_twice :
    (faultyInsert fI [] (Chunk.new () 0#64 1000#64, KV.empty) ⟨[lbl "a" "1"], ⟨10#64, 5#64⟩, [.done, .done, .failed]⟩).1 = .ok () ∧
    faultyQuery stdBinSearch fI [] (faultyRun fI [] 0#64 1000#64 KV.empty [⟨[lbl "a" "1"], ⟨10#64, 5#64⟩, [.done, .done, .failed]⟩,
      ⟨[lbl "a" "1"], ⟨20#64, 6#64⟩, []⟩]) [lbl "a" "1"] 0#64 2000#64 [] =
      .ok [⟨1#64, [lbl "a" "1"], [⟨10#64, 5#64⟩]⟩, ⟨2#64, [lbl "a" "1"], [⟨20#64, 6#64⟩]⟩] := by decide +kernel

/-- A query for `a = 1, b = 2` whose read of the entry of `b = 2` fails returns a series with `b = 3`. -/
theorem C74_violated_wrong :
    faultyQuery stdBinSearch fI [] (faultyRun fI [] 0#64 1000#64 KV.empty [⟨[lbl "a" "1", lbl "b" "2"], ⟨10#64, 5#64⟩, []⟩,
      ⟨[lbl "a" "1", lbl "b" "3"], ⟨20#64, 6#64⟩, []⟩]) [lbl "a" "1", lbl "b" "2"] 0#64 2000#64 [.done, .failed] =
      .ok [⟨1#64, [lbl "a" "1", lbl "b" "2"], [⟨10#64, 5#64⟩]⟩, ⟨2#64, [lbl "a" "1", lbl "b" "3"], [⟨20#64, 6#64⟩]⟩] := by decide +kernel

/-- The first write of the points of a new series fails (and is reported): queries without failures for labels it shares with another
series, all of whose inserts succeeded, now fail. -/
theorem C74_violated_blocks :
    (faultyInsert fI [] (faultyRun fI [] 0#64 1000#64 KV.empty [⟨[lbl "a" "1", lbl "b" "2"], ⟨10#64, 5#64⟩, []⟩])
      ⟨[lbl "a" "1"], ⟨20#64, 6#64⟩, [.done, .done, .done, .done, .done, .done, .failed]⟩).1 = .err .tikvErr ∧
    faultyQuery stdBinSearch fI [] (faultyRun fI [] 0#64 1000#64 KV.empty [⟨[lbl "a" "1", lbl "b" "2"], ⟨10#64, 5#64⟩, []⟩]) [lbl "a" "1"]
      0#64 2000#64 [] = .ok [⟨1#64, [lbl "a" "1", lbl "b" "2"], [⟨10#64, 5#64⟩]⟩] ∧
    faultyQuery stdBinSearch fI [] (faultyRun fI [] 0#64 1000#64 KV.empty [⟨[lbl "a" "1", lbl "b" "2"], ⟨10#64, 5#64⟩, []⟩,
      ⟨[lbl "a" "1"], ⟨20#64, 6#64⟩, [.done, .done, .done, .done, .done, .done, .failed]⟩]) [lbl "a" "1"] 0#64 2000#64 [] =
      .err .notFound := by decide +kernel

/-! ### What is true -/

/-- Whatever fails, in any history and in the query: no call inside the window panics, and a query invents nothing: each series it returns
has labels that were inserted, one of which was asked for, and points that were inserted for them, in order of insertion, increasing in
time, and in the range. If no operation of the query fails, it has every label asked for that the index has an entry for. -/
theorem C74_partial_sound (B : BinSearch) (ipre spre : Str) (hp : spre.length + 8 ≤ ipre.length) (kv : KV) (hk : Unused ipre spre kv) (lo hi : U64)
    (h : List FaultyInsert) (hwf : ∀ w ∈ h, WFSet w.ls) (hlen : h.length + 1 < 2 ^ 64 - 1) :
    (∀ ls p os, WFSet ls → (faultyInsert ipre spre (faultyRun ipre spre lo hi kv h) ⟨ls, p, os⟩).1 ≠ .panic) ∧
    ∀ (q : Labels), (∀ l ∈ q, WFLabel l) → ∀ (a b : U64), a.toNat ≤ b.toNat → ∀ os,
      faultyQuery B ipre spre (faultyRun ipre spre lo hi kv h) q a b os ≠ .panic ∧
      ∀ ss, faultyQuery B ipre spre (faultyRun ipre spre lo hi kv h) q a b os = .ok ss → ∀ x ∈ ss,
        (∃ w ∈ h, x.labels.Perm w.ls) ∧ x.points ≠ [] ∧ SIncr x.points ∧
        x.points <+ inRange (pointsFor (insideOnly lo hi (h.map fun w => (w.ls, w.p))) x.labels) a b ∧
        (∃ l ∈ q, l ∈ x.labels) ∧
        ((∀ o ∈ os, o = .done) → ∀ l ∈ q, (faultyRun ipre spre lo hi kv h).2 (ipre ++ encodeLabel l) ≠ none → l ∈ x.labels) := by
  obtain ⟨⟨c, ser, R⟩, -⟩ := faultyRun_rep hp lo hi hk.1 hk.2 h hwf (by omega)
  have hll : (insideOnly lo hi (callsOf h)).length ≤ h.length := by
    unfold insideOnly
    exact (List.length_filter_le _ _).trans (by simp [callsOf])
  refine ⟨?_, ?_⟩
  · intro ls p os hls
    have hs := R.insert hp (by omega) hls p os
    by_cases hi' : inside lo hi p = true
    · exact (hs.2 hi').1
    · rw [hs.1 (by simpa using hi')]; simp
  · intro q hq a b hab os
    obtain ⟨g1, g2⟩ := R.query B hq hab os
    refine ⟨g1, ?_⟩
    intro ss hss x hx
    obtain ⟨s, hs, he, hl, hpt, hne, hlab, hlabs⟩ := g2 ss hss x hx
    have hsp : s.1.Perm x.labels := by rw [hl]; exact (sortLabels_perm s.1).symm
    refine ⟨?_, hne, ?_, ?_, ?_, fun hd l hl hk => hsp.mem_iff.mp (hlabs hd l hl hk)⟩
    rotate_right
    · obtain ⟨l, hlq, hls⟩ := hlab
      exact ⟨l, hlq, hsp.mem_iff.mp hls⟩
    · obtain ⟨w, hw, hws⟩ := R.origin s hs
      have := (List.mem_filter.mp hw).1
      obtain ⟨y, hy, rfl⟩ := List.mem_map.mp this
      exact ⟨y, hy, by rw [show y.ls = s.1 from hws]; exact hsp.symm⟩
    · rw [hpt]
      exact (R.incr x.id).sublist List.filter_sublist
    · rw [hpt]
      have hser : ser x.id <+ pointsFor (insideOnly lo hi (callsOf h)) s.1 := by
        by_cases h0 : ser x.id = []
        · rw [h0]; exact List.nil_sublist _
        · obtain ⟨t, ht, he', hx⟩ := R.sound x.id h0
          rw [R.id_unique hs ht (by rw [he, he'])]; exact hx
      have hpf : pointsFor (insideOnly lo hi (callsOf h)) s.1 = pointsFor (insideOnly lo hi (callsOf h)) x.labels := by
        unfold pointsFor
        congr 1
        apply List.filter_congr
        intro w _
        exact decide_eq_decide.mpr ⟨fun h => h.trans hsp, fun h => h.trans hsp.symm⟩
      rw [hpf] at hser
      exact hser.filter _

/-- What an insert reports after any history, whatever fails: inside the window, success or an error of the client; if the lookup of the
labels fails, an error, and nothing has changed; if the labels are new to the index and it reports success, the point is stored. -/
theorem C74_partial_reported (ipre spre : Str) (hp : spre.length + 8 ≤ ipre.length) (kv : KV) (hk : Unused ipre spre kv) (lo hi : U64)
    (h : List FaultyInsert) (hwf : ∀ w ∈ h, WFSet w.ls) (hlen : h.length + 1 < 2 ^ 64 - 1) (ls : Labels) (hls : WFSet ls) (p : TimePoint)
    (hin : lo.toNat < p.ts.toNat ∧ p.ts.toNat < hi.toNat) (os : List OpOutcome) :
    let st := faultyRun ipre spre lo hi kv h
    let r := faultyInsert ipre spre st ⟨ls, p, os⟩
    (r.1 = .ok () ∨ r.1 = .err .tikvErr) ∧
    (os.headD .done ≠ .done → r = (.err .tikvErr, st)) ∧
    (r.1 = .ok () → tikvByLabels ipre st.2 ls = .ok none → ∃ i, st.2 (tikvKey spre i) = none ∧ r.2.2 (tikvKey spre i) = some (encodePoint p)) := by
  intro st r
  obtain ⟨⟨c, ser, R⟩, -⟩ := faultyRun_rep hp lo hi hk.1 hk.2 h hwf (by omega)
  have hin' : (faultyRun ipre spre lo hi kv h).1.isInRange p.ts = true := by
    rw [inside_iff R.lo_eq R.hi_eq p]; simpa [inside] using hin
  have hcase := insertP_cases hp R.index R.store R.fine hls hin' os
  have hfirst : os.headD .done ≠ .done → r = (.err .tikvErr, st) := by
    intro hh
    show faultyInsert ipre spre st ⟨ls, p, os⟩ = _
    unfold faultyInsert insertP
    have h1 : st.1.poisoned = false := R.fine
    have h2 : st.1.isInRange p.ts = true := hin'
    rw [if_neg (by simp [h1]), if_pos h2, KvProg.exec_bind]
    have : (byLabelsP ipre ls).exec os st.2 = ((.err .tikvErr, os.tail), st.2) := by
      unfold byLabelsP
      simp only [KvProg.exec]
    simp only [this, KvProg.exec]
  have hnone : ser st.1.nextId = [] := by
    by_contra hne
    obtain ⟨s, hs, he, -⟩ := R.sound _ hne
    have := R.bound s hs
    have h3 : st.1.nextId.toNat = c.length + 1 := R.next
    rw [he] at this; omega
  change InsertCase ipre spre ls p st r.2 r.1 at hcase
  have hwr : ∀ {kv1 : KV}, CreateEffect ipre ls st.1.nextId st.2 kv1 →
      (tikvWrite spre kv1 st.1.nextId p) = (.ok (), kv1.set (tikvKey spre st.1.nextId) (encodePoint p)) := by
    intro kv1 hc
    have : kv1 (tikvKey spre st.1.nextId) = none := by
      rw [hc.other _ (tikvKey_ne_index hp _ (encodeLabels_ne_nil ls))
        (tikvKey_ne_index hp _ (encodeId_ne_nil _)) fun l _ => tikvKey_ne_index hp _ (encodeLabel_ne_nil l)]
      refine (R.store _).trans ?_
      rw [if_pos hnone]
    unfold tikvWrite; rw [this]
  refine ⟨?_, hfirst, ?_⟩
  · rcases hcase with ⟨hr, -⟩ | ⟨hb, kv1, hc, hn, hw, hr⟩ | ⟨i, hb, hn, hw, hr⟩
    · exact Or.inr hr
    · rcases hr with hr | ⟨hr, -⟩
      · exact Or.inr hr
      · left; rw [hr, hwr hc]
    · exact Or.inl hr
  · intro hok hnew
    rcases hcase with ⟨hr, -⟩ | ⟨hb, kv1, hc, hn, hw, hr⟩ | ⟨i, hb, hn, hw, hr⟩
    · rw [hr] at hok; cases hok
    · rcases hr with hr | ⟨-, hr⟩
      · rw [hr] at hok; cases hok
      · refine ⟨st.1.nextId, (R.store _).trans (by rw [if_pos hnone]), ?_⟩
        rw [hr, hwr hc]; exact KV.set_same _ _ _
    · unfold tikvByLabels at hnew
      rw [hb] at hnew
      simp [fromBE_toBE, Res.ofPanic] at hnew

/-- The hypotheses are met after failures, and both results occur. -/
example : (faultyInsert fI [] (faultyRun fI [] 0#64 1000#64 KV.empty [exLost]) ⟨[lbl "b" "2"], ⟨7#64, 1#64⟩, [.done, .failed]⟩).1 = .ok () ∧
    (faultyInsert fI [] (faultyRun fI [] 0#64 1000#64 KV.empty [exLost]) ⟨[lbl "b" "2"], ⟨7#64, 1#64⟩, [.lost]⟩).1 = .err .tikvErr := by
  decide +kernel

/-- If no operation of the inserts of one label set failed (whatever happened to other inserts), a query without failures for some of its
labels fails, or returns the series with exactly its points in the range (the ones the storage accepts: those later than the last). -/
theorem C74_partial_complete (B : BinSearch) (ipre spre : Str) (hp : spre.length + 8 ≤ ipre.length) (kv : KV) (hk : Unused ipre spre kv) (lo hi : U64)
    (h : List FaultyInsert) (hwf : ∀ w ∈ h, WFSet w.ls) (hlen : h.length + 1 < 2 ^ 64 - 1) (L : Labels) (hL : WFSet L)
    (hgood : ∀ w ∈ h, w.ls.Perm L → ∀ o ∈ w.os, o = .done) (q : Labels) (hq : ∀ l ∈ q, l ∈ L) (hq0 : q ≠ []) (a b : U64)
    (hab : a.toNat ≤ b.toNat) (os : List OpOutcome) (hos : ∀ o ∈ os, o = .done) (ss : List Series)
    (hss : faultyQuery B ipre spre (faultyRun ipre spre lo hi kv h) q a b os = .ok ss)
    (hne : inRange (acceptIncreasing (pointsFor (insideOnly lo hi (h.map fun w => (w.ls, w.p))) L)) a b ≠ []) :
    ∃ x ∈ ss, x.labels.Perm L ∧
      x.points = inRange (acceptIncreasing (pointsFor (insideOnly lo hi (h.map fun w => (w.ls, w.p))) L)) a b := by
  obtain ⟨⟨c, ser, R⟩, hw⟩ := faultyRun_rep hp lo hi hk.1 hk.2 h hwf (by omega)
  rcases hw L hL hgood with ⟨-, h0⟩ | ⟨i, ls, W⟩
  · exact absurd (by
      have : pointsFor (insideOnly lo hi (h.map fun w => (w.ls, w.p))) L = [] := h0
      rw [this]; rfl) hne
  · exact R.finds B hL W (acceptIncreasing_incr _) hq hq0 hab hos hss hne

/-- A history in which the first and the second insert lose operations, and the third does not. -/
def exFaulty : List FaultyInsert :=
  [exLost, ⟨[lbl "a" "1", lbl "c" "3"], ⟨30#64, 1#64⟩, [.done, .lost, .failed, .failed, .done, .lost]⟩, ⟨[lbl "a" "1", lbl "b" "2"], ⟨20#64, 6#64⟩, []⟩]

theorem exFaulty_wf : ∀ w ∈ exFaulty, WFSet w.ls := by
  intro w hw
  simp only [exFaulty, List.mem_cons, List.not_mem_nil, or_false] at hw
  rcases hw with rfl | rfl | rfl <;> exact wfSet_of (by decide +kernel)

example : ∃ ss, faultyQuery stdBinSearch fI [] (faultyRun fI [] 0#64 1000#64 KV.empty exFaulty) [lbl "a" "1"] 0#64 2000#64 [] = .ok ss ∧
    ∃ x ∈ ss, x.labels.Perm [lbl "b" "2", lbl "a" "1"] ∧ x.points = [⟨20#64, 6#64⟩] := by
  refine ⟨_, rfl, ?_⟩
  have := C74_partial_complete stdBinSearch fI [] (by decide) KV.empty ⟨fun _ => rfl, fun _ => rfl⟩ 0#64 1000#64 exFaulty exFaulty_wf
    (by decide) [lbl "b" "2", lbl "a" "1"] (wfSet_of (by decide +kernel)) (by decide +kernel) [lbl "a" "1"] (by decide +kernel)
    (by decide) 0#64 2000#64 (by decide) [] (by simp) _ rfl (by decide +kernel)
  have e : inRange (acceptIncreasing (pointsFor (insideOnly 0#64 1000#64 (exFaulty.map fun w => (w.ls, w.p))) [lbl "b" "2", lbl "a" "1"])) 0#64
      2000#64 = [⟨20#64, 6#64⟩] := by decide +kernel
  rw [e] at this
  exact this

/-- The failures of the first two inserts are visible in it: the first series is missing, the second fails partly. -/
example : faultyQuery stdBinSearch fI [] (faultyRun fI [] 0#64 1000#64 KV.empty exFaulty) [lbl "a" "1"] 0#64 2000#64 [] =
    .ok [⟨3#64, [lbl "a" "1", lbl "b" "2"], [⟨20#64, 6#64⟩]⟩] := by decide +kernel

end Verif
