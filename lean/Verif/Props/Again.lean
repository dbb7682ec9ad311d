import Verif.Lemmas.Again
import Verif.Props.DbFine
import Verif.Props.ServerConc
/-! C91: what was reported once is reported again. -/
namespace Verif
open List

/-- C91 for the running server, which handles one request after the other while the timer swaps chunks: a sample that one answer reports is in every later answer
to a query from time 0 to a time not before anything sent, by some of the labels of its series, also if the write that brought it was never acknowledged. -/
theorem C91_partial_served (B : Kit) (H : Hash) (sn : Snappy) (rt : PbRt) (P : Paths) (hP : P.read ≠ P.write) (lo hi : U64) (ticks : List (U64 × U64))
    (reqs : List Request) (calls : List Call) (hsays : Forall₂ (Says sn rt.utf8 P) reqs calls) (hf : FineCalls rt calls)
    (hH : H.Good fun k => ∃ m s, Call.write m ∈ calls ∧ s ∈ m ∧ k = sortLabels s.labels)
    (sched : List Nat) (hb : sched.length < 2 ^ 64 - 1) (c : SrvConf) (hc : c = (SrvConf.start lo hi ticks reqs).run B H (pbFormats sn rt) P sched)
    (i j : Nat) (hij : i < j) (qs qs' : List PQuery) (hi' : calls[i]? = some (.read qs)) (hj : calls[j]? = some (.read qs')) (body body' : Str)
    (hres : c.sent[i]? = some (some ⟨200, body⟩)) (hres' : c.sent[j]? = some (some ⟨200, body'⟩))
    (hqs : ∀ q ∈ qs ++ qs', (∀ y ∈ q.matchers, WFLabel ⟨y.name, y.value⟩) ∧ (asU64 q.start_).toNat ≤ (asU64 q.end_).toNat)
    (out : Str) (ho : sn.decompress body = some out) (hl : out.length < 2 ^ 32) (rs : List (List PSeries)) (hrs : IsResponse rt.utf8 rs out)
    (r : List PSeries) (hr : r ∈ rs) (y : PSeries) (hy : y ∈ r) (z : Sample) (hz : z ∈ y.samples)
    (k : Nat) (hk : k < qs'.length) (hne : qs'[k].matchers ≠ []) (hsub : ∀ x ∈ qs'[k].matchers, (⟨x.name, x.value⟩ : Label) ∈ y.labels)
    (h0 : qs'[k].start_ = 0) (hcov : ∀ m, Call.write m ∈ calls → ∀ s ∈ m, ∀ x ∈ s.samples, x.point.ts.toNat ≤ (asU64 qs'[k].end_).toNat) :
    ∃ out', sn.decompress body' = some out' ∧ (out'.length < 2 ^ 32 → ∃ rs' r', (∀ m, IsResponse rt.utf8 m out' ↔ m = rs') ∧ rs'[k]? = some r' ∧
      ∃ y' ∈ r', y'.labels = y.labels ∧ z ∈ y'.samples) := by
  have hH' : H.Good fun k => (∃ m s, Call.write m ∈ calls ∧ s ∈ m ∧ k = sortLabels s.labels) ∨ False := fun x y hx hy => hH x y (by simpa using hx) (by simpa using hy)
  have D := (srv_core B H sn rt P hP [] [] (fun _ => False) .nil (fun _ h => h.elim) lo hi ticks reqs calls hsays hf hH' sched hb).1
  have hc' : c = (SrvConf.startOn [] lo hi ticks reqs).run B H (pbFormats sn rt) P sched := hc
  rw [← hc'] at D
  obtain ⟨n, hn, rfl⟩ := List.mem_iff_getElem.mp hr
  obtain ⟨p, op, w, p1, p2, p3, p4, p5, rfl⟩ := shown_held hf D hi' hres (fun q hq => hqs q (List.mem_append_left _ hq)) ho hl hrs (List.getElem?_eq_getElem hn) hy hz
  rw [p5] at hsub ⊢
  exact held_shown hf D hij p1 p2 p3 p4 hj hres' (fun q hq => hqs q (List.mem_append_right _ hq)) k hk hne
    (fun x hx => (sortLabels_perm w.1).mem_iff.mp (hsub x hx)) h0 hcov

/-- C91 for threads that use one database and may be interrupted anywhere: after `s1 ++ s2` some thread has got an answer that reports the point `p` for the labels `k`.
A query that starts later (thread `t'` is idle after `s1 ++ s2`), by some of these labels, is answered. The point comes from a chunk with a window strictly around
it; if the later query covers that window it reports the point as well, unless meanwhile an insert into that chunk began that makes a new series with one of the labels
asked for. -/
theorem C91_partial_threads (B : Kit) (H : Hash) (lo hi : U64) (progs : Nat → List DbOp) (hf : FineProgs progs) (hs : SingleWriter progs)
    (hH : H.Good (Written progs)) (s1 s2 s3 : List Nat) (hb : (s1 ++ s2 ++ s3).length < 2 ^ 64 - 1)
    (t : Nat) (q : Labels) (hq0 : q ≠ []) (hq : ∀ l ∈ q, WFLabel l) (a b : U64) (hab : a.toNat ≤ b.toNat) (rest : List DbOp)
    (hidle : ((runFine B H lo hi progs s1).threads t).now = none)
    (hnext : ((runFine B H lo hi progs s1).threads t).todo = .query q a b :: rest)
    (r : List (Labels × List TimePoint))
    (ho : ((runFine B H lo hi progs (s1 ++ s2)).threads t).done[((runFine B H lo hi progs s1).threads t).done.length]? = some (.answered q a b (.ok r)))
    (k : Labels) (v : List TimePoint) (hv : (k, v) ∈ r) (p : TimePoint) (hp : p ∈ v)
    (t' : Nat) (q' : Labels) (hq0' : q' ≠ []) (hsub : ∀ l ∈ q', l ∈ k) (a' b' : U64) (hab' : a'.toNat ≤ b'.toNat) (rest' : List DbOp)
    (hidle' : ((runFine B H lo hi progs (s1 ++ s2)).threads t').now = none)
    (hnext' : ((runFine B H lo hi progs (s1 ++ s2)).threads t').todo = .query q' a' b' :: rest')
    (o : Out) (ho' : ((runFine B H lo hi progs (s1 ++ s2 ++ s3)).threads t').done[((runFine B H lo hi progs (s1 ++ s2)).threads t').done.length]? = some o) :
    ∃ r', o = .answered q' a' b' (.ok r') ∧ ∃ (i : Nat) (S1 S : FChunk), (runFine B H lo hi progs (s1 ++ s2)).chunks[i]? = some S1 ∧
      (runFine B H lo hi progs (s1 ++ s2 ++ s3)).chunks[i]? = some S ∧ S1.store.start_.toNat < p.ts.toNat ∧ p.ts.toNat < S1.store.end_.toNat ∧
      (∃ ls, sortLabels ls = k ∧ (ls, p) ∈ S1.settled) ∧
      (a'.toNat ≤ S1.store.start_.toNat → S1.store.end_.toNat ≤ b'.toNat →
        NewSeries S1.store.start_ S1.store.end_ S1.started S.started q' ∨ ∃ v', (k, v') ∈ r' ∧ p ∈ v') := by
  have hb1 : (s1 ++ s2).length < 2 ^ 64 - 1 := by simp only [List.length_append] at hb ⊢; omega
  have hI := runFine_inv B H lo hi hf (s1 ++ s2) hb1
  obtain ⟨r0, hr0, -, hfrom, -⟩ := fquery_state B H lo hi hf hs hH s1 s2 hb1 hq0 hq hab hidle hnext ho
  simp only [Out.answered.injEq, Res.ok.injEq, true_and] at hr0
  subst hr0
  obtain ⟨-, i, S1, hS1, w, hw, hwp, hwk, hin⟩ := hfrom (k, v) hv p hp
  simp only at hwp hwk
  subst hwp
  obtain ⟨ev, hev, -, e1, e2⟩ := settled_log hI hS1 hw
  obtain ⟨ps, hps, -⟩ := hI.own ev hev
  have hwf := hf.wf _ _ _ hps
  rw [e1] at hwf
  have hsub' : ∀ l ∈ q', l ∈ w.1 := fun l hl => by
    have := hsub l hl
    rw [← hwk] at this
    exact (sortLabels_perm w.1).mem_iff.mp this
  obtain ⟨r', hr', -, -, hcov⟩ := fquery_state B H lo hi hf hs hH (s1 ++ s2) s3 hb hq0' (fun l hl => hwf.wf l (hsub' l hl)) hab' hidle' hnext' ho'
  have hin2 := hin
  simp only [inside, Bool.and_eq_true, decide_eq_true_eq] at hin2
  have hgrow := (fqstate_run (c1 := runFine B H lo hi progs (s1 ++ s2)) hf hs hH hq0' (fun l hl => hwf.wf l (hsub' l hl)) hab' s3 (n := (s1 ++ s2).length)
    (by rw [List.length_append] at hb; exact hb) hI (FGrow.refl _) (.idle rest' rfl hidle' hnext')).2
  rw [← runFine_append] at hgrow
  obtain ⟨S, hS, -⟩ := hgrow.chunk i S1 hS1
  refine ⟨r', hr', i, S1, S, hS1, hS, hin2.1, hin2.2, ⟨w.1, hwk, hw⟩, fun ha hb' => ?_⟩
  have hle : i ≤ (runFine B H lo hi progs (s1 ++ s2)).current := by
    have := (List.getElem?_eq_some_iff.mp hS1).1
    rw [hI.len] at this
    omega
  rcases hcov i hle S1 hS1 with ⟨S', hS', hn⟩ | hh
  · rw [hS] at hS'
    obtain rfl := Option.some.inj hS'
    exact Or.inl hn
  · have := hh w hw hin hsub' ha hb'
    rw [hwk] at this
    exact Or.inr this

/-- The same, without looking into the database: if all writes of a label set with one of the labels asked for are of the label set `k`, the later query, for all
times, reports the point. -/
theorem C91_partial_own_labels (B : Kit) (H : Hash) (lo hi : U64) (progs : Nat → List DbOp) (hf : FineProgs progs) (hs : SingleWriter progs)
    (hH : H.Good (Written progs)) (s1 s2 s3 : List Nat) (hb : (s1 ++ s2 ++ s3).length < 2 ^ 64 - 1)
    (t : Nat) (q : Labels) (hq0 : q ≠ []) (hq : ∀ l ∈ q, WFLabel l) (a b : U64) (hab : a.toNat ≤ b.toNat) (rest : List DbOp)
    (hidle : ((runFine B H lo hi progs s1).threads t).now = none)
    (hnext : ((runFine B H lo hi progs s1).threads t).todo = .query q a b :: rest)
    (r : List (Labels × List TimePoint))
    (ho : ((runFine B H lo hi progs (s1 ++ s2)).threads t).done[((runFine B H lo hi progs s1).threads t).done.length]? = some (.answered q a b (.ok r)))
    (k : Labels) (v : List TimePoint) (hv : (k, v) ∈ r) (p : TimePoint) (hp : p ∈ v)
    (t' : Nat) (q' : Labels) (hq0' : q' ≠ []) (hsub : ∀ l ∈ q', l ∈ k)
    (hown : ∀ u ls ps, DbOp.write ls ps ∈ progs u → (∃ l ∈ q', l ∈ ls) → sortLabels ls = k) (rest' : List DbOp)
    (hidle' : ((runFine B H lo hi progs (s1 ++ s2)).threads t').now = none)
    (hnext' : ((runFine B H lo hi progs (s1 ++ s2)).threads t').todo = .query q' 0#64 (BitVec.allOnes 64) :: rest')
    (o : Out) (ho' : ((runFine B H lo hi progs (s1 ++ s2 ++ s3)).threads t').done[((runFine B H lo hi progs (s1 ++ s2)).threads t').done.length]? = some o) :
    ∃ r', o = .answered q' 0#64 (BitVec.allOnes 64) (.ok r') ∧ ∃ v', (k, v') ∈ r' ∧ p ∈ v' := by
  obtain ⟨r', h1, i, S1, S, h2, h3, h4, h5, ⟨ls, h6, h7⟩, h8⟩ := C91_partial_threads B H lo hi progs hf hs hH s1 s2 s3 hb t q hq0 hq a b hab rest hidle hnext r ho k v hv p hp
    t' q' hq0' hsub 0#64 (BitVec.allOnes 64) (by simp) rest' hidle' hnext' o ho'
  refine ⟨r', h1, ?_⟩
  rcases h8 (by simp) (by have := S1.store.end_.isLt; rw [BitVec.toNat_allOnes]; omega) with h9 | h9
  · exfalso
    have hI := runFine_inv B H lo hi hf (s1 ++ s2 ++ s3) hb
    obtain ⟨g, w, g1, g2, g3, g4, g5⟩ := h9
    have hw : w ∈ S.started := g2.subset (by simp)
    rw [hI.started i S h3] at hw
    obtain ⟨e, he, rfl⟩ := List.mem_map.mp hw
    obtain ⟨ps, hps, -⟩ := hI.own e (List.mem_filter.mp he).1
    have hk := hown _ _ _ hps g4
    refine g5 (ls, p) (List.mem_filter.mpr ⟨g1.subset (S1.settled_started.subset h7), ?_⟩) ?_
    · simp only [inside, Bool.and_eq_true, decide_eq_true_eq]; exact ⟨h4, h5⟩
    · have := sortLabels_perm ls
      rw [h6, ← hk] at this
      exact this.symm.trans (sortLabels_perm e.labels)
  · exact h9

/-! ### Threads -/

/-- Thread 1 writes `{a=1}`, thread 2 writes `{a=1, b=2}`, thread 3 asks for `{a=1}` three times, thread 4 asks for `{b=2}`, thread 0 swaps. -/
def agProgs : Nat → List DbOp
  | 0 => [.swap 1001#64 2001#64]
  | 1 => [.write [lbl "a" "1"] [⟨10#64, 5#64⟩, ⟨20#64, 6#64⟩]]
  | 2 => [.write [lbl "a" "1", lbl "b" "2"] [⟨15#64, 8#64⟩]]
  | 3 => [.query [lbl "a" "1"] 0#64 3000#64, .query [lbl "a" "1"] 0#64 3000#64, .query [lbl "b" "2"] 0#64 (BitVec.allOnes 64), .query [lbl "b" "2"] 0#64 (BitVec.allOnes 64)]
  | _ => []

theorem agProgs_fine : FineProgs agProgs := by
  constructor
  · intro u ls ps h
    match u with
    | 0 => simp [agProgs] at h
    | 1 => simp [agProgs] at h; obtain ⟨rfl, -⟩ := h; exact wfSet_of (by decide +kernel)
    | 2 => simp [agProgs] at h; obtain ⟨rfl, -⟩ := h; exact wfSet_of (by decide +kernel)
    | 3 => simp [agProgs] at h
    | n + 4 => simp [agProgs] at h
  · intro u lo hi h
    match u with
    | 0 => rfl
    | 1 => simp [agProgs] at h
    | 2 => simp [agProgs] at h
    | 3 => simp [agProgs] at h
    | n + 4 => simp [agProgs] at h

theorem agProgs_single : SingleWriter agProgs := by
  intro ls
  by_cases hl : ls.length = 1
  · refine ⟨1, ?_, incr_pointsFor (by unfold SIncr; decide +kernel) ls⟩
    intro v ls' ps h hp
    match v with
    | 0 => simp [agProgs] at h
    | 1 => rfl
    | 2 => simp [agProgs] at h; obtain ⟨rfl, -⟩ := h; have := hp.length_eq; simp at this; omega
    | 3 => simp [agProgs] at h
    | _ + 4 => simp [agProgs] at h
  · refine ⟨2, ?_, incr_pointsFor (by unfold SIncr; decide +kernel) ls⟩
    intro v ls' ps h hp
    match v with
    | 0 => simp [agProgs] at h
    | 1 => simp [agProgs] at h; obtain ⟨rfl, -⟩ := h; have := hp.length_eq; simp at this; omega
    | 2 => rfl
    | 3 => simp [agProgs] at h
    | _ + 4 => simp [agProgs] at h

attribute [local irreducible] runFine

/-- Thread 1 has written. -/
def agS1 : List Nat := List.replicate 20 1
/-- The first query. -/
def agS2 : List Nat := List.replicate 9 3
/-- The second query gets the chunk's lock before the first insert of `{a=1, b=2}` does, and goes on when the series' id is there, but not yet its points. -/
def agS3 : List Nat := [2, 3, 3, 3] ++ List.replicate 12 2 ++ List.replicate 8 3
/-- The second insert ends; the third query. -/
def agS4 : List Nat := List.replicate 20 2 ++ List.replicate 9 3
/-- The swap; the fourth query. -/
def agS5 : List Nat := List.replicate 3 0 ++ List.replicate 14 3
def agRun (s : List Nat) : FConf := runFine stdKit idealHash 0#64 1000#64 agProgs s

/-- C91 is violated for threads: the first query of thread 3 reports two points of `{a=1}`; its second, the same query called after the first has returned, is answered
by nothing, because another thread is making the series `{a=1, b=2}`. -/
theorem C91_violated :
    ((agRun (agS1 ++ agS2 ++ agS3)).threads 3).done = [.answered [lbl "a" "1"] 0#64 3000#64 (.ok [([lbl "a" "1"], [⟨10#64, 5#64⟩, ⟨20#64, 6#64⟩])]),
      .answered [lbl "a" "1"] 0#64 3000#64 (.ok [])] := by decide +kernel

/-- The hypotheses of C91_partial_own_labels and C91_partial_threads hold: the third and the fourth query, with a swap between them. -/
example : ∃ r', ((agRun (agS1 ++ agS2 ++ agS3 ++ agS4 ++ agS5)).threads 3).done[3]? = some (.answered [lbl "b" "2"] 0#64 (BitVec.allOnes 64) (.ok r')) ∧
    ∃ v', ([lbl "a" "1", lbl "b" "2"], v') ∈ r' ∧ ⟨15#64, 8#64⟩ ∈ v' := by
  obtain ⟨o, ho⟩ : ∃ o, ((agRun (agS1 ++ agS2 ++ agS3 ++ agS4 ++ agS5)).threads 3).done[3]? = some o := Option.isSome_iff_exists.mp (by decide +kernel)
  have l1 : ((agRun (agS1 ++ agS2 ++ agS3)).threads 3).done.length = 2 := by rw [C91_violated]; rfl
  have l2 : ((agRun (agS1 ++ agS2 ++ agS3 ++ agS4)).threads 3).done.length = 3 := by decide +kernel
  have e : ((agRun (agS1 ++ agS2 ++ agS3 ++ agS4)).threads 3).done[2]? =
    some (.answered [lbl "b" "2"] 0#64 (BitVec.allOnes 64) (.ok [([lbl "a" "1", lbl "b" "2"], [⟨15#64, 8#64⟩])])) := by decide +kernel
  have hwf : ∀ l ∈ [lbl "b" "2"], WFLabel l := by intro l hl; rw [List.mem_singleton.mp hl]; exact wfLabel_of (by decide +kernel)
  obtain ⟨r', h1, h2⟩ := C91_partial_own_labels stdKit idealHash 0#64 1000#64 agProgs agProgs_fine agProgs_single (idealHash_good _) (agS1 ++ agS2 ++ agS3) agS4 agS5
    (by decide +kernel) 3 [lbl "b" "2"] (by simp) hwf 0#64 (BitVec.allOnes 64) (by simp) [.query [lbl "b" "2"] 0#64 (BitVec.allOnes 64)]
    (Option.isNone_iff_eq_none.mp (by decide +kernel)) (by decide +kernel) _
    (by show ((agRun (agS1 ++ agS2 ++ agS3 ++ agS4)).threads 3).done[((agRun (agS1 ++ agS2 ++ agS3)).threads 3).done.length]? = _; rw [l1]; exact e)
    [lbl "a" "1", lbl "b" "2"] [⟨15#64, 8#64⟩] (by simp) ⟨15#64, 8#64⟩ (by simp) 3 [lbl "b" "2"] (by simp) (by simp)
    (by
      intro u ls ps h hl
      match u with
      | 0 => simp [agProgs] at h
      | 1 => simp [agProgs] at h; obtain ⟨rfl, -⟩ := h; exact absurd hl (by decide +kernel)
      | 2 => simp [agProgs] at h; obtain ⟨rfl, -⟩ := h; decide +kernel
      | 3 => simp [agProgs] at h
      | _ + 4 => simp [agProgs] at h)
    [] (Option.isNone_iff_eq_none.mp (by decide +kernel)) (by decide +kernel) o
    (by show ((agRun (agS1 ++ agS2 ++ agS3 ++ agS4 ++ agS5)).threads 3).done[((agRun (agS1 ++ agS2 ++ agS3 ++ agS4)).threads 3).done.length]? = _; rw [l2]; exact ho)
  exact ⟨r', by rw [ho, h1], h2⟩

/-- The hypotheses of C91_partial_served hold: the second request's answer reports the sample of the first, and so does that of the fourth, sent after a swap. -/
example : ∃ body out', (scRun (scS2 ++ scS3)).sent[3]? = some (some ⟨200, body⟩) ∧ exSnappy.decompress body = some out' ∧ (out'.length < 2 ^ 32 →
    ∃ rs' r', (∀ m, IsResponse exRt.utf8 m out' ↔ m = rs') ∧ rs'[1]? = some r' ∧
      ∃ y' ∈ r', y'.labels = [lbl "a" "1", lbl "b" "2"] ∧ (⟨0x3ff0000000000000#64, 200⟩ : Sample) ∈ y'.samples) := by
  have hq1 : ∀ q ∈ [scAsk], (∀ y ∈ q.matchers, WFLabel ⟨y.name, y.value⟩) ∧ (asU64 q.start_).toNat ≤ (asU64 q.end_).toNat := by
    intro q hq
    rw [List.mem_singleton.mp hq]; exact scAsk_fine
  have hq : ∀ q ∈ [scAsk] ++ [scAsk, scAsk], (∀ y ∈ q.matchers, WFLabel ⟨y.name, y.value⟩) ∧ (asU64 q.start_).toNat ≤ (asU64 q.end_).toNat := by
    intro q hq
    simp only [List.mem_append, List.mem_cons, List.not_mem_nil, or_false, or_self] at hq
    subst hq; exact scAsk_fine
  have hcov : ∀ m, Call.write m ∈ scCalls → ∀ s ∈ m, ∀ x ∈ s.samples, x.point.ts.toNat ≤ (asU64 scAsk.end_).toNat := by
    intro m hm
    simp only [scCalls, List.mem_cons, Call.write.injEq, reduceCtorEq, List.not_mem_nil, or_false, false_or] at hm
    rcases hm with rfl | rfl | rfl <;> decide +kernel
  obtain ⟨out, o1, o2⟩ := C85_durable stdKit idealHash exSnappy exRt ⟨[114#8], [119#8]⟩ (by decide) 0#64 1000#64 scTicks scReqs scCalls scReqs_say scCalls_fine
    (idealHash_good _) [] scS2 scS3 (by decide +kernel) (scRun []) (scRun scS2) (scRun (scS2 ++ scS3)) rfl rfl rfl 0 1 (by decide) [scSer] rfl (by decide +kernel)
    (by decide +kernel) (by decide +kernel) (by decide +kernel) scSer (by simp) ⟨0x3ff0000000000000#64, 200⟩ (by simp [scSer])
    (by
      have e1 : ((scRun scS2).db.threads 0).done.length = 0 := by decide +kernel
      intro n w _ hn hw
      rw [e1] at hn
      have : n = 0 := by omega
      subst this
      simp only [List.getElem?_cons_zero, Option.some.injEq] at hw
      subst hw
      decide +kernel)
    [scAsk] rfl _ sc_twice hq1 0 (by decide) (by simp [scAsk]) (by decide +kernel) rfl hcov
  have hl : out.length < 2 ^ 32 := by
    obtain ⟨o, ho, hl⟩ : ∃ o, exSnappy.decompress ((pbFormats exSnappy exRt).respond
      [[⟨[lbl "a" "1", lbl "b" "2"], [⟨0x3ff0000000000000#64, 200⟩, ⟨0x3ff0000000000000#64, 200⟩]⟩]]) = some o ∧ o.length < 2 ^ 32 := ⟨_, rfl, by decide +kernel⟩
    rw [o1, Option.some.injEq] at ho
    rw [ho]; exact hl
  obtain ⟨rs, r, u1, u2, y, u3, u4, u5⟩ := o2 hl
  have e1 : sortLabels scSer.labels = [lbl "a" "1", lbl "b" "2"] := by decide +kernel
  have e2 : asReported (Sample.point ⟨0x3ff0000000000000#64, 200⟩) = ⟨0x3ff0000000000000#64, 200⟩ := by decide +kernel
  rw [e1] at u4
  rw [e2] at u5
  obtain ⟨out', q1, q2⟩ := C91_partial_served stdKit idealHash exSnappy exRt ⟨[114#8], [119#8]⟩ (by decide) 0#64 1000#64 scTicks scReqs scCalls scReqs_say scCalls_fine
    (idealHash_good _) (scS2 ++ scS3) (by decide +kernel) _ rfl 1 3 (by decide) [scAsk] [scAsk, scAsk] rfl rfl _ _ sc_twice sc_exact hq out o1 hl rs ((u1 rs).mpr rfl)
    r (List.mem_of_getElem? u2) y u3 _ u5 1 (by decide) (by simp [scAsk]) (by rw [u4]; decide +kernel) rfl hcov
  rw [u4] at q2
  exact ⟨_, out', sc_exact, q1, q2⟩

end Verif
