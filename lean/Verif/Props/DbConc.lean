import Verif.Lemmas.DbConcQuery
import Verif.Props.ChunkConc
import Verif.Props.Db
/-! Property C66: acknowledged writes are visible to every later query, whatever other threads and chunk swaps do. -/
namespace Verif
open List

/-- The database after a schedule, started on an empty directory with a first window `[lo, hi]`. -/
def runDb (B : BinSearch) (H : Hash) (lo hi : U64) (progs : Nat → List DbOp) (sched : List Nat) : Conf SledStores :=
  (Conf.start ⟨KV.empty, KV.empty⟩ lo hi progs).run (sledComp B) H ⟨KV.empty, KV.empty⟩ sched

theorem runDb_inv (B : BinSearch) (H : Hash) (lo hi : U64) {progs : Nat → List DbOp} (hf : FineProgs progs) (sched : List Nat)
    (hb : sched.length < 2 ^ 64 - 1) : DInv B progs sched.length (runDb B H lo hi progs sched) := by
  have := DInv.run (H := H) hf sched (n := 0) (by omega) (DInv.start B progs lo hi)
  rwa [Nat.zero_add] at this

theorem qstate_run {B : BinSearch} {H : Hash} {progs : Nat → List DbOp} (hf : FineProgs progs) (hs : SingleWriter progs)
    (hH : H.Good (Written progs)) {c1 : Conf SledStores} {q : Labels} (hq0 : q ≠ []) (hq : ∀ l ∈ q, WFLabel l) {a b : U64}
    (hab : a.toNat ≤ b.toNat) {k0 t : Nat} (sched : List Nat) : ∀ {n : Nat} {c : Conf SledStores}, n + sched.length < 2 ^ 64 - 1 → DInv B progs n c →
      Grow c1 c → QState progs c1 q a b k0 c (c.threads t) →
      QState progs c1 q a b k0 (c.run (sledComp B) H ⟨KV.empty, KV.empty⟩ sched) ((c.run (sledComp B) H ⟨KV.empty, KV.empty⟩ sched).threads t) := by
  induction sched with
  | nil => intro n c _ _ _ h; exact h
  | cons x xs ih =>
    intro n c hb hi hg h
    rw [List.length_cons] at hb
    exact ih (n := n + 1) (by omega) (hi.step hf (by omega) x (H := H)) (hg.trans (step_grow hf (by omega) hi x))
      (qstate_step hf hs hH (by omega) hi hg hq0 hq hab h x)

/-- The state of the query when the schedule `s2` has run after `s1`. -/
theorem query_state (B : BinSearch) (H : Hash) (lo hi : U64) {progs : Nat → List DbOp} (hf : FineProgs progs) (hs : SingleWriter progs)
    (hH : H.Good (Written progs)) (s1 s2 : List Nat) (hb : (s1 ++ s2).length < 2 ^ 64 - 1)
    {t : Nat} {q : Labels} (hq0 : q ≠ []) (hq : ∀ l ∈ q, WFLabel l) {a b : U64} (hab : a.toNat ≤ b.toNat) {rest : List DbOp}
    (hidle : ((runDb B H lo hi progs s1).threads t).now = none)
    (hnext : ((runDb B H lo hi progs s1).threads t).todo = .query q a b :: rest) :
    QState progs (runDb B H lo hi progs s1) q a b ((runDb B H lo hi progs s1).threads t).done.length
      (runDb B H lo hi progs (s1 ++ s2)) ((runDb B H lo hi progs (s1 ++ s2)).threads t) := by
  rw [List.length_append] at hb
  have h1 := runDb_inv B H lo hi hf s1 (by omega)
  have e : runDb B H lo hi progs (s1 ++ s2) = (runDb B H lo hi progs s1).run (sledComp B) H ⟨KV.empty, KV.empty⟩ s2 := by
    unfold runDb Conf.run; rw [List.foldl_append]
  rw [e]
  exact qstate_run hf hs hH hq0 hq hab s2 (n := s1.length) (by omega) h1 (Grow.refl _) (.idle rest rfl hidle hnext)

/-- Any number of threads writing batches, querying, and one swapping chunks, under every schedule (chunk calls being atomic).
After schedule `s1` some thread's batch `ps` for labels `ls` has returned, and it went to the chunk with window `[wlo, whi]`.
Then a query that starts later (idle thread in `s1`, answered within `s2`) for labels of that series over a range covering the
window is answered without panic and reports the series with every point of the batch strictly inside the window. -/
theorem C66_visible_partial (B : BinSearch) (H : Hash) (lo hi : U64) (progs : Nat → List DbOp) (hf : FineProgs progs) (hs : SingleWriter progs)
    (hH : H.Good (Written progs)) (s1 s2 : List Nat) (hb : (s1 ++ s2).length < 2 ^ 64 - 1)
    (u : Nat) (ls : Labels) (ps : List TimePoint) (wr : Res Unit) (wlo whi : U64)
    (hw : Out.wrote ls ps wr wlo whi ∈ ((runDb B H lo hi progs s1).threads u).done)
    (t : Nat) (q : Labels) (hq0 : q ≠ []) (hq : ∀ l ∈ q, l ∈ ls) (a b : U64) (ha : a.toNat ≤ wlo.toNat) (hb' : whi.toNat ≤ b.toNat)
    (hab : a.toNat ≤ b.toNat) (rest : List DbOp)
    (hidle : ((runDb B H lo hi progs s1).threads t).now = none)
    (hnext : ((runDb B H lo hi progs s1).threads t).todo = .query q a b :: rest)
    (o : Out) (ho : ((runDb B H lo hi progs (s1 ++ s2)).threads t).done[((runDb B H lo hi progs s1).threads t).done.length]? = some o)
    (p : TimePoint) (hp : p ∈ ps) (hin : wlo.toNat < p.ts.toNat ∧ p.ts.toNat < whi.toNat) :
    ∃ r, o = .answered q a b (.ok r) ∧ ∃ v, (sortLabels ls, v) ∈ r ∧ p ∈ v := by
  have h1 := runDb_inv B H lo hi hf s1 (by rw [List.length_append] at hb; omega)
  obtain ⟨hnp, hop, i, hle, hwin, hall⟩ := (h1.thr u).done ls ps wr wlo whi hw
  have hqw : ∀ l ∈ q, WFLabel l := fun l hl => (hf.wf u ls ps hop).wf l (hq l hl)
  have hin' : inside wlo whi p = true := by simp only [inside, Bool.and_eq_true, decide_eq_true_eq]; exact hin
  have hst := query_state B H lo hi hf hs hH s1 s2 hb hq0 hqw hab hidle hnext
  rcases hst with ⟨rest, a1, -, -⟩ | ⟨a1, -⟩ | ⟨m, f, a1, -⟩ | ⟨ids, m, f, a1, -⟩ | ⟨r, a1, -, -, a4⟩
  · rw [List.getElem?_eq_none (by rw [a1])] at ho; cases ho
  · rw [List.getElem?_eq_none (by rw [a1])] at ho; cases ho
  · rw [List.getElem?_eq_none (by rw [a1])] at ho; cases ho
  · rw [List.getElem?_eq_none (by rw [a1])] at ho; cases ho
  · rw [a1] at ho
    cases ho
    exact ⟨r, rfl, a4 i hle (sortLabels ls) p ⟨⟨u, i, ls, p⟩, hall p hp hin', rfl, rfl, rfl, hq, (wlo, whi), hwin, ha, hb'⟩⟩

/-- The same runs: a query never panics, lists no label set twice, and every point it reports lies in the asked range and was
accepted before the answer from a write call some thread makes for that label set. -/
theorem C66_nothing_invented_partial (B : BinSearch) (H : Hash) (lo hi : U64) (progs : Nat → List DbOp) (hf : FineProgs progs)
    (hs : SingleWriter progs) (hH : H.Good (Written progs)) (s1 s2 : List Nat) (hb : (s1 ++ s2).length < 2 ^ 64 - 1)
    (t : Nat) (q : Labels) (hq0 : q ≠ []) (hq : ∀ l ∈ q, WFLabel l) (a b : U64) (hab : a.toNat ≤ b.toNat) (rest : List DbOp)
    (hidle : ((runDb B H lo hi progs s1).threads t).now = none)
    (hnext : ((runDb B H lo hi progs s1).threads t).todo = .query q a b :: rest)
    (o : Out) (ho : ((runDb B H lo hi progs (s1 ++ s2)).threads t).done[((runDb B H lo hi progs s1).threads t).done.length]? = some o) :
    ∃ r, o = .answered q a b (.ok r) ∧ (r.map (·.1)).Nodup ∧ ∀ e ∈ r, ∀ p ∈ e.2, (a.toNat ≤ p.ts.toNat ∧ p.ts.toNat ≤ b.toNat) ∧
      ∃ u ls ps, DbOp.write ls ps ∈ progs u ∧ p ∈ ps ∧ sortLabels ls = e.1 ∧
        (⟨u, ls, p⟩ : Nat × Labels × TimePoint) ∈ (runDb B H lo hi progs (s1 ++ s2)).log.map fun x => (x.thread, x.labels, x.point) := by
  have h2 := runDb_inv B H lo hi hf (s1 ++ s2) hb
  have hst := query_state B H lo hi hf hs hH s1 s2 hb hq0 hq hab hidle hnext
  rcases hst with ⟨rest, a1, -, -⟩ | ⟨a1, -⟩ | ⟨m, f, a1, -⟩ | ⟨ids, m, f, a1, -⟩ | ⟨r, a1, a2, a3, -⟩
  · rw [List.getElem?_eq_none (by rw [a1])] at ho; cases ho
  · rw [List.getElem?_eq_none (by rw [a1])] at ho; cases ho
  · rw [List.getElem?_eq_none (by rw [a1])] at ho; cases ho
  · rw [List.getElem?_eq_none (by rw [a1])] at ho; cases ho
  · rw [a1] at ho
    cases ho
    refine ⟨r, rfl, a2, ?_⟩
    intro e he p hp
    obtain ⟨hr, ev, hev, e1, e2⟩ := a3 e he p hp
    obtain ⟨ps, hps, hpp⟩ := h2.own ev hev
    refine ⟨hr, ev.thread, ev.labels, ps, hps, by rw [← e1]; exact hpp, e2, ?_⟩
    exact List.mem_map.mpr ⟨ev, hev, by rw [e1]⟩

/-- Example: thread 0 swaps, threads 1 and 2 write, thread 3 queries. -/
def exProgs : Nat → List DbOp
  | 0 => [.swap 1001#64 2001#64]
  | 1 => [.write [lbl "a" "1"] [⟨10#64, 5#64⟩, ⟨20#64, 6#64⟩], .write [lbl "a" "1"] [⟨1500#64, 7#64⟩]]
  | 2 => [.write [lbl "a" "1", lbl "b" "2"] [⟨15#64, 8#64⟩]]
  | 3 => [.query [lbl "a" "1"] 0#64 3000#64]
  | _ => []

theorem exProgs_fine : FineProgs exProgs := by
  constructor
  · intro u ls ps h
    match u with
    | 0 => simp [exProgs] at h
    | 1 => simp [exProgs] at h; rcases h with ⟨rfl, -⟩ | ⟨rfl, -⟩ <;> exact wfSet_of (by decide +kernel)
    | 2 => simp [exProgs] at h; obtain ⟨rfl, -⟩ := h; exact wfSet_of (by decide +kernel)
    | 3 => simp [exProgs] at h
    | _ + 4 => simp [exProgs] at h
  · intro u lo hi h
    match u with
    | 0 => rfl
    | 1 => simp [exProgs] at h
    | 2 => simp [exProgs] at h
    | 3 => simp [exProgs] at h
    | _ + 4 => simp [exProgs] at h

theorem exProgs_single : SingleWriter exProgs := by
  intro ls
  by_cases hl : ls.length = 1
  · refine ⟨1, ?_, incr_pointsFor (by unfold SIncr; decide +kernel) ls⟩
    intro v ls' ps h hp
    match v with
    | 0 => simp [exProgs] at h
    | 1 => rfl
    | 2 => simp [exProgs] at h; obtain ⟨rfl, -⟩ := h; have := hp.length_eq; simp at this; omega
    | 3 => simp [exProgs] at h
    | _ + 4 => simp [exProgs] at h
  · refine ⟨2, ?_, incr_pointsFor (by unfold SIncr; decide +kernel) ls⟩
    intro v ls' ps h hp
    match v with
    | 0 => simp [exProgs] at h
    | 1 => simp [exProgs] at h; rcases h with ⟨rfl, -⟩ | ⟨rfl, -⟩ <;> (have := hp.length_eq; simp at this; omega)
    | 2 => rfl
    | 3 => simp [exProgs] at h
    | _ + 4 => simp [exProgs] at h

/-- The first batch is done; the second batch, the other writer and the swap run during the query. -/
def exS1 : List Nat := [1, 2, 1, 1, 1]
def exS2 : List Nat := [3, 0, 3, 2, 1, 0, 2, 0, 3, 1, 1, 1, 3, 3, 0, 3, 3, 3]

example : ∃ o, ((runDb stdBinSearch idealHash 0#64 1000#64 exProgs (exS1 ++ exS2)).threads 3).done[0]? = some o ∧
    ∃ r, o = .answered [lbl "a" "1"] 0#64 3000#64 (.ok r) ∧ ∃ v, ([lbl "a" "1"], v) ∈ r ∧ ⟨20#64, 6#64⟩ ∈ v := by
  obtain ⟨o, ho⟩ : ∃ o, ((runDb stdBinSearch idealHash 0#64 1000#64 exProgs (exS1 ++ exS2)).threads 3).done[0]? = some o :=
    Option.isSome_iff_exists.mp (by decide +kernel)
  refine ⟨o, ho, C66_visible_partial stdBinSearch idealHash 0#64 1000#64 exProgs exProgs_fine exProgs_single (idealHash_good _) exS1 exS2 (by decide)
    1 [lbl "a" "1"] [⟨10#64, 5#64⟩, ⟨20#64, 6#64⟩] (.ok ()) 0#64 1000#64 ?_ 3 [lbl "a" "1"] (by simp) (by simp) 0#64 3000#64 (by decide) (by decide) (by decide)
    [] (by rfl) (by rfl) o ho ⟨20#64, 6#64⟩ (by simp) (by decide)⟩
  decide +kernel

/-! ### Why only partial -/

/-- C66 is violated when the calls inside a chunk interleave (C33): the current chunk holds the acknowledged point 10 of
`{a=1}`; a query for `a=1` over a range covering the whole window, running while another thread inserts the first point of
`{a=1,b=2}`, gets `NotFound` from the chunk, and the database answers with nothing, silently. -/
theorem C66_violated (H : Hash) :
    let C := sledComp stdBinSearch
    let c0 := ((newSled 0#64 1000#64).insert C [lbl "a" "1"] ⟨10#64, 5#64⟩).2
    ((newSled 0#64 1000#64).insert C [lbl "a" "1"] ⟨10#64, 5#64⟩).1 = .ok () ∧
    c0.query C [lbl "a" "1"] 0#64 2000#64 = .ok [⟨1#64, [lbl "a" "1"], [⟨10#64, 5#64⟩]⟩] ∧
    ∃ sched r, (interleave sched (queryProc stdBinSearch [lbl "a" "1"] 0#64 2000#64) (insertProc ([lbl "a" "1", lbl "b" "2"], ⟨20#64, 6#64⟩)) c0).1.result = some r ∧
      dbQuery H ⟨fun _ _ _ => r, c0.isWithRange⟩ [] [lbl "a" "1"] 0#64 2000#64 = .ok [] := by
  intro C c0
  refine ⟨by decide +kernel, by decide +kernel, [false, true, true, true, true, true, true, true, true, true, true, false, false, false, false, false, false], .err .notFound, by decide +kernel, ?_⟩
  have : H.order [] = [] := List.Perm.eq_nil (H.perm [])
  simp [dbQuery, queryCurrent, querySecondary, this, collectKeys, Res.ofPanic]

end Verif
