import Verif.Lemmas.DbFineState
import Verif.Props.DbConc
/-! Property C82: the database used by any number of threads, which may be interrupted between any two store operations. -/
namespace Verif
open List

/-- The database after a schedule, started on an empty directory with a first window `[lo, hi]`. -/
def runFine (B : Kit) (H : Hash) (lo hi : U64) (progs : Nat → List DbOp) (sched : List Nat) : FConf := (FConf.start lo hi progs).run B H sched

theorem runFine_inv (B : Kit) (H : Hash) (lo hi : U64) {progs : Nat → List DbOp} (hf : FineProgs progs) (sched : List Nat)
    (hb : sched.length < 2 ^ 64 - 1) : FInv [] B progs sched.length (runFine B H lo hi progs sched) := by
  have := FInv.run (H := H) hf sched (n := 0) (by omega) (FInv.start B progs lo hi)
  rwa [Nat.zero_add] at this

theorem runFine_append (B : Kit) (H : Hash) (lo hi : U64) (progs : Nat → List DbOp) (s1 s2 : List Nat) :
    runFine B H lo hi progs (s1 ++ s2) = (runFine B H lo hi progs s1).run B H s2 := by
  unfold runFine FConf.run; rw [List.foldl_append]

/-- The query when the schedule `s2` has run after `s1`. -/
theorem fquery_state (B : Kit) (H : Hash) (lo hi : U64) {progs : Nat → List DbOp} (hf : FineProgs progs) (hs : SingleWriter progs)
    (hH : H.Good (Written progs)) (s1 s2 : List Nat) (hb : (s1 ++ s2).length < 2 ^ 64 - 1)
    {t : Nat} {q : Labels} (hq0 : q ≠ []) (hq : ∀ l ∈ q, WFLabel l) {a b : U64} (hab : a.toNat ≤ b.toNat) {rest : List DbOp}
    (hidle : ((runFine B H lo hi progs s1).threads t).now = none)
    (hnext : ((runFine B H lo hi progs s1).threads t).todo = .query q a b :: rest)
    {o : Out} (ho : ((runFine B H lo hi progs (s1 ++ s2)).threads t).done[((runFine B H lo hi progs s1).threads t).done.length]? = some o) :
    ∃ r, o = .answered q a b (.ok r) ∧ (r.map (·.1)).Nodup ∧ (∀ e ∈ r, ∀ p ∈ e.2, FromDone (runFine B H lo hi progs (s1 ++ s2)) a b e.1 p) ∧
      ∀ i ≤ (runFine B H lo hi progs s1).current, FCovered (runFine B H lo hi progs s1) (runFine B H lo hi progs (s1 ++ s2)) q a b (fun k p => ∃ v, (k, v) ∈ r ∧ p ∈ v) i := by
  rw [List.length_append] at hb
  have h1 := runFine_inv B H lo hi hf s1 (by omega)
  have hst := (fqstate_run (c1 := runFine B H lo hi progs s1) hf hs hH hq0 hq hab s2 (n := s1.length) (by omega) h1 (FGrow.refl _) (.idle rest rfl hidle hnext)).1
  rw [← runFine_append] at hst
  rcases hst with ⟨_, a1, -, -⟩ | ⟨a1, -⟩ | ⟨_, a1, -⟩ | ⟨_, _, a1, -⟩ | ⟨_, _, _, a1, -⟩ | ⟨_, _, _, _, _, a1, -⟩ | ⟨r, a1, a2, a3, a4⟩
  iterate 6 (· rw [List.getElem?_eq_none (by rw [a1])] at ho; cases ho)
  rw [a1] at ho
  cases ho
  exact ⟨r, rfl, a2, a3, a4⟩

/-- Any number of threads writing batches, querying, and one swapping chunks, under every schedule of single store operations.
After `s1` some thread's batch `ps` for labels `ls` has returned, having gone to a chunk with window `[wlo, whi]`. Then a query that starts
later (its thread is idle after `s1`, and has the answer after `s2`) for labels of that series over a range covering the window is answered,
and the answer has every point of the batch strictly inside the window; unless meanwhile an insert into that chunk began that makes a new
series with one of the labels asked for. -/
theorem C82_visible (B : Kit) (H : Hash) (lo hi : U64) (progs : Nat → List DbOp) (hf : FineProgs progs) (hs : SingleWriter progs)
    (hH : H.Good (Written progs)) (s1 s2 : List Nat) (hb : (s1 ++ s2).length < 2 ^ 64 - 1)
    (u : Nat) (ls : Labels) (ps : List TimePoint) (wr : Res Unit) (wlo whi : U64)
    (hw : Out.wrote ls ps wr wlo whi ∈ ((runFine B H lo hi progs s1).threads u).done)
    (t : Nat) (q : Labels) (hq0 : q ≠ []) (hq : ∀ l ∈ q, l ∈ ls) (a b : U64) (ha : a.toNat ≤ wlo.toNat) (hb' : whi.toNat ≤ b.toNat)
    (hab : a.toNat ≤ b.toNat) (rest : List DbOp)
    (hidle : ((runFine B H lo hi progs s1).threads t).now = none)
    (hnext : ((runFine B H lo hi progs s1).threads t).todo = .query q a b :: rest)
    (o : Out) (ho : ((runFine B H lo hi progs (s1 ++ s2)).threads t).done[((runFine B H lo hi progs s1).threads t).done.length]? = some o) :
    ∃ r, o = .answered q a b (.ok r) ∧
      ((∃ (i : Nat) (S1 S : FChunk), (runFine B H lo hi progs s1).chunks[i]? = some S1 ∧ (runFine B H lo hi progs (s1 ++ s2)).chunks[i]? = some S ∧
          S1.store.start_ = wlo ∧ S1.store.end_ = whi ∧ (∀ p ∈ ps, inside wlo whi p = true → (ls, p) ∈ S1.settled) ∧ NewSeries wlo whi S1.started S.started q) ∨
        ∀ p ∈ ps, wlo.toNat < p.ts.toNat → p.ts.toNat < whi.toNat → ∃ v, (sortLabels ls, v) ∈ r ∧ p ∈ v) := by
  have h1 := runFine_inv B H lo hi hf s1 (by rw [List.length_append] at hb; omega)
  obtain ⟨hop, -, i, hle, hwin, hall⟩ := (h1.thr u).done ls ps wr wlo whi hw
  have hqw : ∀ l ∈ q, WFLabel l := fun l hl => (hf.wf u ls ps hop).wf l (hq l hl)
  obtain ⟨r, hr, -, -, hcov⟩ := fquery_state B H lo hi hf hs hH s1 s2 hb hq0 hqw hab hidle hnext ho
  refine ⟨r, hr, ?_⟩
  rcases hi : (runFine B H lo hi progs s1).chunks[i]? with _ | S1
  · simp [fWin, hi] at hwin
  · simp only [fWin, hi, Option.map_some, Option.some.injEq, Prod.mk.injEq] at hwin
    obtain ⟨rfl, rfl⟩ := hwin
    have hset : ∀ p ∈ ps, inside S1.store.start_ S1.store.end_ p = true → (ls, p) ∈ S1.settled := by
      intro p hp hin
      have hfin := hall p (List.mem_filter.mpr ⟨hp, inside_keep hin⟩)
      simp only [fFin, hi, Option.map_some, Option.getD_some] at hfin
      unfold Sys.settled
      exact List.mem_append_left _ hfin
    rcases hcov i hle S1 hi with ⟨S, hS, hn⟩ | hh
    · exact Or.inl ⟨i, S1, S, hi, hS, rfl, rfl, hset, hn⟩
    · right
      intro p hp hlo hhi
      have hin' : inside S1.store.start_ S1.store.end_ p = true := by simp only [inside, Bool.and_eq_true, decide_eq_true_eq]; exact ⟨hlo, hhi⟩
      exact hh (ls, p) (hset p hp hin') hin' hq ha hb'

/-- The same runs: a query never panics, lists no label set twice, and every point it reports lies in the asked range and comes from a complete
insert of a write call of some thread for that label set. -/
theorem C82_nothing_invented (B : Kit) (H : Hash) (lo hi : U64) (progs : Nat → List DbOp) (hf : FineProgs progs)
    (hs : SingleWriter progs) (hH : H.Good (Written progs)) (s1 s2 : List Nat) (hb : (s1 ++ s2).length < 2 ^ 64 - 1)
    (t : Nat) (q : Labels) (hq0 : q ≠ []) (hq : ∀ l ∈ q, WFLabel l) (a b : U64) (hab : a.toNat ≤ b.toNat) (rest : List DbOp)
    (hidle : ((runFine B H lo hi progs s1).threads t).now = none)
    (hnext : ((runFine B H lo hi progs s1).threads t).todo = .query q a b :: rest)
    (o : Out) (ho : ((runFine B H lo hi progs (s1 ++ s2)).threads t).done[((runFine B H lo hi progs s1).threads t).done.length]? = some o) :
    ∃ r, o = .answered q a b (.ok r) ∧ (r.map (·.1)).Nodup ∧ ∀ e ∈ r, ∀ p ∈ e.2, (a.toNat ≤ p.ts.toNat ∧ p.ts.toNat ≤ b.toNat) ∧
      ∃ u ls ps, DbOp.write ls ps ∈ progs u ∧ p ∈ ps ∧ sortLabels ls = e.1 ∧
        ∃ (i : Nat) (S : FChunk), (runFine B H lo hi progs (s1 ++ s2)).chunks[i]? = some S ∧ (ls, p) ∈ S.settled ∧
          S.store.start_.toNat < p.ts.toNat ∧ p.ts.toNat < S.store.end_.toNat := by
  have h2 := runFine_inv B H lo hi hf (s1 ++ s2) hb
  obtain ⟨r, hr, hn, hfrom, -⟩ := fquery_state B H lo hi hf hs hH s1 s2 hb hq0 hq hab hidle hnext ho
  refine ⟨r, hr, hn, ?_⟩
  intro e he p hp
  obtain ⟨hrng, i, S, hS, w, hw, rfl, hk, hin⟩ := hfrom e he p hp
  obtain ⟨ev, hev, -, e1, e2⟩ := settled_log h2 hS hw
  obtain ⟨ps, hps, hpp⟩ := h2.own ev hev
  simp only [inside, Bool.and_eq_true, decide_eq_true_eq] at hin
  exact ⟨hrng, ev.thread, ev.labels, ps, hps, by rw [← e2]; exact hpp, by rw [e1]; exact hk, i, S, hS, by rw [e1]; exact hw, hin.1, hin.2⟩

/-- The result of a write. -/
theorem FInv.wrote {F : List SChunk} {B : Kit} {progs : Nat → List DbOp} {n : Nat} {c : FConf} (h1 : FInv F B progs n c) {u : Nat} {ls : Labels} {ps : List TimePoint} {wr : Res Unit}
    {wlo whi : U64} (hw : Out.wrote ls ps wr wlo whi ∈ (c.threads u).done) :
    DbOp.write ls ps ∈ progs u ∧
    (wr = .ok () ∨ wr = .err .internal) ∧
    (wr = .err .internal ↔ ∃ p ∈ ps, p.ts ≠ 0#64 ∧ wlo.toNat ≤ p.ts.toNat ∧ p.ts.toNat ≤ whi.toNat ∧ (p.ts = wlo ∨ p.ts = whi)) := by
  obtain ⟨hop, hres, i, -, hwin, hall⟩ := (h1.thr u).done ls ps wr wlo whi hw
  have hiff : edges wlo whi (ps.filter (keepPoint wlo whi)) = 0 ↔
      ¬ ∃ p ∈ ps, p.ts ≠ 0#64 ∧ wlo.toNat ≤ p.ts.toNat ∧ p.ts.toNat ≤ whi.toNat ∧ (p.ts = wlo ∨ p.ts = whi) := by
    unfold edges
    rw [List.length_eq_zero_iff, List.filter_eq_nil_iff]
    constructor
    · rintro h ⟨p, hp, h0, h2, h3, h4⟩
      have := h p (List.mem_filter.mpr ⟨hp, by simp [keepPoint, h2, h3, h0]⟩)
      simp only [inside, Bool.not_eq_true', Bool.not_eq_false, Bool.and_eq_true, decide_eq_true_eq] at this
      rcases h4 with e | e <;> rw [e] at this <;> omega
    · intro h p hp hin
      obtain ⟨hp1, hp2⟩ := List.mem_filter.mp hp
      simp only [keepPoint, Bool.and_eq_true, decide_eq_true_eq] at hp2
      simp only [inside, Bool.not_eq_true', Bool.and_eq_false_iff, decide_eq_false_iff_not] at hin
      refine h ⟨p, hp1, ?_, hp2.1.1, hp2.1.2, ?_⟩
      · simpa using hp2.2
      · rcases hin with hin | hin
        · left; apply BitVec.eq_of_toNat_eq; omega
        · right; apply BitVec.eq_of_toNat_eq; omega
  refine ⟨hop, ?_, ?_⟩
  · rw [hres]; split <;> simp
  · rw [hres]
    by_cases h0 : edges wlo whi (ps.filter (keepPoint wlo whi)) = 0
    · rw [if_pos h0]
      have := hiff.mp h0
      simp only [reduceCtorEq, false_iff]; exact this
    · rw [if_neg h0]
      simp only [true_iff]
      by_contra hc
      exact h0 (hiff.mpr hc)

/-- The same runs: the result of a batch. It is stored, but for its points on or outside the edges of the window of the chunk, or at time 0; and
`InternalError` says that there were points on the edges (other than at time 0). -/
theorem C82_writes (B : Kit) (H : Hash) (lo hi : U64) (progs : Nat → List DbOp) (hf : FineProgs progs) (sched : List Nat)
    (hb : sched.length < 2 ^ 64 - 1) (u : Nat) (ls : Labels) (ps : List TimePoint) (wr : Res Unit) (wlo whi : U64)
    (hw : Out.wrote ls ps wr wlo whi ∈ ((runFine B H lo hi progs sched).threads u).done) :
    DbOp.write ls ps ∈ progs u ∧
    (wr = .ok () ∨ wr = .err .internal) ∧
    (wr = .err .internal ↔ ∃ p ∈ ps, p.ts ≠ 0#64 ∧ wlo.toNat ≤ p.ts.toNat ∧ p.ts.toNat ≤ whi.toNat ∧ (p.ts = wlo ∨ p.ts = whi)) ∧
    ∃ (i : Nat) (S : FChunk), (runFine B H lo hi progs sched).chunks[i]? = some S ∧ S.store.start_ = wlo ∧ S.store.end_ = whi ∧
      ∀ p ∈ ps, wlo.toNat < p.ts.toNat → p.ts.toNat < whi.toNat → (ls, p) ∈ S.settled := by
  have h1 := runFine_inv B H lo hi hf sched hb
  obtain ⟨hop, hres, i, -, hwin, hall⟩ := (h1.thr u).done ls ps wr wlo whi hw
  refine ⟨hop, (h1.wrote hw).2.1, (h1.wrote hw).2.2, ?_⟩
  · rcases hi : (runFine B H lo hi progs sched).chunks[i]? with _ | S
    · simp [fWin, hi] at hwin
    · simp only [fWin, hi, Option.map_some, Option.some.injEq, Prod.mk.injEq] at hwin
      refine ⟨i, S, hi, hwin.1, hwin.2, ?_⟩
      intro p hp h2 h3
      have hin : inside wlo whi p = true := by simp only [inside, Bool.and_eq_true, decide_eq_true_eq]; exact ⟨h2, h3⟩
      have hfin := hall p (List.mem_filter.mpr ⟨hp, inside_keep hin⟩)
      simp only [fFin, hi, Option.map_some, Option.getD_some] at hfin
      unfold Sys.settled
      exact List.mem_append_left _ hfin

/-! ### An execution -/

/-- The first batch of thread 1 is done; then the query of thread 3 is overtaken by the first insert of `{a=1, b=2}`, the second batch of thread 1
and the swap. -/
def fnS1 : List Nat := List.replicate 20 1
def fnS2 : List Nat := (List.replicate 60 [3, 2, 0, 1]).flatten

attribute [local irreducible] runFine

theorem fn_wrote : Out.wrote [lbl "a" "1"] [⟨10#64, 5#64⟩, ⟨20#64, 6#64⟩] (.ok ()) 0#64 1000#64 ∈
    ((runFine stdKit idealHash 0#64 1000#64 exProgs fnS1).threads 1).done := by decide +kernel

/-- The answer: the batch, the new series, and (the chunk having been moved to the older ones meanwhile, C43) points twice. -/
theorem fn_answer : ((runFine stdKit idealHash 0#64 1000#64 exProgs (fnS1 ++ fnS2)).threads 3).done =
    [.answered [lbl "a" "1"] 0#64 3000#64 (.ok [([lbl "a" "1"], [⟨10#64, 5#64⟩, ⟨20#64, 6#64⟩, ⟨10#64, 5#64⟩, ⟨20#64, 6#64⟩]),
      ([lbl "a" "1", lbl "b" "2"], [⟨15#64, 8#64⟩])])] := by decide +kernel

/-- The hypotheses of the theorems hold. -/
example : ∃ o r, ((runFine stdKit idealHash 0#64 1000#64 exProgs (fnS1 ++ fnS2)).threads 3).done[0]? = some o ∧
    o = .answered [lbl "a" "1"] 0#64 3000#64 (.ok r) ∧ (r.map (·.1)).Nodup := by
  have ho : ((runFine stdKit idealHash 0#64 1000#64 exProgs (fnS1 ++ fnS2)).threads 3).done[0]? =
    some (.answered [lbl "a" "1"] 0#64 3000#64 (.ok [([lbl "a" "1"], [⟨10#64, 5#64⟩, ⟨20#64, 6#64⟩, ⟨10#64, 5#64⟩, ⟨20#64, 6#64⟩]),
      ([lbl "a" "1", lbl "b" "2"], [⟨15#64, 8#64⟩])])) := by rw [fn_answer]; rfl
  have h0 : ((runFine stdKit idealHash 0#64 1000#64 exProgs fnS1).threads 3).done.length = 0 := by decide +kernel
  have hn : ((runFine stdKit idealHash 0#64 1000#64 exProgs fnS1).threads 3).now = none := by
    rw [← Option.isNone_iff_eq_none]; decide +kernel
  have ht : ((runFine stdKit idealHash 0#64 1000#64 exProgs fnS1).threads 3).todo = [.query [lbl "a" "1"] 0#64 3000#64] := by decide +kernel
  have hwf : ∀ l ∈ [lbl "a" "1"], WFLabel l := by intro l hl; rw [List.mem_singleton.mp hl]; exact wfLabel_of (by decide +kernel)
  obtain ⟨r, h1, h2, -⟩ := C82_nothing_invented stdKit idealHash 0#64 1000#64 exProgs exProgs_fine exProgs_single (idealHash_good _) fnS1 fnS2
    (by decide +kernel) 3 [lbl "a" "1"] (by simp) hwf 0#64 3000#64 (by decide) [] hn ht _ (by rw [h0]; exact ho)
  have := C82_visible stdKit idealHash 0#64 1000#64 exProgs exProgs_fine exProgs_single (idealHash_good _) fnS1 fnS2
    (by decide +kernel) 1 _ _ _ _ _ fn_wrote 3 [lbl "a" "1"] (by simp) (by simp) 0#64 3000#64 (by decide) (by decide) (by decide) [] hn ht _ (by rw [h0]; exact ho)
  have := C82_writes stdKit idealHash 0#64 1000#64 exProgs exProgs_fine fnS1 (by decide +kernel) 1 _ _ _ _ _ fn_wrote
  exact ⟨_, r, ho, h1, h2⟩

/-- The same calls on chunks whose components are TiKV clients in dry-run mode, and on chunks with a sled storage and a TiKV indexer. -/
example : ((runFine tikvKit idealHash 0#64 1000#64 exProgs (fnS1 ++ fnS2)).threads 3).done =
      [.answered [lbl "a" "1"] 0#64 3000#64 (.ok [([lbl "a" "1"], [⟨10#64, 5#64⟩, ⟨20#64, 6#64⟩, ⟨10#64, 5#64⟩, ⟨20#64, 6#64⟩]),
        ([lbl "a" "1", lbl "b" "2"], [⟨15#64, 8#64⟩])])] ∧
    ((runFine mixedKit idealHash 0#64 1000#64 exProgs (fnS1 ++ fnS2)).threads 3).done =
      ((runFine tikvKit idealHash 0#64 1000#64 exProgs (fnS1 ++ fnS2)).threads 3).done := by
  constructor <;> decide +kernel

/-- The exception is real: the same calls under another schedule. The query for `{a=1}` starts after the batch for `{a=1}` has returned, gets the
chunk's lock before the first insert of `{a=1, b=2}` does, finds that series' id but not yet its points, and is answered with nothing. -/
theorem C66_violated_fine :
    let fnS3 := [2, 3, 3, 3] ++ List.replicate 12 2 ++ List.replicate 12 3
    Out.wrote [lbl "a" "1"] [⟨10#64, 5#64⟩, ⟨20#64, 6#64⟩] (.ok ()) 0#64 1000#64 ∈ ((runFine stdKit idealHash 0#64 1000#64 exProgs fnS1).threads 1).done ∧
    ((runFine stdKit idealHash 0#64 1000#64 exProgs fnS1).threads 3).now.isNone = true ∧
    ((runFine stdKit idealHash 0#64 1000#64 exProgs fnS1).threads 3).todo = [.query [lbl "a" "1"] 0#64 3000#64] ∧
    ((runFine stdKit idealHash 0#64 1000#64 exProgs (fnS1 ++ fnS3)).threads 3).done = [.answered [lbl "a" "1"] 0#64 3000#64 (.ok [])] := by
  refine ⟨fn_wrote, by decide +kernel, by decide +kernel, by decide +kernel⟩

end Verif
