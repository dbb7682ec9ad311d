import Verif.Lemmas.ChunkCrash
import Verif.Props.Chunk
/-! Properties C32, C33, C35 and C36: sled chunks under concurrency and crashes. -/
namespace Verif
open List

/-! ### C32 -/

theorem insertAll_snoc (B : BinSearch) (c : SChunk) (h : Inserts) (w : Labels × TimePoint) :
    c.insertAll (sledComp B) (h ++ [w]) = ((c.insertAll (sledComp B) h).insert (sledComp B) w.1 w.2).2 := by
  unfold Chunk.insertAll; rw [List.foldl_append]; rfl

/-- A log of inserts in which every result and the final chunk are those of the sequential execution in log order. -/
def SequentialLog (C : Comp SledStores) (c0 : SChunk) (log : List (Nat × (Labels × TimePoint) × Res Unit)) (c : SChunk) : Prop :=
  c = c0.insertAll C (log.map (·.2.1)) ∧
  ∀ k t w r, log[k]? = some (t, w, r) → r = ((c0.insertAll C ((log.take k).map (·.2.1))).insert C w.1 w.2).1

section generic
variable {C : Comp SledStores} {ins : Labels × TimePoint → Proc SChunk (Res Unit)} (hrun : ∀ w c, (ins w).run c = c.insert C w.1 w.2)
include hrun

theorem seqRun_log (c0 : SChunk) (ops : List (Nat × (Labels × TimePoint))) :
    SequentialLog C c0 (seqRun ins c0 ops).1 (seqRun ins c0 ops).2 ∧ orderOf (seqRun ins c0 ops).1 = ops := by
  induction ops using List.reverseRecOn with
  | nil => exact ⟨⟨rfl, by intro k t w r e; simp [seqRun] at e⟩, rfl⟩
  | append_singleton ops o ih =>
    obtain ⟨⟨ih1, ih2⟩, ih3⟩ := ih
    rw [seqRun_append]
    refine ⟨⟨?_, ?_⟩, ?_⟩
    · simp only [List.map_append, List.map_cons, List.map_nil]
      have e : c0.insertAll C ((seqRun ins c0 ops).1.map (·.2.1) ++ [o.2]) = ((c0.insertAll C ((seqRun ins c0 ops).1.map (·.2.1))).insert C o.2.1 o.2.2).2 := by
        unfold Chunk.insertAll; rw [List.foldl_append]; rfl
      rw [e, ← ih1, hrun]
    · intro k t w r e
      simp only [] at e
      by_cases hk : k < (seqRun ins c0 ops).1.length
      · rw [List.getElem?_append_left hk] at e
        rw [ih2 k t w r e, List.take_append_of_le_length (by omega)]
      · rw [List.getElem?_append_right (by omega)] at e
        have hk0 : k - (seqRun ins c0 ops).1.length = 0 := by
          by_contra h0
          rw [List.getElem?_eq_none (by simp; omega)] at e
          cases e
        rw [hk0] at e
        simp only [List.getElem?_cons_zero, Option.some.injEq, Prod.mk.injEq] at e
        obtain ⟨rfl, rfl, rfl⟩ := e
        have hk1 : k = (seqRun ins c0 ops).1.length := by omega
        rw [hk1, List.take_left, hrun, ← ih1]
    · simp only [orderOf, List.map_append, List.map_cons, List.map_nil]
      have := ih3
      unfold orderOf at this
      rw [this]

/-- Every schedule of any number of threads that insert into one chunk, at every moment when no thread is inside an insert:
the chunk and all results are those of a sequential execution of the inserts finished so far, each thread's in its program
order. -/
theorem serial_of (c0 : SChunk) (todo : Nat → Inserts) (sched : List Nat)
    (hq : ((Sys.init c0 todo).exec ins sched).lock = none) :
    SequentialLog C c0 ((Sys.init c0 todo).exec ins sched).finished ((Sys.init c0 todo).exec ins sched).store ∧
    ∀ t, (((Sys.init c0 todo).exec ins sched).finished.filter fun x => decide (x.1 = t)).map (·.2.1) ++
      ((Sys.init c0 todo).exec ins sched).todo t = todo t := by
  have hL := linear_exec (ins) c0 todo sched
  generalize hS : (Sys.init c0 todo).exec ins sched = S at *
  have hst := hL.store
  rw [hq] at hst
  have hlog := (seqRun_log hrun c0 (orderOf S.finished)).1
  rw [hL.results, ← hst] at hlog
  refine ⟨hlog, ?_⟩
  intro t
  have := hL.order t
  simpa [Sys.current, hq, opsOf] using this

/-- At every other moment exactly one thread is inside an insert, and the chunk is the sequential result of the finished
inserts with a prefix of that insert's elementary operations applied. -/
theorem inside_of (c0 : SChunk) (todo : Nat → Inserts) (sched : List Nat) (t : Nat) (w : Labels × TimePoint)
    (pr : Proc SChunk (Res Unit)) (hq : ((Sys.init c0 todo).exec ins sched).lock = some (t, w, pr)) :
    (∃ n, ((Sys.init c0 todo).exec ins sched).store =
      (ins w).upTo n (c0.insertAll C (((Sys.init c0 todo).exec ins sched).finished.map (·.2.1)))) ∧
    ∀ u, (((Sys.init c0 todo).exec ins sched).finished.filter fun x => decide (x.1 = u)).map (·.2.1) ++
      (if t = u then [w] else []) ++ ((Sys.init c0 todo).exec ins sched).todo u = todo u := by
  have hL := linear_exec (ins) c0 todo sched
  generalize hS : (Sys.init c0 todo).exec ins sched = S at *
  obtain ⟨n, hn, -⟩ := hL.partial_ t w pr hq
  have hlog := (seqRun_log hrun c0 (orderOf S.finished)).1
  rw [hL.results] at hlog
  refine ⟨⟨n, ?_⟩, ?_⟩
  · rw [← hlog.1, hn]
  · intro u
    have := hL.order u
    simpa [Sys.current, hq, opsOf] using this

end generic

/-- Every schedule of any number of threads that insert into one chunk, at every moment when no thread is inside an insert:
the chunk and all results are those of a sequential execution of the inserts finished so far, each thread's in its program
order. -/
theorem C32_serial (B : BinSearch) (c0 : SChunk) (todo : Nat → Inserts) (sched : List Nat)
    (hq : ((Sys.init c0 todo).exec insertProc sched).lock = none) :
    SequentialLog (sledComp B) c0 ((Sys.init c0 todo).exec insertProc sched).finished ((Sys.init c0 todo).exec insertProc sched).store ∧
    ∀ t, (((Sys.init c0 todo).exec insertProc sched).finished.filter fun x => decide (x.1 = t)).map (·.2.1) ++
      ((Sys.init c0 todo).exec insertProc sched).todo t = todo t :=
  serial_of (insertProc_run B) c0 todo sched hq

/-- At every other moment exactly one thread is inside an insert, and the chunk is the sequential result of the finished
inserts with a prefix of that insert's elementary operations applied. -/
theorem C32_inside (B : BinSearch) (c0 : SChunk) (todo : Nat → Inserts) (sched : List Nat) (t : Nat) (w : Labels × TimePoint)
    (pr : Proc SChunk (Res Unit)) (hq : ((Sys.init c0 todo).exec insertProc sched).lock = some (t, w, pr)) :
    (∃ n, ((Sys.init c0 todo).exec insertProc sched).store =
      (insertProc w).upTo n (c0.insertAll (sledComp B) (((Sys.init c0 todo).exec insertProc sched).finished.map (·.2.1)))) ∧
    ∀ u, (((Sys.init c0 todo).exec insertProc sched).finished.filter fun x => decide (x.1 = u)).map (·.2.1) ++
      (if t = u then [w] else []) ++ ((Sys.init c0 todo).exec insertProc sched).todo u = todo u :=
  inside_of (insertProc_run B) c0 todo sched t w pr hq

/-- No deadlock: from every reachable state of finitely many threads all programs can be run to completion, and every
completed execution is sequential. -/
theorem completes_of (ins : Labels × TimePoint → Proc SChunk (Res Unit)) (todo : Nat → Inserts) (N : Nat) (hN : ∀ t, N ≤ t → todo t = []) (c0 : SChunk) (sched : List Nat) :
    ∃ more, ((Sys.init c0 todo).exec ins (sched ++ more)).lock = none ∧
      ∀ t, ((Sys.init c0 todo).exec ins (sched ++ more)).todo t = [] := by
  -- invariant: threads from N on have nothing to do
  have hex : ∀ (S : Sys SChunk (Labels × TimePoint) (Res Unit)) (a b : List Nat), S.exec ins (a ++ b) =
      (S.exec ins a).exec ins b := by intro S a b; unfold Sys.exec; rw [List.foldl_append]
  have hN' : ∀ t, N ≤ t → ((Sys.init c0 todo).exec ins sched).todo t = [] := by
    intro t ht
    have := (linear_exec ins c0 todo sched).order t
    rw [hN t ht] at this
    exact (List.append_eq_nil_iff.mp this).2
  have hdone : ∀ (pr : Proc SChunk (Res Unit)) (S : Sys SChunk (Labels × TimePoint) (Res Unit)) (t : Nat) (w : Labels × TimePoint),
      S.lock = some (t, w, pr) → ∃ more, (S.exec ins more).lock = none ∧ (S.exec ins more).todo = S.todo := by
    intro pr
    induction pr with
    | ret a =>
      intro S t w hl
      refine ⟨[t], ?_, ?_⟩ <;> simp [Sys.exec, Sys.step, hl]
    | act u k ih =>
      intro S t w hl
      obtain ⟨more, h1, h2⟩ := ih S.store { S with store := u S.store, lock := some (t, w, k S.store) } t w rfl
      have e : S.step ins t = { S with store := u S.store, lock := some (t, w, k S.store) } := by
        simp [Sys.step, hl]
      refine ⟨t :: more, ?_, ?_⟩
      · show ((S.step ins t).exec ins more).lock = none
        rw [e]; exact h1
      · show ((S.step ins t).exec ins more).todo = S.todo
        rw [e]; exact h2
  have hmain : ∀ (n : Nat) (S : Sys SChunk (Labels × TimePoint) (Res Unit)), S.lock = none → (∀ t, N ≤ t → S.todo t = []) →
      ((List.range N).map fun t => (S.todo t).length).sum = n →
      ∃ more, (S.exec ins more).lock = none ∧ ∀ t, (S.exec ins more).todo t = [] := by
    intro n
    induction n using Nat.strongRecOn with
    | ind n ih =>
      intro S hl hN hs
      by_cases hall : ∀ t, S.todo t = []
      · exact ⟨[], hl, hall⟩
      · rw [not_forall] at hall
        obtain ⟨t, ht⟩ := hall
        rcases hw : S.todo t with _ | ⟨w, ws⟩
        · exact absurd hw ht
        · have e : S.step ins t = { S with todo := fun u => if u = t then ws else S.todo u, lock := some (t, w, ins w) } := by
            simp [Sys.step, hl, hw]
          obtain ⟨m1, h1, h2⟩ := hdone _ (S.step ins t) t w (by rw [e])
          have htN : t < N := by
            by_contra h; exact ht (hN t (by omega))
          have htodo : ((S.step ins t).exec ins m1).todo = fun u => if u = t then ws else S.todo u := by rw [h2, e]
          have hlt : ((List.range N).map fun u => (((S.step ins t).exec ins m1).todo u).length).sum < n := by
            rw [← hs, htodo]
            clear hs ih e h1 h2 htodo hN m1
            revert htN
            clear * - hw
            induction N with
            | zero => intro h; omega
            | succ N ihN =>
              intro htN
              rw [List.range_succ, List.map_append, List.map_append, List.sum_append, List.sum_append]
              simp only [List.map_cons, List.map_nil, List.sum_cons, List.sum_nil, Nat.add_zero]
              by_cases hNt : N = t
              · subst hNt
                have : ((List.range N).map fun u => (if u = N then ws else S.todo u).length) = (List.range N).map fun u => (S.todo u).length := by
                  apply List.map_congr_left
                  intro u hu
                  have : u ≠ N := by have := List.mem_range.mp hu; omega
                  rw [if_neg this]
                rw [this, if_pos rfl, hw]
                simp only [List.length_cons]; omega
              · rw [if_neg hNt]
                have := ihN (by omega)
                exact Nat.add_lt_add_right this _
          obtain ⟨m2, h3, h4⟩ := ih _ hlt ((S.step ins t).exec ins m1) h1 (by
            intro u hu; rw [htodo]; simp only []
            rw [if_neg (by omega)]; exact hN u hu) rfl
          refine ⟨t :: (m1 ++ m2), ?_, ?_⟩
          · show ((S.step ins t).exec ins (m1 ++ m2)).lock = none
            rw [hex]; exact h3
          · show ∀ u, ((S.step ins t).exec ins (m1 ++ m2)).todo u = []
            rw [hex]; exact h4
  rcases hl : ((Sys.init c0 todo).exec ins sched).lock with _ | ⟨t, w, pr⟩
  · obtain ⟨m, h1, h2⟩ := hmain _ _ hl hN' rfl
    exact ⟨m, by rw [hex]; exact h1, by rw [hex]; exact h2⟩
  · obtain ⟨m0, h1, h2⟩ := hdone pr _ t w hl
    obtain ⟨m, h3, h4⟩ := hmain _ _ h1 (by rw [h2]; exact hN') rfl
    exact ⟨m0 ++ m, by rw [hex, hex]; exact h3, by rw [hex, hex]; exact h4⟩

/-- No deadlock: from every reachable state of finitely many threads all programs can be run to completion, and every
completed execution is sequential. -/
theorem C32_completes (todo : Nat → Inserts) (N : Nat) (hN : ∀ t, N ≤ t → todo t = []) (c0 : SChunk) (sched : List Nat) :
    ∃ more, ((Sys.init c0 todo).exec insertProc (sched ++ more)).lock = none ∧
      ∀ t, ((Sys.init c0 todo).exec insertProc (sched ++ more)).todo t = [] :=
  completes_of insertProc todo N hN c0 sched

/-- Example: two threads, interleaved requests for the lock; thread 1 wins. -/
def exTodo : Nat → Inserts := fun t => if t = 0 then [([lbl "a" "1"], ⟨10#64, 5#64⟩)] else if t = 1 then [([lbl "a" "1"], ⟨20#64, 6#64⟩)] else []
/-- Thread 1 goes first, thread 0 keeps trying. -/
def exSched : List Nat := [1, 0, 1, 1, 0, 1, 1, 0, 1, 1, 1, 1, 1, 1, 1, 1, 0, 0, 0, 0, 0, 0, 0]
example : (((Sys.init (newSled 0#64 1000#64) exTodo).exec insertProc exSched).finished.map fun x => (x.1, x.2.2)) = [(1, .ok ()), (0, .ok ())] ∧
    ((Sys.init (newSled 0#64 1000#64) exTodo).exec insertProc exSched).lock.isNone = true := by
  decide +kernel

/-! ### Crash states -/

theorem exists_id {h : Inserts} {ls : Labels} (hex : ∃ w ∈ h, w.1.Perm ls) : ∃ i, specByLabels (numbered h) ls = some i := by
  obtain ⟨w, hw, hp⟩ := hex
  obtain ⟨x, hx, hxp⟩ := labelSets_complete hw
  unfold specByLabels
  rw [← number_fst (labelSets h)] at hx
  obtain ⟨y, hy, rfl⟩ := List.mem_map.mp hx
  rcases hf : (numbered h).find? (fun s => decide (s.1.Perm ls)) with _ | s
  · rw [List.find?_eq_none] at hf
    exact absurd (by simpa using hxp.trans hp) (hf y hy)
  · exact ⟨s.2, by simp [hf]⟩

theorem insert_outside_upTo {c : SChunk} {w : Labels × TimePoint} (hok : c.poisoned = false) (hr : c.isInRange w.2.ts = false) (n : Nat) :
    (insertProc w).upTo n c = c := by
  match n with
  | 0 => rfl
  | n + 1 =>
    simp only [insertProc, Proc.get, Proc.upTo, id, hok, hr, Bool.false_eq_true, if_false]
    cases n <;> rfl

theorem CrashState.refl (c c' : SChunk) : CrashState c c' c := ⟨rfl, rfl, rfl, Or.inl rfl, fun _ => Or.inl rfl⟩

/-- Every crash point of an insert on a chunk that represents a history. -/
theorem insert_crash (B : BinSearch) {lo hi : U64} {h : Inserts} {c : SChunk} (hc : ChunkRep (sledRefines B) lo hi h c)
    {ls : Labels} (hls : WFSet ls) (p : TimePoint) (n : Nat) :
    CrashState c (c.insert (sledComp B) ls p).2 ((insertProc (ls, p)).upTo n c) := by
  by_cases hin : inside lo hi p = true
  · rcases hs : specByLabels (numbered h) ls with _ | i
    · exact (insert_new B hc hls hin hs).2 n
    · obtain ⟨h1, h2⟩ := insert_existing B hc hls hin hs
      rcases h2 n with e | e
      · rw [e]; exact .refl _ _
      · rw [e, h1]; exact ⟨rfl, rfl, rfl, Or.inr rfl, fun _ => Or.inr rfl⟩
  · have hr : c.isInRange p.ts = false := by
      rw [inside_iff hc.start_ hc.end_]; simpa using hin
    rw [insert_outside_upTo hc.ok hr]
    exact .refl _ _

/-- A chunk on the stores left by a crash, reopened with some window (as `Chunk::new` does; reopened chunks are closed, which
queries do not look at). -/
def reopened (s : SledStores) (lo hi : U64) : SChunk := { Chunk.new s lo hi with closed := true }

theorem CrashState.reopened {c c' m : SChunk} (h : CrashState c c' m) (lo hi : U64) :
    CrashState (reopened c.store lo hi) (reopened c'.store lo hi) (reopened m.store lo hi) :=
  ⟨rfl, rfl, rfl, h.ser, h.idx⟩

/-- The next insert after a well-formed history. -/
structure Next (h : Inserts) (w : Labels × TimePoint) : Prop where
  fine : Fine (h ++ [w])

theorem Fine.prefix {h g : Inserts} (hf : Fine (h ++ g)) : Fine h :=
  ⟨fun w hw => hf.wf w (by simp [hw]), by have := hf.len; simp only [List.length_append] at this; omega⟩

theorem pointsFor_prefix {h g : Inserts} {ls : Labels} (hi : SIncr (pointsFor (h ++ g) ls)) : SIncr (pointsFor h ls) := by
  unfold pointsFor at *
  rw [List.filter_append, List.map_append] at hi
  exact (List.pairwise_append.mp hi).1

/-- Both ends of an insert. -/
theorem insert_reps (B : BinSearch) (lo hi : U64) {h : Inserts} {w : Labels × TimePoint} (hf : Fine (h ++ [w])) :
    ChunkRep (sledRefines B) lo hi (insideOnly lo hi h) ((newSled lo hi).insertAll (sledComp B) h) ∧
    ChunkRep (sledRefines B) lo hi (insideOnly lo hi (h ++ [w])) ((newSled lo hi).insertAll (sledComp B) (h ++ [w])) ∧
    ∀ n, CrashState ((newSled lo hi).insertAll (sledComp B) h) ((newSled lo hi).insertAll (sledComp B) (h ++ [w]))
      ((insertProc w).upTo n ((newSled lo hi).insertAll (sledComp B) h)) := by
  have hr := sled_rep B lo hi hf.prefix
  refine ⟨hr, sled_rep B lo hi hf, ?_⟩
  intro n
  rw [insertAll_snoc]
  exact insert_crash B hr (hf.wf w (by simp)) w.2 n

theorem insideOnly_sub (lo hi : U64) (h : Inserts) (w : Labels × TimePoint) {x : Labels × U64} (hx : x ∈ numbered (insideOnly lo hi h)) :
    x ∈ numbered (insideOnly lo hi (h ++ [w])) := by
  rw [insideOnly_append]
  split
  · exact numbered_sub _ _ hx
  · exact hx

theorem insideOnly_wf {lo hi : U64} {h : Inserts} (hf : Fine h) : ∀ w ∈ insideOnly lo hi h, WFSet w.1 :=
  fun w hw => hf.wf w (List.mem_of_mem_filter hw)

theorem insideOnly_len {lo hi : U64} {h : Inserts} (hf : Fine h) : (insideOnly lo hi h).length < 2 ^ 64 - 1 := by
  have := insideOnly_length lo hi h; have := hf.len; omega

theorem incr_before {lo hi : U64} {h : Inserts} {w : Labels × TimePoint} (hi' : ∀ ls, SIncr (pointsFor (insideOnly lo hi (h ++ [w])) ls)) (ls : Labels) :
    SIncr (pointsFor (insideOnly lo hi h) ls) := by
  have := hi' ls
  rw [insideOnly_append] at this
  split at this
  · exact pointsFor_prefix this
  · exact this

/-! ### C33 -/

/-- The result of a finished process. -/
def Proc.result {σ α : Type} : Proc σ α → Option α
  | .ret a => some a
  | .act _ _ => none

/-- A query that has taken (and released) its lock runs next to an insert that creates a series: it fails with `NotFound`,
although it finds nothing before the insert and the new point after it. -/
theorem C33_violated (B : BinSearch) :
    ∃ sched, (interleave sched (queryProc B [lbl "a" "1"] 5#64 150#64) (insertProc ([lbl "a" "1"], ⟨10#64, 5#64⟩)) (newSled 0#64 1000#64)).1.result
      = some (.err .notFound) ∧
    (newSled 0#64 1000#64).query (sledComp B) [lbl "a" "1"] 5#64 150#64 = .ok [] ∧
    ((newSled 0#64 1000#64).insert (sledComp B) [lbl "a" "1"] ⟨10#64, 5#64⟩).2.query (sledComp B) [lbl "a" "1"] 5#64 150#64 =
      .ok [⟨1#64, [lbl "a" "1"], [⟨10#64, 5#64⟩]⟩] := by
  have hf : Fine ([] ++ [([lbl "a" "1"], (⟨10#64, 5#64⟩ : TimePoint))]) := by
    refine ⟨?_, by decide⟩
    intro w hw
    simp only [List.nil_append, List.mem_singleton] at hw
    subst hw
    exact wfSet_of (by decide +kernel)
  refine ⟨[false, true, true, true, true, true, true, true, true, false, false, false, false], rfl, ?_, ?_⟩
  · have := C30_sled_query B 0#64 1000#64 [] hf.prefix (fun ls => Pairwise.nil) [lbl "a" "1"] exQ_wf 5#64 150#64 (by decide)
    exact this.trans (by decide +kernel)
  · have := C30_sled_query B 0#64 1000#64 ([] ++ [([lbl "a" "1"], (⟨10#64, 5#64⟩ : TimePoint))]) hf (fun ls => incr_pointsFor (by unfold SIncr; decide +kernel) ls) [lbl "a" "1"] exQ_wf 5#64 150#64 (by decide)
    exact this.trans (by decide +kernel)

/-- The insert into an existing series changes the store in one elementary operation. -/
theorem insert_oneWrite (B : BinSearch) {lo hi : U64} {h : Inserts} {c : SChunk} (hc : ChunkRep (sledRefines B) lo hi h c)
    {w : Labels × TimePoint} (hls : WFSet w.1) (hin : inside lo hi w.2 = true) {i : U64} (hi' : specByLabels (numbered h) w.1 = some i) :
    (c.insert (sledComp B) w.1 w.2).2 = c.withSer (sledWrite c.store.ser i w.2).2 ∧
    OneWrite c (c.withSer (sledWrite c.store.ser i w.2).2) (insertProc w) := by
  have hb := (sledRefines B).byLabels hc.rep hls
  rw [hi'] at hb
  simp only [sledComp] at hb
  have hr : c.isInRange w.2.ts = true := by rw [inside_iff hc.start_ hc.end_]; exact hin
  refine ⟨(insert_existing B hc hls hin hi').1, ?_⟩
  unfold insertProc Proc.get
  refine .stay rfl ?_
  simp only [hc.ok, hr, Bool.false_eq_true, if_false, if_true]
  refine .stay rfl ?_
  rw [hb]
  simp only [writeProc, Proc.get, Proc.put]
  refine .stay rfl (.go ?_ (.ret _))
  unfold sledWrite
  rcases c.store.ser (sledKey i) with _ | v <;> rfl

theorem insert_still {c : SChunk} {w : Labels × TimePoint} (hok : c.poisoned = false) (hr : c.isInRange w.2.ts = false) : Still c (insertProc w) := by
  unfold insertProc Proc.get
  refine .act rfl ?_
  simp only [hok, hr, Bool.false_eq_true, if_false]
  exact .ret _

theorem specMetadata_nodup {c : Created} (hids : c.Pairwise fun s t => s.2.toNat < t.2.toNat) (q : Labels) :
    ((specMetadata c q).map (·.1)).Nodup := by
  unfold specMetadata
  split
  · exact List.nodup_nil
  · rw [List.map_map]
    have : ((c.filter fun s => (knownLabels c q).all fun l => decide (l ∈ s.1)).map fun s => s.2).Pairwise fun x y : U64 => x.toNat < y.toNat := by
      rw [List.pairwise_map]; exact hids.sublist List.filter_sublist
    exact this.imp (fun h e => by rw [e] at h; omega)

/-- Every interleaving of a query with an insert into a series that already exists, or outside the window: the query returns
the result before or the result after the insert. -/
theorem C33_existing_partial (B : BinSearch) (lo hi : U64) (h : Inserts) (w : Labels × TimePoint) (hf : Fine (h ++ [w]))
    (hex : inside lo hi w.2 = true → ∃ v ∈ h, inside lo hi v.2 = true ∧ v.1.Perm w.1)
    (q : Labels) (hq : ∀ l ∈ q, WFLabel l) (a b : U64) (sched : List Bool) (r : Res (List Series))
    (hr : (interleave sched (queryProc B q a b) (insertProc w) ((newSled lo hi).insertAll (sledComp B) h)).1 = .ret r) :
    r = ((newSled lo hi).insertAll (sledComp B) h).query (sledComp B) q a b ∨
    r = ((newSled lo hi).insertAll (sledComp B) (h ++ [w])).query (sledComp B) q a b := by
  obtain ⟨hc, hc', -⟩ := insert_reps B lo hi hf
  have hro := queryProc_readOnly B q a b
  by_cases hin : inside lo hi w.2 = true
  · obtain ⟨v, hv, hvi, hvp⟩ := hex hin
    obtain ⟨i, hi'⟩ := exists_id (h := insideOnly lo hi h) ⟨v, List.mem_filter.mpr ⟨hv, hvi⟩, hvp⟩
    obtain ⟨e, how⟩ := insert_oneWrite B hc (hf.wf w (by simp)) hin hi'
    obtain ⟨n, hn⟩ := oneWrite_result hro how sched hr
    have hat : Atomic ((newSled lo hi).insertAll (sledComp B) h) (SChunk.withSer ((newSled lo hi).insertAll (sledComp B) h)
        (sledWrite ((newSled lo hi).insertAll (sledComp B) h).store.ser i w.2).2) (queryProc B q a b) := by
      refine queryProc_atomic B (i := i) rfl rfl rfl ?_ ?_
      · intro j hj
        have : ∀ kv : KV, ((sledWrite kv i w.2).2) (sledKey j) = kv (sledKey j) := by
          intro kv
          unfold sledWrite
          rcases kv (sledKey i) with _ | v <;> exact KV.set_other _ _ (fun e => hj (sledKey_inj e))
        have e2 : ∀ kv kv' : KV, kv (sledKey j) = kv' (sledKey j) → sledRead B kv j a b = sledRead B kv' j a b := by
          intro kv kv' e; unfold sledRead; rw [e]
        exact e2 _ _ (this _).symm
      · intro m hm
        have hids := numbered_incr (insideOnly_len (lo := lo) (hi := hi) hf.prefix)
        have h2 := (sledRefines B).metadata hc.rep (numbered_wf (insideOnly_wf hf.prefix)) hids hq
        have h3 : sledMetadata ((newSled lo hi).insertAll (sledComp B) h).store.idx q = .ok (specMetadata (numbered (insideOnly lo hi h)) q) := h2
        rw [h3] at hm
        cases hm
        exact specMetadata_nodup hids q
    have h1 := hat n
    rw [← hn, queryProc_run B q a b _ hc.ok, queryProc_run B q a b _ (by exact hc.ok)] at h1
    rw [insertAll_snoc, e]
    exact h1
  · have hr' : ((newSled lo hi).insertAll (sledComp B) h).isInRange w.2.ts = false := by
      rw [inside_iff hc.start_ hc.end_]; simpa using hin
    left
    rw [still_result hro (insert_still hc.ok hr') sched hr, queryProc_run B q a b _ hc.ok]

example : ∃ sched r, (interleave sched (queryProc stdBinSearch [lbl "b" "2"] 5#64 500#64) (insertProc ([lbl "a" "1", lbl "b" "2"], ⟨300#64, 8#64⟩))
      ((newSled 0#64 1000#64).insertAll (sledComp stdBinSearch) exIns)).1.result = some r ∧
    r = .ok [⟨2#64, [lbl "a" "1", lbl "b" "2"], [⟨100#64, 6#64⟩, ⟨200#64, 7#64⟩, ⟨300#64, 8#64⟩]⟩] :=
  ⟨[false, false, true, true, true, true, true, false, false], _, by decide +kernel, rfl⟩

/-- All reads of a query that shares no label with the insert. -/
theorem disjoint_agree (B : BinSearch) {h : Inserts} {w : Labels × TimePoint} {c c' : SChunk}
    (hc : (sledRefines B).Rep (numbered h) (seriesOf sledAccepts h) c.store)
    (hc' : (sledRefines B).Rep (numbered (h ++ [w])) (seriesOf sledAccepts (h ++ [w])) c'.store)
    (hl : (h ++ [w]).length < 2 ^ 64 - 1) (hwf : ∀ v ∈ h ++ [w], WFSet v.1)
    {q : Labels} (hq : ∀ l ∈ q, WFLabel l) (hd : ∀ l ∈ q, l ∉ w.1) (a b : U64) : Agree (CrashState c c') c (queryProc B q a b) := by
  have hl0 : h.length < 2 ^ 64 - 1 := by simp only [List.length_append, List.length_cons, List.length_nil] at hl; omega
  have hwf0 : ∀ v ∈ h, WFSet v.1 := fun v hv => hwf v (by simp [hv])
  have hi := numbered_incr hl0
  have hi' := numbered_incr hl
  have hsub : ∀ x ∈ numbered h, x ∈ numbered (h ++ [w]) := fun x hx => numbered_sub h w hx
  apply queryProc_agree B (fun m hm => ⟨hm.start_, hm.end_⟩)
  · intro m hm l hlq
    have h1 := hc.1.rev l (hq l hlq)
    have h2 := hc'.1.rev l (hq l hlq)
    have e : idsWith (numbered (h ++ [w])) l = idsWith (numbered h) l := by
      rcases numbered_append h w with e | ⟨e, -⟩
      · rw [e]
      · rw [e]; unfold idsWith; rw [List.filter_append]; simp [hd l hlq]
    rw [e] at h2
    have h3 : m.store.idx (encodeLabel l) = c.store.idx (encodeLabel l) := by
      simp only [sledCodec, List.nil_append] at h1 h2
      rcases hm.idx (encodeLabel l) with e | e
      · exact e
      · rw [e, h2, h1]
    unfold sledGetId
    rw [h3]
  · intro m hm ids hids i hii
    have := sled_contains hc.1 hi hq
    rw [this] at hids
    cases hids
    have hmem : ∃ s ∈ numbered h, s.2 = i := by
      unfold specContains at hii
      split at hii
      · simp at hii
      · obtain ⟨s, hs, e⟩ := List.mem_map.mp hii
        exact ⟨s, (List.mem_filter.mp hs).1, e⟩
    obtain ⟨s, hs, rfl⟩ := hmem
    have h1 := hc.1.byId s.2
    have h2 := hc'.1.byId s.2
    rw [find_by_id hi hs] at h1
    rw [find_by_id hi' (hsub s hs)] at h2
    have h3 : m.store.idx (encodeId s.2) = c.store.idx (encodeId s.2) := by
      simp only [sledCodec, List.nil_append] at h1 h2
      rcases hm.idx (encodeId s.2) with e | e
      · exact e
      · rw [e, h2, h1]
    unfold sledMeta1
    rw [h3]
  · intro m hm cands hcands x hx
    have := sled_metadata hc.1 (numbered_wf hwf0) hi hq
    rw [this] at hcands
    cases hcands
    have hmem : ∃ s ∈ numbered h, s.2 = x.1 ∧ ¬ w.1.Perm s.1 := by
      unfold specMetadata at hx
      split at hx
      · simp at hx
      · rename_i hne
        obtain ⟨s, hs, e⟩ := List.mem_map.mp hx
        obtain ⟨hs1, hs2⟩ := List.mem_filter.mp hs
        refine ⟨s, hs1, by rw [← e], ?_⟩
        intro hp
        obtain ⟨l, hlk⟩ := List.exists_mem_of_ne_nil _ hne
        rw [List.all_eq_true] at hs2
        have := hs2 l hlk
        simp only [decide_eq_true_eq] at this
        exact hd l (List.mem_filter.mp hlk).1 (hp.mem_iff.mpr this)
    obtain ⟨s, hs, e, hnp⟩ := hmem
    have h1 := hc.2 s.2
    have h2 := hc'.2 s.2
    rw [seriesOf_mem hl0 hs] at h1
    rw [seriesOf_mem hl (hsub s hs), pointsFor_append, if_neg hnp] at h2
    have h3 : m.store.ser (sledKey s.2) = c.store.ser (sledKey s.2) := by
      rcases hm.ser with e | e
      · rw [e]
      · rw [e, h1, h2]
    unfold sledRead
    rw [← e, h3]

theorem insert_agree (B : BinSearch) (lo hi : U64) {h : Inserts} {w : Labels × TimePoint} (hf : Fine (h ++ [w]))
    {q : Labels} (hq : ∀ l ∈ q, WFLabel l) (hd : ∀ l ∈ q, l ∉ w.1) (a b : U64) {c c' : SChunk}
    (hs : c.store = ((newSled lo hi).insertAll (sledComp B) h).store)
    (hs' : c'.store = ((newSled lo hi).insertAll (sledComp B) (h ++ [w])).store) : Agree (CrashState c c') c (queryProc B q a b) := by
  obtain ⟨hc, hc', -⟩ := insert_reps B lo hi hf
  by_cases hin : inside lo hi w.2 = true
  · have hrep := hc'.rep
    have hln := insideOnly_len (lo := lo) (hi := hi) hf
    have hwf := insideOnly_wf (lo := lo) (hi := hi) hf
    rw [insideOnly_append, if_pos hin] at hrep hln hwf
    exact disjoint_agree B (by rw [hs]; exact hc.rep) (by rw [hs']; exact hrep) hln hwf hq hd a b
  · have e : (newSled lo hi).insertAll (sledComp B) (h ++ [w]) = (newSled lo hi).insertAll (sledComp B) h := by
      have hr := hc.insert (by have := hf.len; have := insideOnly_length lo hi h; simp only [List.length_append, List.length_cons, List.length_nil] at *; omega) (hf.wf w (by simp)) w.2
      rw [if_neg hin] at hr
      rw [insertAll_snoc, hr]
    have hcc : c'.store = c.store := by rw [hs, hs', e]
    have hm : ∀ m, CrashState c c' m → m.store = c.store := by
      intro m hm
      have h1 : m.store.idx = c.store.idx := by
        funext k
        rcases hm.idx k with e | e
        · exact e
        · rw [e, hcc]
      rcases hm.ser with e | e
      · rcases hs : m.store with ⟨x, y⟩
        rw [hs] at h1 e
        simp only [] at h1 e
        rw [h1, e]
      · rw [e, hcc]
    exact queryProc_agree B (fun m hm => ⟨hm.start_, hm.end_⟩) (fun m h l _ => by rw [hm m h]) (fun m h _ _ i _ => by rw [hm m h])
      (fun m h _ _ x _ => by rw [hm m h])

/-- Every interleaving of a query with an insert none of whose labels the query mentions: the query returns the result before
the insert, which is also the result after it. -/
theorem C33_disjoint_partial (B : BinSearch) (lo hi : U64) (h : Inserts) (w : Labels × TimePoint) (hf : Fine (h ++ [w]))
    (q : Labels) (hq : ∀ l ∈ q, WFLabel l) (hd : ∀ l ∈ q, l ∉ w.1) (a b : U64) (sched : List Bool) (r : Res (List Series))
    (hr : (interleave sched (queryProc B q a b) (insertProc w) ((newSled lo hi).insertAll (sledComp B) h)).1 = .ret r) :
    r = ((newSled lo hi).insertAll (sledComp B) h).query (sledComp B) q a b ∧
    r = ((newSled lo hi).insertAll (sledComp B) (h ++ [w])).query (sledComp B) q a b := by
  obtain ⟨hc, hc', hcr⟩ := insert_reps B lo hi hf
  have hag := insert_agree B lo hi hf hq hd a b rfl rfl
  have h1 := AllOut.result hag hcr hr
  rw [queryProc_run B q a b _ hc.ok] at h1
  refine ⟨h1, ?_⟩
  have h2 := (AllOut.run hag (s := (newSled lo hi).insertAll (sledComp B) (h ++ [w]))
    ⟨by rw [hc.start_, hc'.start_], by rw [hc.end_, hc'.end_], by rw [hc.ok, hc'.ok], Or.inr rfl, fun _ => Or.inr rfl⟩).1
  rw [queryProc_run B q a b _ hc.ok, queryProc_run B q a b _ hc'.ok] at h2
  exact h1.trans h2.symm

/-- Every interleaving of a query with any insert (histories with increasing timestamps per series): the query never panics,
and every series it reports is a series of the history before or after the insert with exactly its points in range; the
series has at least one of the query's labels, and all those that were known before the insert. -/
theorem C33_reports_partial (B : BinSearch) (lo hi : U64) (h : Inserts) (w : Labels × TimePoint) (hf : Fine (h ++ [w]))
    (hincr : ∀ ls, SIncr (pointsFor (insideOnly lo hi (h ++ [w])) ls))
    (q : Labels) (hq : ∀ l ∈ q, WFLabel l) (a b : U64) (hab : a.toNat ≤ b.toNat) (sched : List Bool) (r : Res (List Series))
    (hr : (interleave sched (queryProc B q a b) (insertProc w) ((newSled lo hi).insertAll (sledComp B) h)).1 = .ret r) :
    r ≠ .panic ∧ ∀ ss, r = .ok ss → ∀ x ∈ ss,
      (reportedBy (insideOnly lo hi h) a b x ∨ reportedBy (insideOnly lo hi (h ++ [w])) a b x) ∧ (∃ l ∈ q, l ∈ x.labels) ∧
      ∀ l ∈ knownLabels (numbered (insideOnly lo hi h)) q, l ∈ x.labels := by
  obtain ⟨hc, hc', hcr⟩ := insert_reps B lo hi hf
  exact AllOut.result (queryProc_between B hc.rep hc'.rep (fun x hx => insideOnly_sub lo hi h w hx) (insideOnly_len hf.prefix) (insideOnly_len hf)
    (insideOnly_wf hf.prefix) (insideOnly_wf hf) (incr_before hincr) hincr hq hab) hcr hr

/-- A new series inserted next to the example history. -/
def exNew : Labels × TimePoint := ([lbl "b" "2", lbl "c" "3"], ⟨300#64, 8#64⟩)
theorem exNew_fine : Fine (exIns ++ [exNew]) := by
  refine ⟨?_, by decide⟩
  intro w hw
  rcases List.mem_append.mp hw with hw | hw
  · exact exIns_fine.wf w hw
  · rw [List.mem_singleton] at hw; subst hw; exact wfSet_of (by decide +kernel)
theorem exNew_incr (ls : Labels) : SIncr (pointsFor (insideOnly 0#64 1000#64 (exIns ++ [exNew])) ls) :=
  incr_pointsFor (by unfold SIncr; decide +kernel) ls

example : (interleave [false, false, true, true, true, true, true, true, false, false, false, false] (queryProc stdBinSearch [lbl "a" "1"] 5#64 150#64)
    (insertProc exNew) ((newSled 0#64 1000#64).insertAll (sledComp stdBinSearch) exIns)).1.result =
    some (.ok [⟨1#64, [lbl "a" "1"], [⟨10#64, 5#64⟩]⟩, ⟨2#64, [lbl "a" "1", lbl "b" "2"], [⟨100#64, 6#64⟩]⟩]) ∧
    ∀ l ∈ [lbl "a" "1"], l ∉ exNew.1 := by
  constructor <;> decide +kernel

/-! ### C35 -/

/-- Number of elementary operations of an uninterrupted run. -/
def Proc.steps {σ α : Type} : Proc σ α → σ → Nat
  | .ret _, _ => 0
  | .act u k, s => (k s).steps (u s) + 1

theorem Proc.upTo_bind_lt {σ α β : Type} (p : Proc σ α) (f : α → Proc σ β) (s : σ) (n : Nat) (h : n < p.steps s) :
    (p.bind f).upTo n s = p.upTo n s := by
  induction p generalizing s n with
  | ret a => simp [Proc.steps] at h
  | act u k ih =>
    cases n with
    | zero => rfl
    | succ n => exact ih s (u s) n (by simp only [Proc.steps] at h; omega)

theorem Proc.upTo_bind_ge {σ α β : Type} (p : Proc σ α) (f : α → Proc σ β) (s : σ) (n : Nat) :
    (p.bind f).upTo (p.steps s + n) s = (f (p.run s).1).upTo n (p.run s).2 := by
  induction p generalizing s with
  | ret a => simp [Proc.steps, Proc.bind, Proc.run]
  | act u k ih =>
    have : (Proc.act u k).steps s + n = ((k s).steps (u s) + n) + 1 := by simp only [Proc.steps]; omega
    rw [this]
    exact ih s (u s)

theorem Proc.steps_bind {σ α β : Type} (p : Proc σ α) (f : α → Proc σ β) (s : σ) :
    (p.bind f).steps s = p.steps s + (f (p.run s).1).steps (p.run s).2 := by
  induction p generalizing s with
  | ret a => simp [Proc.steps, Proc.bind, Proc.run]
  | act u k ih =>
    simp only [Proc.bind, Proc.steps, Proc.run]
    rw [ih s (u s)]; omega

/-- The state after the process stopped `k` elementary operations into the insert that follows the completed inserts. -/
def crashed (B : BinSearch) (lo hi : U64) (done : Inserts) (w : Labels × TimePoint) (k : Nat) : SChunk :=
  (insertProc w).upTo k ((newSled lo hi).insertAll (sledComp B) done)

/-- Every crash point of a history of inserts is of that form: `done` are the inserts all of whose elementary operations
happened, `w` the interrupted one (or all inserts are completed). -/
theorem C35_crash_points (B : BinSearch) (lo hi : U64) (h : Inserts) (n : Nat) :
    ((insertsProc h).steps (newSled lo hi) ≤ n ∧ (insertsProc h).upTo n (newSled lo hi) = (newSled lo hi).insertAll (sledComp B) h) ∨
    ∃ done w rest k, h = done ++ w :: rest ∧ n = (insertsProc done).steps (newSled lo hi) + k ∧
      k < (insertProc w).steps ((newSled lo hi).insertAll (sledComp B) done) ∧
      (insertsProc h).upTo n (newSled lo hi) = crashed B lo hi done w k := by
  unfold crashed
  generalize newSled lo hi = c
  induction h generalizing c n with
  | nil => left; refine ⟨by simp [insertsProc, Proc.steps], ?_⟩; cases n <;> rfl
  | cons w h ih =>
    by_cases hn : n < (insertProc w).steps c
    · right
      exact ⟨[], w, h, n, rfl, by simp [insertsProc, Proc.steps], hn, Proc.upTo_bind_lt _ _ _ _ hn⟩
    · obtain ⟨m, rfl⟩ : ∃ m, n = (insertProc w).steps c + m := ⟨n - (insertProc w).steps c, by omega⟩
      have e : (insertsProc (w :: h)).upTo ((insertProc w).steps c + m) c = (insertsProc h).upTo m (c.insert (sledComp B) w.1 w.2).2 := by
        rw [insertsProc, Proc.upTo_bind_ge, insertProc_run B]
      have es : ∀ g, (insertsProc (w :: g)).steps c = (insertProc w).steps c + (insertsProc g).steps (c.insert (sledComp B) w.1 w.2).2 := by
        intro g; rw [insertsProc, Proc.steps_bind, insertProc_run B]
      rcases ih m (c.insert (sledComp B) w.1 w.2).2 with ⟨h1, h2⟩ | ⟨done, v, rest, k, h1, h2, h3, h4⟩
      · left; rw [es, e]; exact ⟨by omega, h2⟩
      · right
        refine ⟨w :: done, v, rest, k, by rw [h1]; rfl, ?_, h3, ?_⟩
        · rw [es, h2]; omega
        · rw [e, h4]; rfl

/-- After a crash at any point, every series with a completed insert is found by exact lookup, and its stored points are its
completed points, possibly followed by the point of the interrupted insert. -/
theorem C35_completed_found (B : BinSearch) (lo hi : U64) (done : Inserts) (w : Labels × TimePoint) (hf : Fine (done ++ [w])) (k : Nat)
    (ls : Labels) (hls : WFSet ls) (hd : ∃ v ∈ done, inside lo hi v.2 = true ∧ v.1.Perm ls) :
    ∃ i ps, sledByLabels (crashed B lo hi done w k).store.idx ls = .ok (some i) ∧
      (crashed B lo hi done w k).store.ser (sledKey i) = some (ps.flatMap encodePoint) ∧
      (ps = pointsFor (insideOnly lo hi done) ls ∨ ps = pointsFor (insideOnly lo hi (done ++ [w])) ls) := by
  obtain ⟨hc, hc', hcr⟩ := insert_reps B lo hi hf
  obtain ⟨v, hv, hvi, hvp⟩ := hd
  have hvm : v ∈ insideOnly lo hi done := List.mem_filter.mpr ⟨hv, hvi⟩
  obtain ⟨i, hi'⟩ := exists_id (h := insideOnly lo hi done) ⟨v, hvm, hvp⟩
  obtain ⟨s, hs, hsp, rfl⟩ : ∃ s ∈ numbered (insideOnly lo hi done), s.1.Perm ls ∧ s.2 = i := by
    unfold specByLabels at hi'
    obtain ⟨s, hs, e⟩ := Option.map_eq_some_iff.mp hi'
    exact ⟨s, List.mem_of_find?_eq_some hs, by simpa using List.find?_some hs, e⟩
  have hsub := fun x => insideOnly_sub lo hi done w (x := x)
  have hs2 := hsub s hs
  have hi2 : specByLabels (numbered (insideOnly lo hi (done ++ [w]))) ls = some s.2 := by
    obtain ⟨j, hj⟩ := exists_id (h := insideOnly lo hi (done ++ [w])) (ls := ls)
      ⟨v, List.mem_filter.mpr ⟨by simp [hv], hvi⟩, hvp⟩
    obtain ⟨s', hs', hsp', rfl⟩ : ∃ s ∈ numbered (insideOnly lo hi (done ++ [w])), s.1.Perm ls ∧ s.2 = j := by
      unfold specByLabels at hj
      obtain ⟨s, hs, e⟩ := Option.map_eq_some_iff.mp hj
      exact ⟨s, List.mem_of_find?_eq_some hs, by simpa using List.find?_some hs, e⟩
    rw [hj, perm_unique hs' hs2 (hsp'.trans hsp.symm)]
  have hcrk := hcr k
  have h1 := hc.rep.1.byLabels ls hls
  have h2 := hc'.rep.1.byLabels ls hls
  rw [hi'] at h1
  rw [hi2] at h2
  simp only [sledCodec, List.nil_append, Option.map_some] at h1 h2
  have hpp : ∀ g : Inserts, pointsFor g s.1 = pointsFor g ls := by
    intro g; unfold pointsFor
    congr 1
    apply List.filter_congr
    intro x _
    exact decide_eq_decide.mpr ⟨fun h => h.trans hsp, fun h => h.trans hsp.symm⟩
  have hne : ∀ g : Inserts, v ∈ g → pointsFor g ls ≠ [] := by
    intro g hg e
    have : v.2 ∈ pointsFor g ls := List.mem_map.mpr ⟨v, List.mem_filter.mpr ⟨hg, by simpa using hvp⟩, rfl⟩
    rw [e] at this; simp at this
  have hser : ∀ g : Inserts, g.length < 2 ^ 64 - 1 → s ∈ numbered g → v ∈ g → ∀ kv, StoreInv sledKey (seriesOf sledAccepts g) kv →
      kv (sledKey s.2) = some ((pointsFor g ls).flatMap encodePoint) := by
    intro g hgl hgs hgv kv hkv
    rw [hkv s.2, seriesOf_mem hgl hgs, keepBy_sled, hpp, if_neg (hne g hgv)]
  have hk1 : (crashed B lo hi done w k).store.idx (encodeLabels ls true) = some (fmtId s.2) := by
    rcases hcrk.idx (encodeLabels ls true) with e | e
    · exact e.trans h1
    · exact e.trans h2
  have hbl : sledByLabels (crashed B lo hi done w k).store.idx ls = .ok (some s.2) := by
    unfold sledByLabels
    rw [hk1]
    simp only [parseId_fmtId, Res.bind_ok]
  rcases hcrk.ser with e | e
  · refine ⟨s.2, _, hbl, ?_, Or.inl rfl⟩
    show (crashed B lo hi done w k).store.ser _ = _
    have : (crashed B lo hi done w k).store.ser = _ := e
    rw [this]
    exact hser _ (insideOnly_len hf.prefix) hs hvm _ hc.rep.2
  · refine ⟨s.2, _, hbl, ?_, Or.inr rfl⟩
    have : (crashed B lo hi done w k).store = _ := e
    rw [this]
    exact hser _ (insideOnly_len hf) hs2 (List.mem_filter.mpr ⟨by simp [hv], hvi⟩) _ hc'.rep.2

/-- After a crash at any point, a query on the reopened chunk never panics and reports only series that were inserted, with
exactly the points of the completed inserts (and possibly the interrupted one) in range. -/
theorem C35_nothing_invented (B : BinSearch) (lo hi : U64) (done : Inserts) (w : Labels × TimePoint) (hf : Fine (done ++ [w])) (k : Nat)
    (hincr : ∀ ls, SIncr (pointsFor (insideOnly lo hi (done ++ [w])) ls)) (lo' hi' : U64)
    (q : Labels) (hq : ∀ l ∈ q, WFLabel l) (a b : U64) (hab : a.toNat ≤ b.toNat) :
    (reopened (crashed B lo hi done w k).store lo' hi').query (sledComp B) q a b ≠ .panic ∧
    ∀ ss, (reopened (crashed B lo hi done w k).store lo' hi').query (sledComp B) q a b = .ok ss → ∀ x ∈ ss,
      reportedBy (insideOnly lo hi done) a b x ∨ reportedBy (insideOnly lo hi (done ++ [w])) a b x := by
  obtain ⟨hc, hc', hcr⟩ := insert_reps B lo hi hf
  have := (AllOut.run (queryProc_between B (c := reopened _ lo' hi') (c' := reopened _ lo' hi') hc.rep hc'.rep
    (fun x hx => insideOnly_sub lo hi done w hx) (insideOnly_len hf.prefix) (insideOnly_len hf)
    (insideOnly_wf hf.prefix) (insideOnly_wf hf) (incr_before hincr) hincr hq hab) ((hcr k).reopened lo' hi')).1
  rw [queryProc_run B q a b _ rfl] at this
  exact ⟨this.1, fun ss hss x hx => (this.2 ss hss x hx).1⟩

example : (∃ v ∈ exIns, inside 0#64 1000#64 v.2 = true ∧ v.1.Perm [lbl "a" "1"]) ∧
    (crashed stdBinSearch 0#64 1000#64 exIns exNew 7).store.idx (encodeId 3#64) ≠ none ∧
    (crashed stdBinSearch 0#64 1000#64 exIns exNew 7).store.ser (sledKey 3#64) = none := by
  refine ⟨⟨_, by simp [exIns]; exact Or.inl rfl, by decide, by decide⟩, by decide +kernel, by decide +kernel⟩

/-! ### C36 -/

theorem createLabelsProc_whole (i : U64) (k : Proc SChunk (Res Unit)) (ls : Labels) (c : SChunk) (n : Nat) :
    (createLabelsProc i k ls).upTo (2 * ls.length + n) c = k.upTo n (c.withIdx (afterLabels i ls c.store.idx)) := by
  induction ls generalizing c with
  | nil => simp only [List.length_nil, Nat.mul_zero, Nat.zero_add]; rfl
  | cons l ls ih =>
    have e : 2 * (l :: ls).length + n = (2 * ls.length + n) + 2 := by simp only [List.length_cons]; omega
    rw [e]
    exact ih (c.withIdx (sledAppendId i (encodeLabel l) c.store.idx))

theorem createLabelsProc_steps (i : U64) (k : Proc SChunk (Res Unit)) (ls : Labels) (c : SChunk) :
    (createLabelsProc i k ls).steps c = 2 * ls.length + k.steps (c.withIdx (afterLabels i ls c.store.idx)) := by
  induction ls generalizing c with
  | nil => simp only [List.length_nil, Nat.mul_zero, Nat.zero_add]; rfl
  | cons l ls ih =>
    have e : (createLabelsProc i k (l :: ls)).steps c =
      (createLabelsProc i k ls).steps (c.withIdx (sledAppendId i (encodeLabel l) c.store.idx)) + 2 := rfl
    rw [e, ih]
    simp only [List.length_cons]
    have : afterLabels i (l :: ls) c.store.idx = afterLabels i ls (sledAppendId i (encodeLabel l) c.store.idx) := rfl
    rw [this]
    show _ + (k.steps (c.withIdx (afterLabels i ls (sledAppendId i (encodeLabel l) c.store.idx)))) + 2 = _
    omega

/-- The crash point just before the point of a new series is stored. -/
theorem insert_new_gap (B : BinSearch) {lo hi : U64} {h : Inserts} {c : SChunk} (hc : ChunkRep (sledRefines B) lo hi h c)
    {ls : Labels} (hls : WFSet ls) {p : TimePoint} (hin : inside lo hi p = true) (hi' : specByLabels (numbered h) ls = none) :
    2 * ls.length + 6 < (insertProc (ls, p)).steps c ∧
    ((insertProc (ls, p)).upTo (2 * ls.length + 6) c).store = ⟨(c.insert (sledComp B) ls p).2.store.idx, c.store.ser⟩ := by
  have hfin := (insert_new B hc hls hin hi').1
  have hb := (sledRefines B).byLabels hc.rep hls
  rw [hi'] at hb
  simp only [sledComp] at hb
  have hr : c.isInRange p.ts = true := by rw [inside_iff hc.start_ hc.end_]; exact hin
  have hL := hc.rep.1.byLabels ls hls
  simp only [sledCodec, List.nil_append, hi', Option.map_none] at hL
  have hd : (c.store.idx (encodeLabels ls true)).isSome = false := by rw [hL]; rfl
  constructor
  · simp only [insertProc, Proc.get, Proc.steps, id, hc.ok, hr, hb, Bool.false_eq_true, if_false, if_true, idNext, createProc, hd, Proc.put,
      createLabelsProc_steps, writeProc]
    omega
  · have e3 : (insertProc (ls, p)).upTo (2 * ls.length + 6) c =
        (createLabelsProc c.nextId (writeProc c.nextId p) ls).upTo (2 * ls.length + 0)
          ((SChunk.setIdx { c with nextId := c.nextId + 1#64 } (encodeLabels ls true) (fmtId c.nextId)).setIdx (encodeId c.nextId)
            (encodeLabels ls false)) := by
      simp only [insertProc, Proc.get, Proc.upTo, id, hc.ok, hr, hb, Bool.false_eq_true, if_false, if_true, idNext, createProc, hd, Proc.put, Nat.add_zero]
    rw [e3, createLabelsProc_whole, hfin]
    rfl

/-- What a query answers when the index has the new series but its point is missing. -/
theorem query_gap (B : BinSearch) {h h' : Inserts} {idx ser : KV} (h1 : IndexInv sledCodec (numbered h') idx)
    (h2 : StoreInv sledKey (seriesOf sledAccepts h) ser) (hl' : h'.length < 2 ^ 64 - 1) (hwf' : ∀ w ∈ h', WFSet w.1)
    (hincr : ∀ ls, SIncr (pointsFor h ls)) {q : Labels} (hq : ∀ l ∈ q, WFLabel l) {a b : U64} (hab : a.toNat ≤ b.toNat) (lo hi : U64)
    (ho : overlaps lo hi a b = true) :
    (reopened ⟨idx, ser⟩ lo hi).query (sledComp B) q a b =
      specQuery a b ((specMetadata (numbered h') q).map fun x => ⟨x.1, x.2, seriesOf sledAccepts h x.1⟩) := by
  have hm := sled_metadata h1 (numbered_wf hwf') (numbered_incr hl') hq
  unfold Chunk.query
  rw [Chunk.isWithRange_eq]
  unfold reopened
  simp only [Chunk.new, Bool.false_eq_true, if_false, ho, if_true]
  have : (sledComp B).metadata ⟨idx, ser⟩ q = .ok (specMetadata (numbered h') q) := hm
  rw [this, Res.bind_ok]
  have e : specMetadata (numbered h') q = ((specMetadata (numbered h') q).map fun x => (⟨x.1, x.2, seriesOf sledAccepts h x.1⟩ : Series)).map
      fun x => (x.id, x.labels) := by rw [List.map_map]; simp [Function.comp_def]
  conv => lhs; rw [e]
  apply readAll_spec
  intro x hx
  obtain ⟨y, -, rfl⟩ := List.mem_map.mp hx
  refine sledRead_spec B h2 ?_ hab
  unfold seriesOf
  split
  · rw [keepBy_sled]; exact hincr _
  · exact Pairwise.nil

/-- For every history and every insert of a new series there is a crash point after which every query that would match the
new series fails, whatever else it matches: the data of all other series it matches can no longer be read through it. -/
theorem C36_violated (B : BinSearch) (lo hi : U64) (done : Inserts) (w : Labels × TimePoint) (hf : Fine (done ++ [w]))
    (hincr : ∀ ls, SIncr (pointsFor (insideOnly lo hi done) ls)) (hin : inside lo hi w.2 = true)
    (hnew : ∀ v ∈ done, inside lo hi v.2 = true → ¬ v.1.Perm w.1) :
    ∃ k, k < (insertProc w).steps ((newSled lo hi).insertAll (sledComp B) done) ∧
    ∀ (q : Labels), (∀ l ∈ q, WFLabel l) → q ≠ [] → (∀ l ∈ q, l ∈ w.1) → ∀ (a b : U64), a.toNat ≤ b.toNat → ∀ (lo' hi' : U64),
      overlaps lo' hi' a b = true →
      ∃ e, (reopened (crashed B lo hi done w k).store lo' hi').query (sledComp B) q a b = .err e := by
  obtain ⟨hc, hc', -⟩ := insert_reps B lo hi hf
  have hnone : specByLabels (numbered (insideOnly lo hi done)) w.1 = none := by
    unfold specByLabels
    rw [Option.map_eq_none_iff, List.find?_eq_none]
    intro x hx hp
    obtain ⟨v, hv, e⟩ := labelSets_mem (number_mem hx)
    obtain ⟨hv1, hv2⟩ := List.mem_filter.mp hv
    exact hnew v hv1 hv2 (by rw [e]; simpa using hp)
  obtain ⟨hk, hst⟩ := insert_new_gap B hc (hf.wf w (by simp)) hin hnone
  refine ⟨_, hk, ?_⟩
  intro q hq hne hqw a b hab lo' hi' ho
  have hst' : (crashed B lo hi done w (2 * w.1.length + 6)).store =
      ⟨((newSled lo hi).insertAll (sledComp B) (done ++ [w])).store.idx, ((newSled lo hi).insertAll (sledComp B) done).store.ser⟩ := by
    rw [insertAll_snoc]; exact hst
  rw [hst', query_gap B hc'.rep.1 hc.rep.2 (insideOnly_len hf) (insideOnly_wf hf) hincr hq hab lo' hi' ho]
  -- the new series is matched and has no points
  have hnum : numbered (insideOnly lo hi (done ++ [w])) = numbered (insideOnly lo hi done) ++
      [(w.1, BitVec.ofNat 64 ((labelSets (insideOnly lo hi done)).length + 1))] := by
    rw [insideOnly_append, if_pos hin]
    rcases numbered_append (insideOnly lo hi done) w with e | ⟨e, -⟩
    · exfalso
      obtain ⟨i, hi'⟩ := exists_id (h := insideOnly lo hi done ++ [w]) (ls := w.1) ⟨w, by simp, List.Perm.refl _⟩
      rw [e, hnone] at hi'; cases hi'
    · exact e
  generalize hi0 : BitVec.ofNat 64 ((labelSets (insideOnly lo hi done)).length + 1) = i0 at hnum
  have hkl : knownLabels (numbered (insideOnly lo hi (done ++ [w]))) q = q := by
    unfold knownLabels
    rw [List.filter_eq_self]
    intro l hl
    rw [List.any_eq_true]
    exact ⟨(w.1, i0), by rw [hnum]; simp, by simpa using hqw l hl⟩
  have hmem : (i0, sortLabels w.1) ∈ specMetadata (numbered (insideOnly lo hi (done ++ [w]))) q := by
    unfold specMetadata
    rw [hkl, if_neg hne]
    refine List.mem_map.mpr ⟨(w.1, i0), List.mem_filter.mpr ⟨by rw [hnum]; simp, ?_⟩, rfl⟩
    rw [List.all_eq_true]
    intro l hl
    simpa using hqw l hl
  have hser : seriesOf sledAccepts (insideOnly lo hi done) i0 = [] := by
    unfold seriesOf
    have : (numbered (insideOnly lo hi done)).find? (fun s => decide (s.2 = i0)) = none := by
      rw [List.find?_eq_none]
      intro x hx
      have hp := numbered_incr (insideOnly_len (lo := lo) (hi := hi) hf)
      rw [hnum, List.pairwise_append] at hp
      have := hp.2.2 x hx (w.1, i0) (by simp)
      simp only [decide_eq_true_eq]
      intro e; rw [e] at this; exact Nat.lt_irrefl _ this
    rw [this]
  have hout : ((specMetadata (numbered (insideOnly lo hi (done ++ [w]))) q).map
      fun x => (⟨x.1, x.2, seriesOf sledAccepts (insideOnly lo hi done) x.1⟩ : Series)).find? (outside a b) ≠ none := by
    rw [Ne, List.find?_eq_none]
    intro hno
    refine hno ⟨i0, sortLabels w.1, []⟩ (List.mem_map.mpr ⟨_, hmem, ?_⟩) rfl
    simp only [hser]
  unfold specQuery
  rcases hfd : ((specMetadata (numbered (insideOnly lo hi (done ++ [w]))) q).map
      fun x => (⟨x.1, x.2, seriesOf sledAccepts (insideOnly lo hi done) x.1⟩ : Series)).find? (outside a b) with _ | y
  · exact absurd hfd hout
  · exact ⟨_, by rw [hfd]⟩

/-- The example: before the interrupted insert the query answers with the stored data, after a crash it fails. -/
theorem C36_violated_witness (B : BinSearch) :
    ∃ k e, (reopened (crashed B 0#64 1000#64 exIns exNew k).store 0#64 1000#64).query (sledComp B) [lbl "b" "2"] 5#64 350#64 = .err e ∧
    ((newSled 0#64 1000#64).insertAll (sledComp B) exIns).query (sledComp B) [lbl "b" "2"] 5#64 350#64 =
      .ok [⟨2#64, [lbl "a" "1", lbl "b" "2"], [⟨100#64, 6#64⟩, ⟨200#64, 7#64⟩]⟩] ∧
    ((newSled 0#64 1000#64).insertAll (sledComp B) (exIns ++ [exNew])).query (sledComp B) [lbl "b" "2"] 5#64 350#64 =
      .ok [⟨2#64, [lbl "a" "1", lbl "b" "2"], [⟨100#64, 6#64⟩, ⟨200#64, 7#64⟩]⟩, ⟨3#64, [lbl "b" "2", lbl "c" "3"], [⟨300#64, 8#64⟩]⟩] := by
  have hqw : ∀ l ∈ [lbl "b" "2"], WFLabel l := (wfSet_of (ls := [lbl "b" "2"]) (by decide +kernel)).wf
  obtain ⟨k, -, hk⟩ := C36_violated B 0#64 1000#64 exIns exNew exNew_fine exIns_incr (by decide) (by decide +kernel)
  obtain ⟨e, he⟩ := hk [lbl "b" "2"] hqw (by simp) (by decide +kernel) 5#64 350#64 (by decide) 0#64 1000#64 (by decide +kernel)
  refine ⟨k, e, he, ?_, ?_⟩
  · exact (C30_sled_query B _ _ _ exIns_fine exIns_incr _ hqw _ _ (by decide)).trans (by decide +kernel)
  · exact (C30_sled_query B _ _ _ exNew_fine exNew_incr _ hqw _ _ (by decide)).trans (by decide +kernel)

/-- A crash at any point of an insert into an existing series (or outside the window) leaves the chunk before or after the
insert: every query on the reopened chunk answers accordingly. -/
theorem C36_existing_partial (B : BinSearch) (lo hi : U64) (done : Inserts) (w : Labels × TimePoint) (hf : Fine (done ++ [w])) (k : Nat)
    (hex : inside lo hi w.2 = true → ∃ v ∈ done, inside lo hi v.2 = true ∧ v.1.Perm w.1) :
    (∀ q a b lo' hi', (reopened (crashed B lo hi done w k).store lo' hi').query (sledComp B) q a b =
      (reopened ((newSled lo hi).insertAll (sledComp B) done).store lo' hi').query (sledComp B) q a b) ∨
    (∀ q a b lo' hi', (reopened (crashed B lo hi done w k).store lo' hi').query (sledComp B) q a b =
      (reopened ((newSled lo hi).insertAll (sledComp B) (done ++ [w])).store lo' hi').query (sledComp B) q a b) := by
  obtain ⟨hc, hc', -⟩ := insert_reps B lo hi hf
  by_cases hin : inside lo hi w.2 = true
  · obtain ⟨v, hv, hvi, hvp⟩ := hex hin
    obtain ⟨i, hi'⟩ := exists_id (h := insideOnly lo hi done) ⟨v, List.mem_filter.mpr ⟨hv, hvi⟩, hvp⟩
    obtain ⟨e, h2⟩ := insert_existing B hc (hf.wf w (by simp)) hin hi'
    rcases h2 k with e2 | e2
    · left; intro q a b lo' hi'; rw [crashed, e2]
    · right; intro q a b lo' hi'; rw [crashed, e2, insertAll_snoc, e]
  · left
    intro q a b lo' hi'
    have hr' : ((newSled lo hi).insertAll (sledComp B) done).isInRange w.2.ts = false := by
      rw [inside_iff hc.start_ hc.end_]; simpa using hin
    rw [crashed, insert_outside_upTo hc.ok hr']

/-- A crash at any point of any insert does not affect queries that mention none of its labels. -/
theorem C36_disjoint_partial (B : BinSearch) (lo hi : U64) (done : Inserts) (w : Labels × TimePoint) (hf : Fine (done ++ [w])) (k : Nat)
    (q : Labels) (hq : ∀ l ∈ q, WFLabel l) (hd : ∀ l ∈ q, l ∉ w.1) (a b lo' hi' : U64) :
    (reopened (crashed B lo hi done w k).store lo' hi').query (sledComp B) q a b =
      (reopened ((newSled lo hi).insertAll (sledComp B) done).store lo' hi').query (sledComp B) q a b := by
  obtain ⟨-, -, hcr⟩ := insert_reps B lo hi hf
  have hag := insert_agree B lo hi hf hq hd a b (c := reopened ((newSled lo hi).insertAll (sledComp B) done).store lo' hi')
    (c' := reopened ((newSled lo hi).insertAll (sledComp B) (done ++ [w])).store lo' hi') rfl rfl
  have h2 := (AllOut.run hag ((hcr k).reopened lo' hi')).1
  rw [queryProc_run B q a b _ rfl, queryProc_run B q a b _ rfl] at h2
  exact h2

end Verif
