import Verif.Lemmas.TrafficSys
/-! Property C81: a chunk shared by any number of inserting and querying threads. -/
namespace Verif
open List

/-- The inserts begun so far, in the order in which they got the lock, are what the properties are stated for: well-formed label sets, and
for each label set increasing timestamps. -/
def GoodLog (lo hi : U64) (log : Inserts) : Prop := Fine log ∧ ∀ ls, SIncr (pointsFor (insideOnly lo hi log) ls)

/-- The query has well-formed labels and a range. -/
def GoodAsk (k : Ask) : Prop := (∀ l ∈ k.labels, WFLabel l) ∧ k.from_.toNat ≤ k.to_.toNat

/-- Every finished query of every thread, under every schedule: it did not panic, and if it returned series, each of them is what the
inserts complete at one moment of the query make of it; no series known before is missing and none is there twice. -/
theorem C81_snapshot (B : Kit) (lo hi : U64) (inserts : Nat → Inserts) (asks : Nat → List Ask) (sched : List Turn) (T : Traffic)
    (hT : (Traffic.init (newSled lo hi) inserts asks).exec B sched = T) (hlog : GoodLog lo hi T.sys.started) (x : Answer) (hx : x ∈ T.answered)
    (hk : GoodAsk x.ask) :
    x.before <+: x.after ∧ x.after <+: T.sys.settled ∧ x.result ≠ .panic ∧
    ∀ ss, x.result = .ok ss → Snapshots lo hi x.before x.after x.ask.labels x.ask.from_ x.ask.to_ ss := by
  have h := TrInv.exec B lo hi inserts asks sched
  rw [hT] at h
  obtain ⟨h1, h2, h3, h4⟩ := h.order x hx
  have h5 := h.ans ⟨hlog.1, hlog.2⟩ x hx ⟨hk.1, hk.2⟩
  exact ⟨h1, h3, h5.no_panic, h5.snap⟩

/-- Every failed query had one of three reasons. -/
theorem C81_errors (B : Kit) (lo hi : U64) (inserts : Nat → Inserts) (asks : Nat → List Ask) (sched : List Turn) (T : Traffic)
    (hT : (Traffic.init (newSled lo hi) inserts asks).exec B sched = T) (hlog : GoodLog lo hi T.sys.started) (x : Answer) (hx : x ∈ T.answered)
    (hk : GoodAsk x.ask) (e : MErr) (he : x.result = .err e) :
    MayFail lo hi x.before x.after x.begun x.ask.labels x.ask.from_ x.ask.to_ e := by
  have h := TrInv.exec B lo hi inserts asks sched
  rw [hT] at h
  exact (h.ans ⟨hlog.1, hlog.2⟩ x hx ⟨hk.1, hk.2⟩).err e he

/-- Of two queries for the same range of which the second began after the first had ended, and both succeeded: the points of a series in
the first answer are the first points of that series in the second, and a series of the first answer that has the labels of the second
query is in the second. -/
theorem C81_monotone (B : Kit) (lo hi : U64) (inserts : Nat → Inserts) (asks : Nat → List Ask) (sched : List Turn) (T : Traffic)
    (hT : (Traffic.init (newSled lo hi) inserts asks).exec B sched = T) (hlog : GoodLog lo hi T.sys.started) (i j : Nat) (x y : Answer)
    (hx : T.answered[i]? = some x) (hy : T.answered[j]? = some y) (hij : i < y.earlier) (hkx : GoodAsk x.ask) (hky : GoodAsk y.ask)
    (hfrom : x.ask.from_ = y.ask.from_) (hto : x.ask.to_ = y.ask.to_) (ss tt : List Series) (hss : x.result = .ok ss) (htt : y.result = .ok tt)
    (s : Series) (hs : s ∈ ss) :
    (∀ t ∈ tt, s.labels.Perm t.labels → s.points <+: t.points) ∧
    ((∀ l ∈ y.ask.labels, l ∈ s.labels) → y.ask.labels ≠ [] → ∃ t ∈ tt, s.labels.Perm t.labels) := by
  have h := TrInv.exec B lo hi inserts asks sched
  rw [hT] at h
  have hord := (h.earlier j y hy).2 i x hij hx
  have h1 := (h.ans ⟨hlog.1, hlog.2⟩ x (List.mem_of_getElem? hx) ⟨hkx.1, hkx.2⟩).snap ss hss
  have h2 := (h.ans ⟨hlog.1, hlog.2⟩ y (List.mem_of_getElem? hy) ⟨hky.1, hky.2⟩).snap tt htt
  obtain ⟨g, -, hg, -, hp, hne⟩ := h1.moment s hs
  constructor
  · intro t ht hperm
    obtain ⟨g', hg', -, -, hp', -⟩ := h2.moment t ht
    rw [hp, hp', hfrom, hto, pointsFor_labels_perm _ hperm]
    exact inRange_pre (pointsFor_pre (insideOnly_prefix ((hg.trans hord).trans hg')) _) _ _
  · intro hall hq0
    have hpre := inRange_pre (pointsFor_pre (insideOnly_prefix (lo := lo) (hi := hi) (hg.trans hord)) s.labels) x.ask.from_ x.ask.to_
    obtain ⟨t, ht, hpt⟩ := h2.complete s.labels hall (by
      intro e
      rw [← hfrom, ← hto] at e
      rw [e, ← hp] at hpre
      exact hne (List.prefix_nil.mp hpre)) hq0
    exact ⟨t, ht, hpt.symm⟩

/-! ### The inserting threads are not disturbed -/

/-- The turns of the inserting threads. -/
def insertTurns : List Turn → List Nat
  | [] => []
  | .insert t :: r => t :: insertTurns r
  | .query _ :: r => insertTurns r

theorem insertTurns_append (a b : List Turn) : insertTurns (a ++ b) = insertTurns a ++ insertTurns b := by
  induction a with
  | nil => rfl
  | cons x a ih => cases x <;> simp [insertTurns, ih]

theorem query_sys {B : Kit} {lo hi : U64} {todo0 : Nat → Inserts} {T : Traffic} (h : TrInv B lo hi todo0 T) (t : Nat) :
    (T.step B (.query t)).sys = T.sys := by
  rcases hr : T.running t with _ | ⟨k, h', n, a | ⟨u, next⟩⟩
  · rcases ha : T.asks t with _ | ⟨k, ks⟩
    · simp only [Traffic.step, hr, ha]
    · rcases hl : T.sys.lock with _ | x <;> simp only [Traffic.step, hr, ha, hl]
  · simp only [Traffic.step, hr]
  · simp only [Traffic.step, hr]
    have hro := h.ro t k h' n _ hr
    cases hro with
    | act hu hk => rw [hu]

theorem exec_sys (B : Kit) (lo hi : U64) (inserts : Nat → Inserts) (asks : Nat → List Ask) (sched : List Turn) :
    ((Traffic.init (newSled lo hi) inserts asks).exec B sched).sys =
      (Sys.init (newSled lo hi) inserts).exec (kitInsert B) (insertTurns sched) := by
  induction sched using List.reverseRecOn with
  | nil => rfl
  | append_singleton l u ih =>
    have h := TrInv.exec B lo hi inserts asks l
    unfold Traffic.exec at *
    rw [List.foldl_append, insertTurns_append]
    unfold Sys.exec at *
    rw [List.foldl_append, ← ih]
    cases u with
    | insert t => rfl
    | query t => exact query_sys h t

/-- Queries do not disturb inserts: whenever no thread is inside an insert, the chunk and all results of inserts are those of the inserts
one after another, each thread's in its order (for all label sets and points). -/
theorem C81_inserts (B : Kit) (lo hi : U64) (inserts : Nat → Inserts) (asks : Nat → List Ask) (sched : List Turn) (T : Traffic)
    (hT : (Traffic.init (newSled lo hi) inserts asks).exec B sched = T) (hq : T.sys.lock = none) :
    SequentialLog (kitComp B) (newSled lo hi) T.sys.finished T.sys.store ∧
    ∀ t, (T.sys.finished.filter fun x => decide (x.1 = t)).map (·.2.1) ++ T.sys.todo t = inserts t := by
  have e := exec_sys B lo hi inserts asks sched
  rw [hT] at e
  rw [e] at hq ⊢
  exact serial_of (kitInsert_run B) (newSled lo hi) inserts (insertTurns sched) hq

theorem exec_append (B : Kit) (T : Traffic) (a b : List Turn) : T.exec B (a ++ b) = (T.exec B a).exec B b := by
  unfold Traffic.exec; rw [List.foldl_append]

/-- Running a query to its end. -/
theorem query_ends (B : Kit) (t : Nat) (p : Proc SChunk (Res (List Series))) (T : Traffic) (k : Ask) (h : Inserts) (n : Nat)
    (hr : T.running t = some (k, h, n, p)) :
    ∃ more, ((T.exec B more).running t = none ∧ ∀ u, u ≠ t → (T.exec B more).running u = T.running u) ∧ (T.exec B more).asks = T.asks ∧
      (T.exec B more).sys.lock = T.sys.lock ∧ (T.exec B more).sys.todo = T.sys.todo := by
  induction p generalizing T with
  | ret a =>
    refine ⟨[.query t], ⟨?_, ?_⟩, ?_⟩
    · simp [Traffic.exec, Traffic.step, hr]
    · intro u hu; simp [Traffic.exec, Traffic.step, hr, hu]
    · simp [Traffic.exec, Traffic.step, hr]
  | act u next ih =>
    obtain ⟨more, ⟨h1, h2⟩, h3, h4, h5⟩ := ih T.sys.store (T.step B (.query t)) (by simp [Traffic.step, hr])
    refine ⟨.query t :: more, ⟨h1, ?_⟩, h3.trans ?_, h4.trans ?_, h5.trans ?_⟩
    · intro v hv; refine (h2 v hv).trans ?_; simp [Traffic.step, hr, hv]
    · simp [Traffic.step, hr]
    · simp [Traffic.step, hr]
    · simp [Traffic.step, hr]

/-- Running all queries of a thread. -/
theorem queries_end (B : Kit) (t : Nat) (ks : List Ask) (T : Traffic) (hl : T.sys.lock = none) (hk : T.asks t = ks) :
    ∃ more, ((T.exec B more).running t = none ∧ ∀ u, u ≠ t → (T.exec B more).running u = T.running u) ∧
      ((T.exec B more).asks t = [] ∧ ∀ u, u ≠ t → (T.exec B more).asks u = T.asks u) ∧
      (T.exec B more).sys.lock = none ∧ (T.exec B more).sys.todo = T.sys.todo := by
  have hbase : ∃ m0, ((T.exec B m0).running t = none ∧ ∀ u, u ≠ t → (T.exec B m0).running u = T.running u) ∧ (T.exec B m0).asks = T.asks ∧
      (T.exec B m0).sys.lock = none ∧ (T.exec B m0).sys.todo = T.sys.todo := by
    rcases hr : T.running t with _ | ⟨k, h, n, p⟩
    · exact ⟨[], ⟨hr, fun _ _ => rfl⟩, rfl, hl, rfl⟩
    · obtain ⟨m, h1, h2, h3, h4⟩ := query_ends B t p T k h n hr
      exact ⟨m, h1, h2, h3.trans hl, h4⟩
  obtain ⟨m0, ⟨r0, r0'⟩, a0, l0, d0⟩ := hbase
  induction ks generalizing T m0 with
  | nil => exact ⟨m0, ⟨r0, r0'⟩, ⟨by rw [a0, hk], fun u _ => by rw [a0]⟩, l0, d0⟩
  | cons k ks ih =>
    generalize hT1 : T.exec B m0 = T1 at r0 r0' a0 l0 d0
    have e : T1.step B (.query t) = { T1 with
        asks := fun u => if u = t then ks else T1.asks u
        running := fun u => if u = t then some (k, T1.sys.settled, T1.answered.length,
          if T1.sys.store.poisoned then .ret .panic else kitQuery B k.labels k.from_ k.to_) else T1.running u } := by
      have ha1 : T1.asks t = k :: ks := by rw [a0, hk]
      simp only [Traffic.step, r0, ha1, l0]
    have e2 : (T1.step B (.query t)).running t = some (k, T1.sys.settled, T1.answered.length,
        if T1.sys.store.poisoned then .ret .panic else kitQuery B k.labels k.from_ k.to_) := by rw [e]; simp
    obtain ⟨m1, ⟨r1, r1'⟩, a1, l1, d1⟩ := query_ends B t _ (T1.step B (.query t)) k _ _ e2
    obtain ⟨m2, h1, h2, h3, h4⟩ := ih (T1.step B (.query t)) (by rw [e]; exact l0) (by rw [e]; simp) m1 r1 r1' a1 (by rw [l1, e]; exact l0) d1
    refine ⟨m0 ++ (.query t :: m2), ?_⟩
    rw [exec_append, hT1]
    change ((((T1.step B (.query t)).exec B m2).running t = none ∧ _) ∧ _)
    refine ⟨⟨h1.1, ?_⟩, ⟨h2.1, ?_⟩, h3, ?_⟩
    · intro u hu
      refine (h1.2 u hu).trans ?_
      rw [e]; simp only [hu, if_false]; exact r0' u hu
    · intro u hu
      refine (h2.2 u hu).trans ?_
      rw [e]; simp only [hu, if_false]; rw [a0]
    · refine h4.trans ?_
      rw [e]; exact d0

theorem idle_asks (B : Kit) (N : Nat) (sched : List Turn) (T : Traffic) (h : ∀ t, N ≤ t → T.asks t = [] ∧ T.running t = none) :
    ∀ t, N ≤ t → (T.exec B sched).asks t = [] ∧ (T.exec B sched).running t = none := by
  induction sched generalizing T with
  | nil => exact h
  | cons u sched ih =>
    refine ih (T.step B u) ?_
    intro t ht
    obtain ⟨h1, h2⟩ := h t ht
    cases u with
    | insert v => exact ⟨h1, h2⟩
    | query v =>
      by_cases hv : t = v
      · subst hv
        simp only [Traffic.step, h2, h1]
        exact ⟨trivial, trivial⟩
      · rcases hr : T.running v with _ | ⟨k, h', n, a | ⟨w, next⟩⟩
        · rcases ha : T.asks v with _ | ⟨k, ks⟩
          · simp only [Traffic.step, hr, ha]; exact ⟨h1, h2⟩
          · rcases hl : T.sys.lock with _ | x
            · simp only [Traffic.step, hr, ha, hl, hv, if_false]; exact ⟨h1, h2⟩
            · simp only [Traffic.step, hr, ha, hl]; exact ⟨h1, h2⟩
        · simp only [Traffic.step, hr, hv, if_false]; exact ⟨h1, h2⟩
        · simp only [Traffic.step, hr, hv, if_false]; exact ⟨h1, h2⟩

theorem exec_inserts (B : Kit) (T : Traffic) (more : List Nat) :
    (T.exec B (more.map .insert)).sys = T.sys.exec (kitInsert B) more := by
  induction more generalizing T with
  | nil => rfl
  | cons t more ih => exact ih (T.step B (.insert t))

/-- No deadlock: from every state that finitely many threads reach, all of them can run to their ends. -/
theorem C81_completes (B : Kit) (lo hi : U64) (inserts : Nat → Inserts) (asks : Nat → List Ask) (N : Nat)
    (hN : ∀ t, N ≤ t → inserts t = [] ∧ asks t = []) (sched : List Turn) :
    ∃ more, ∀ T, (Traffic.init (newSled lo hi) inserts asks).exec B (sched ++ more) = T →
      T.sys.lock = none ∧ ∀ t, T.sys.todo t = [] ∧ T.asks t = [] ∧ T.running t = none := by
  obtain ⟨m1, hl, ht⟩ := completes_of (kitInsert B) inserts N (fun t h => (hN t h).1) (newSled lo hi) (insertTurns sched)
  have hm1 : insertTurns (m1.map Turn.insert) = m1 := by
    clear hl ht
    induction m1 with
    | nil => rfl
    | cons t m ih => simp [insertTurns, ih]
  have hs : ((Traffic.init (newSled lo hi) inserts asks).exec B (sched ++ m1.map .insert)).sys =
      (Sys.init (newSled lo hi) inserts).exec (kitInsert B) (insertTurns sched ++ m1) := by
    rw [exec_sys, insertTurns_append, hm1]
  have hidle := idle_asks B N (sched ++ m1.map .insert) (Traffic.init (newSled lo hi) inserts asks) (fun t h => ⟨(hN t h).2, rfl⟩)
  generalize hT1 : (Traffic.init (newSled lo hi) inserts asks).exec B (sched ++ m1.map .insert) = T1 at hs hidle
  rw [← hs] at hl ht
  have hmain : ∀ M, M ≤ N → ∃ more, (T1.exec B more).sys.lock = none ∧ (∀ t, (T1.exec B more).sys.todo t = []) ∧
      ∀ t, t < M ∨ N ≤ t → (T1.exec B more).asks t = [] ∧ (T1.exec B more).running t = none := by
    intro M
    induction M with
    | zero =>
      intro _
      refine ⟨[], hl, ht, ?_⟩
      intro t h
      rcases h with h | h
      · omega
      · exact hidle t h
    | succ M ih =>
      intro hM
      obtain ⟨m, h1, h2, h3⟩ := ih (by omega)
      obtain ⟨m', h4, h5, h6, h7⟩ := queries_end B M _ (T1.exec B m) h1 rfl
      refine ⟨m ++ m', ?_⟩
      rw [exec_append]
      refine ⟨h6, fun t => by rw [h7]; exact h2 t, ?_⟩
      intro t h
      by_cases htM : t = M
      · subst htM; exact ⟨h5.1, h4.1⟩
      · rw [h5.2 t htM, h4.2 t htM]
        exact h3 t (by rcases h with h | h <;> omega)
  obtain ⟨m2, h1, h2, h3⟩ := hmain N (Nat.le_refl _)
  refine ⟨m1.map .insert ++ m2, ?_⟩
  rintro T rfl
  rw [← List.append_assoc, exec_append, hT1]
  exact ⟨h1, fun t => ⟨h2 t, h3 t (by omega)⟩⟩

/-! ### Example -/

/-- Two inserting threads. -/
def trInserts : Nat → Inserts := fun t =>
  if t = 0 then [([lbl "a" "1", lbl "b" "1"], ⟨10#64, 5#64⟩), ([lbl "a" "1", lbl "b" "1"], ⟨20#64, 6#64⟩)]
  else if t = 1 then [([lbl "a" "1", lbl "b" "2"], ⟨15#64, 7#64⟩), ([lbl "a" "1", lbl "b" "2"], ⟨25#64, 8#64⟩)] else []
/-- Two querying threads. -/
def trAsks : Nat → List Ask := fun t =>
  if t = 0 then [⟨[lbl "a" "1"], 5#64, 150#64⟩, ⟨[lbl "a" "1"], 5#64, 150#64⟩] else if t = 1 then [⟨[lbl "b" "2"], 5#64, 150#64⟩] else []
/-- `n` turns of a thread. -/
def turns (n : Nat) (u : Turn) : List Turn := List.replicate n u
/-- Both threads make their series; the query of thread 0 begins and reads its first series; then both second inserts happen; then the
query reads its second series; then the other queries run. -/
def trSchedOf (n : Nat) : List Turn :=
  turns n (.insert 0) ++ turns n (.insert 1) ++ turns 6 (.query 0) ++ turns 2 (.query 1) ++ turns 6 (.insert 0) ++ turns 6 (.insert 1) ++
  turns 30 (.query 0) ++ turns 10 (.query 1)
def trSched : List Turn := trSchedOf 14

def trEnd : Traffic := (Traffic.init (newSled 0#64 1000#64) trInserts trAsks).exec stdKit trSched

theorem trEnd_log : GoodLog 0#64 1000#64 trEnd.sys.started := by
  have e : trEnd.sys.started = [([lbl "a" "1", lbl "b" "1"], ⟨10#64, 5#64⟩), ([lbl "a" "1", lbl "b" "2"], ⟨15#64, 7#64⟩),
      ([lbl "a" "1", lbl "b" "1"], ⟨20#64, 6#64⟩), ([lbl "a" "1", lbl "b" "2"], ⟨25#64, 8#64⟩)] := by decide +kernel
  rw [e]
  refine ⟨⟨?_, by decide⟩, fun ls => incr_pointsFor (by unfold SIncr; decide +kernel) ls⟩
  intro w hw
  simp only [List.mem_cons, List.not_mem_nil, or_false] at hw
  rcases hw with rfl | rfl | rfl | rfl <;> exact wfSet_of (by decide +kernel)

/-- What the queries saw. -/
theorem trEnd_answers : trEnd.answered.map (fun x => (x.ask, x.result)) =
    [(⟨[lbl "a" "1"], 5#64, 150#64⟩, .ok [⟨1#64, [lbl "a" "1", lbl "b" "1"], [⟨10#64, 5#64⟩]⟩,
        ⟨2#64, [lbl "a" "1", lbl "b" "2"], [⟨15#64, 7#64⟩, ⟨25#64, 8#64⟩]⟩]),
     (⟨[lbl "a" "1"], 5#64, 150#64⟩, .ok [⟨1#64, [lbl "a" "1", lbl "b" "1"], [⟨10#64, 5#64⟩, ⟨20#64, 6#64⟩]⟩,
        ⟨2#64, [lbl "a" "1", lbl "b" "2"], [⟨15#64, 7#64⟩, ⟨25#64, 8#64⟩]⟩]),
     (⟨[lbl "b" "2"], 5#64, 150#64⟩, .ok [⟨2#64, [lbl "a" "1", lbl "b" "2"], [⟨15#64, 7#64⟩, ⟨25#64, 8#64⟩]⟩])] := by decide +kernel

/-- The hypotheses hold of this execution, and the first query was overtaken by two inserts; the second began after it had ended. -/
example : GoodLog 0#64 1000#64 trEnd.sys.started ∧ (∀ x ∈ trEnd.answered, GoodAsk x.ask) ∧
    trEnd.answered.map (fun x => (x.before.length, x.after.length, x.begun.length, x.earlier)) = [(2, 4, 4, 0), (4, 4, 4, 1), (2, 4, 4, 0)] := by
  refine ⟨trEnd_log, ?_, by decide +kernel⟩
  intro x hx
  have h := List.mem_map_of_mem (f := fun x : Answer => (x.ask, x.result)) hx
  rw [trEnd_answers] at h
  have e : x.ask = ⟨[lbl "a" "1"], 5#64, 150#64⟩ ∨ x.ask = ⟨[lbl "b" "2"], 5#64, 150#64⟩ := by
    simp only [List.mem_cons, Prod.mk.injEq, List.not_mem_nil, or_false] at h
    rcases h with h | h | h
    · exact Or.inl h.1
    · exact Or.inl h.1
    · exact Or.inr h.1
  rcases e with e | e <;> rw [e] <;> refine ⟨?_, by decide⟩ <;> intro l hl <;> rw [List.mem_singleton] at hl <;> subst hl <;>
    exact wfLabel_of (by decide +kernel)

/-- The same query with the new series of thread 0 under way fails. -/
example : (((Traffic.init (newSled 0#64 1000#64) trInserts trAsks).exec stdKit
    (turns 1 (.query 0) ++ turns 12 (.insert 0) ++ turns 5 (.query 0))).answered.map fun x => x.result) = [.err .notFound] := by decide +kernel

/-- The theorems apply to these too: the same threads give the same answers (the TiKV indexer makes a series in one step less), and an unfinished new series makes the query fail. -/
example : GoodLog 0#64 1000#64 ((Traffic.init (newSled 0#64 1000#64) trInserts trAsks).exec tikvKit (trSchedOf 13)).sys.started ∧
    ((Traffic.init (newSled 0#64 1000#64) trInserts trAsks).exec tikvKit (trSchedOf 13)).answered.map (fun x => (x.ask, x.result)) =
      trEnd.answered.map (fun x => (x.ask, x.result)) ∧
    ((Traffic.init (newSled 0#64 1000#64) trInserts trAsks).exec mixedKit (trSchedOf 13)).answered.map (fun x => (x.ask, x.result)) =
      trEnd.answered.map (fun x => (x.ask, x.result)) ∧
    (((Traffic.init (newSled 0#64 1000#64) trInserts trAsks).exec tikvKit
      (turns 1 (.query 0) ++ turns 11 (.insert 0) ++ turns 5 (.query 0))).answered.map fun x => x.result) = [.err .notFound] := by
  have e : ((Traffic.init (newSled 0#64 1000#64) trInserts trAsks).exec tikvKit (trSchedOf 13)).sys.started = trEnd.sys.started := by decide +kernel
  refine ⟨?_, by decide +kernel, by decide +kernel, by decide +kernel⟩
  have h := trEnd_log
  rw [← e] at h
  exact h

theorem trEnd_eq : (Traffic.init (newSled 0#64 1000#64) trInserts trAsks).exec stdKit trSched = trEnd := by rw [trEnd]

attribute [local irreducible] trEnd

theorem trEnd_some : 0 < trEnd.answered.length := by decide +kernel

/-- A query over two series is not the state of the chunk at any one moment: with both series there from the beginning, it can miss a
point of the first and see a later one of the second. -/
theorem C33_violated_cut : ∃ (inserts : Nat → Inserts) (asks : Nat → List Ask) (sched : List Turn) (T : Traffic) (x : Answer),
    (Traffic.init (newSled 0#64 1000#64) inserts asks).exec stdKit sched = T ∧ x ∈ T.answered ∧ T.sys.lock.isNone = true ∧
    (∀ g, g <+: T.sys.started → x.result ≠ ((newSled 0#64 1000#64).insertAll (kitComp stdKit) g).query (kitComp stdKit)
      x.ask.labels x.ask.from_ x.ask.to_) ∧
    (∀ w ∈ T.sys.started, ∃ v ∈ x.before, v.1.Perm w.1) := by
  refine ⟨trInserts, trAsks, trSched, trEnd, trEnd.answered[0]'trEnd_some, trEnd_eq, List.getElem_mem trEnd_some, by decide +kernel, ?_, by decide +kernel⟩
  intro g hg
  have hl : trEnd.sys.started.length = 4 := by decide +kernel
  have e := List.prefix_iff_eq_take.mp hg
  have hle := hg.length_le
  rw [hl] at hle
  rw [e]
  generalize g.length = n at hle
  have : n = 0 ∨ n = 1 ∨ n = 2 ∨ n = 3 ∨ n = 4 := by omega
  rcases this with rfl | rfl | rfl | rfl | rfl <;> decide +kernel

/-! ### C32 for every combination of storage and indexer -/

/-- C32_serial for every combination of storage and indexer. -/
theorem C32_any_serial (K : Kit) (c0 : SChunk) (todo : Nat → Inserts) (sched : List Nat)
    (hq : ((Sys.init c0 todo).exec (kitInsert K) sched).lock = none) :
    SequentialLog (kitComp K) c0 ((Sys.init c0 todo).exec (kitInsert K) sched).finished ((Sys.init c0 todo).exec (kitInsert K) sched).store ∧
    ∀ t, (((Sys.init c0 todo).exec (kitInsert K) sched).finished.filter fun x => decide (x.1 = t)).map (·.2.1) ++
      ((Sys.init c0 todo).exec (kitInsert K) sched).todo t = todo t :=
  serial_of (kitInsert_run K) c0 todo sched hq

/-- C32_inside for every combination of storage and indexer. -/
theorem C32_any_inside (K : Kit) (c0 : SChunk) (todo : Nat → Inserts) (sched : List Nat) (t : Nat) (w : Labels × TimePoint)
    (pr : Proc SChunk (Res Unit)) (hq : ((Sys.init c0 todo).exec (kitInsert K) sched).lock = some (t, w, pr)) :
    (∃ n, ((Sys.init c0 todo).exec (kitInsert K) sched).store =
      (kitInsert K w).upTo n (c0.insertAll (kitComp K) (((Sys.init c0 todo).exec (kitInsert K) sched).finished.map (·.2.1)))) ∧
    ∀ u, (((Sys.init c0 todo).exec (kitInsert K) sched).finished.filter fun x => decide (x.1 = u)).map (·.2.1) ++
      (if t = u then [w] else []) ++ ((Sys.init c0 todo).exec (kitInsert K) sched).todo u = todo u :=
  inside_of (kitInsert_run K) c0 todo sched t w pr hq

/-- C32_completes for every combination of storage and indexer. -/
theorem C32_any_completes (K : Kit) (todo : Nat → Inserts) (N : Nat) (hN : ∀ t, N ≤ t → todo t = []) (c0 : SChunk) (sched : List Nat) :
    ∃ more, ((Sys.init c0 todo).exec (kitInsert K) (sched ++ more)).lock = none ∧
      ∀ t, ((Sys.init c0 todo).exec (kitInsert K) (sched ++ more)).todo t = [] :=
  completes_of (kitInsert K) todo N hN c0 sched

/-- Two threads of inserts on a TiKV chunk, the later time first: the second is refused by the storage, silently, in the series both write. -/
example : ((Sys.init (newSled 0#64 100#64) exTodo).exec (kitInsert tikvKit) (exSched ++ exSched)).lock.isNone = true ∧
    ((Sys.init (newSled 0#64 100#64) exTodo).exec (kitInsert tikvKit) (exSched ++ exSched)).finished.map (fun x => (x.1, x.2.2)) =
      [(1, .ok ()), (0, .ok ())] ∧
    ((Sys.init (newSled 0#64 100#64) exTodo).exec (kitInsert tikvKit) (exSched ++ exSched)).store.query (kitComp tikvKit) [lbl "a" "1"] 0#64 100#64 =
      .ok [⟨1#64, [lbl "a" "1"], [⟨20#64, 6#64⟩]⟩] := by
  refine ⟨by decide +kernel, by decide +kernel, by decide +kernel⟩

end Verif
