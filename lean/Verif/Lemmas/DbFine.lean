import Verif.Model.DbFine
import Verif.Lemmas.TrafficSys
import Verif.Lemmas.DbConcQuery
/-! Invariant of the database under concurrent calls, at the granularity of store operations. -/
namespace Verif
open List

/-! ### One chunk -/

theorem SysInv.take {B : Kit} {lo hi : U64} {todo0 : Nat → Inserts} {S : ISys} (h : SysInv B lo hi todo0 S) (hl : S.lock = none)
    (t : Nat) (w : Labels × TimePoint) : ∃ todo1, SysInv B lo hi todo1 { S with lock := some (t, w, (kitInsert B) w) } := by
  have hst := h.lin.store
  rw [hl] at hst
  simp only at hst
  refine ⟨fun u => opsOf u S.finished ++ (if t = u then [w] else []) ++ S.todo u, ⟨h.lin.results, ?_, ?_, ?_⟩, ?_⟩
  · simp only []; rw [hst]
  · intro h' o' pr' e
    simp only [Option.some.injEq, Prod.mk.injEq] at e
    obtain ⟨-, rfl, rfl⟩ := e
    refine ⟨0, ?_, ?_⟩
    · simp only [Proc.upTo]; exact hst.symm
    · intro m; rw [hst]; simp
  · intro u; simp only [Sys.current]
  · intro t' w' pr e
    simp only [Option.some.injEq, Prod.mk.injEq] at e
    obtain ⟨-, rfl, rfl⟩ := e
    exact ⟨kitInsert_serLast B _, fun _ _ _ => by rw [hst, h.lin.chunk B]⟩

theorem SysInv.win {B : Kit} {lo hi : U64} {todo0 : Nat → Inserts} {S : ISys} (h : SysInv B lo hi todo0 S) (hf : Fine S.started) :
    S.store.start_ = lo ∧ S.store.end_ = hi ∧ (S.lock = none → S.store.poisoned = false) := by
  have hst := h.lin.store
  rcases hl : S.lock with _ | ⟨t, w, pr⟩
  · rw [hl] at hst
    simp only at hst
    rw [h.lin.chunk B] at hst
    have e2 : S.started = S.finished.map (·.2.1) := by unfold Sys.started; rw [hl]; simp
    have hr := kit_rep B lo hi hf
    rw [e2] at hr
    change ChunkRep _ _ _ _ (chunkOf B lo hi _) at hr
    rw [← hst] at hr
    exact ⟨hr.start_, hr.end_, fun _ => hr.ok⟩
  · have e2 : S.started = S.finished.map (·.2.1) ++ [w] := by unfold Sys.started; rw [hl]
    obtain ⟨n, hn, -⟩ := h.lin.partial_ t w pr hl
    rw [h.lin.chunk B] at hn
    rw [e2] at hf
    obtain ⟨hr1, hr2, hcr⟩ := kitInsert_reps B lo hi hf
    have hcr := hcr n
    unfold chunkOf at hn
    rw [hn] at hcr
    exact ⟨by rw [hcr.start_]; exact hr1.start_, by rw [hcr.end_]; exact hr1.end_, by simp⟩

theorem SysInv.result {B : Kit} {lo hi : U64} {todo0 : Nat → Inserts} {S : ISys} (h : SysInv B lo hi todo0 S) (hf : Fine S.started)
    {t : Nat} {w : Labels × TimePoint} {r : Res Unit} (hl : S.lock = some (t, w, .ret r)) :
    r = if inside lo hi w.2 then .ok () else .err (.outOfRange lo hi) := by
  have hst := h.lin.store
  rw [hl] at hst
  simp only at hst
  rw [h.lin.chunk B, kitInsert_run B] at hst
  simp only [Proc.run] at hst
  have e2 : S.started = S.finished.map (·.2.1) ++ [w] := by unfold Sys.started; rw [hl]
  rw [e2] at hf
  have hr := kit_rep B lo hi hf.prefix
  have hlen : (insideOnly lo hi (S.finished.map (·.2.1))).length + 1 < 2 ^ 64 - 1 := by
    have h1 := hf.prefix.len
    have h2 : (insideOnly lo hi (S.finished.map (·.2.1))).length ≤ (S.finished.map (·.2.1)).length := List.length_filter_le _ _
    omega
  have hi := hr.insert hlen (hf.wf w (by simp)) w.2
  change (r, S.store) = Chunk.insert (kitComp B) ((newSled lo _).insertAll (kitComp B) _) w.1 w.2 at hst
  rw [← hst] at hi
  split at hi
  · rename_i hin; rw [if_pos hin]; exact hi.1
  · rename_i hin; rw [if_neg hin]; exact (Prod.ext_iff.mp hi).1

/-! ### Phases -/

/-- The phase holds the read lock of the current chunk. -/
def fHoldsCur : Option FPhase → Bool
  | some (.writing ..) => true
  | some (.inserting ..) => true
  | some (.q1 ..) => true
  | some (.reading1 ..) => true
  | some (.s1 ..) => true
  | _ => false

/-- The swap has pushed the current chunk. -/
def fIsS2 : Option FPhase → Bool
  | some (.s2 ..) => true
  | _ => false
def fIsSwap : Option FPhase → Bool
  | some (.s1 ..) => true
  | some (.s2 ..) => true
  | _ => false

/-- The insert under way. -/
def insOf : Option FPhase → Option (Labels × TimePoint)
  | some (.inserting ls _ p _ _) => some (ls, p)
  | _ => none

/-- The points of the call under way that are not yet begun. -/
def fPhasePoints : Option FPhase → Inserts
  | some (.writing ls _ rest _) => rest.map fun p => (ls, p)
  | some (.inserting ls _ _ rest _) => rest.map fun p => (ls, p)
  | _ => []

/-- What a query has left to read. -/
def fReads : Option FPhase → Option (Proc SChunk (Res (List Series)))
  | some (.reading1 _ _ _ p) => some p
  | some (.reading3 _ _ _ _ _ _ p) => some p
  | _ => none

/-- The window of a chunk. -/
def fWin (chunks : List FChunk) (i : Nat) : Option (U64 × U64) := (chunks[i]?).map fun S => (S.store.start_, S.store.end_)
/-- The finished inserts of a chunk. -/
def fFin (chunks : List FChunk) (i : Nat) : Inserts := ((chunks[i]?).map fun S => S.finished.map (·.2.1)).getD []

/-- The number of points of a batch that are rejected: those on the edge of the window. -/
def edges (lo hi : U64) (ps : List TimePoint) : Nat := (ps.filter fun p => !inside lo hi p).length

/-- What holds of each thread. -/
structure FTInv (prog : List DbOp) (win : Nat → Option (U64 × U64)) (fin : Nat → Inserts) (current : Nat) (log : List Event) (u : Nat) (th : FThread) : Prop where
  todo : th.todo <:+ prog
  sub : byThread log u ++ (fPhasePoints th.now ++ progPoints th.todo) <+ progPoints prog
  writing : ∀ ls ps rest f, th.now = some (.writing ls ps rest f) → DbOp.write ls ps ∈ prog ∧ ∃ lo hi, win current = some (lo, hi) ∧
    ∃ pre, ps.filter (keepPoint lo hi) = pre ++ rest ∧ (∀ p ∈ pre, (ls, p) ∈ fin current) ∧ f = edges lo hi pre
  inserting : ∀ ls ps p rest f, th.now = some (.inserting ls ps p rest f) → DbOp.write ls ps ∈ prog ∧ ∃ lo hi, win current = some (lo, hi) ∧
    ∃ pre, ps.filter (keepPoint lo hi) = pre ++ p :: rest ∧ (∀ p ∈ pre, (ls, p) ∈ fin current) ∧ f = edges lo hi pre
  done : ∀ ls ps r lo hi, Out.wrote ls ps r lo hi ∈ th.done → DbOp.write ls ps ∈ prog ∧
    r = (if edges lo hi (ps.filter (keepPoint lo hi)) = 0 then .ok () else .err .internal) ∧
    ∃ i ≤ current, win i = some (lo, hi) ∧ ∀ p ∈ ps.filter (keepPoint lo hi), (ls, p) ∈ fin i
  swaps : u ≠ 0 → fIsSwap th.now = false
  ro : ∀ p, fReads th.now = some p → ReadOnly p

/-- The invariant after at most `n` steps of a database opened on the older chunks `F`. -/
structure FInv (F : List SChunk) (B : Kit) (progs : Nat → List DbOp) (n : Nat) (c : FConf) : Prop where
  len : c.chunks.length = c.current + 1
  sec : c.secondary = List.range (if fIsS2 (c.threads 0).now then c.current + 1 else c.current)
  curR : ∀ t, t ∈ c.curR ↔ fHoldsCur (c.threads t).now = true
  base : F.length ≤ c.current
  froz : ∀ (i : Nat) (s : SChunk), F[i]? = some s → c.chunks[i]? = some (Sys.init s fun _ => [])
  sys : ∀ (i : Nat) (S : FChunk), c.chunks[i]? = some S → F.length ≤ i → ∃ todo0, SysInv B S.store.start_ S.store.end_ todo0 S
  started : ∀ (i : Nat) (S : FChunk), c.chunks[i]? = some S → S.started = histOf c.log i
  lock : ∀ (i : Nat) (S : FChunk), c.chunks[i]? = some S → ∀ u w, (∃ pr, S.lock = some (u, w, pr)) ↔ (i = c.current ∧ insOf (c.threads u).now = some w)
  ev : ∀ e ∈ c.log, WFSet e.labels ∧ e.chunk ≤ c.current
  own : ∀ e ∈ c.log, ∃ ps, DbOp.write e.labels ps ∈ progs e.thread ∧ e.point ∈ ps
  count : c.log.length ≤ n
  thr : ∀ u, FTInv (progs u) (fWin c.chunks) (fFin c.chunks) c.current c.log u (c.threads u)

theorem FInv.getCur {B : Kit} {progs : Nat → List DbOp} {n : Nat} {c : FConf} (h : FInv F B progs n c) : ∃ S, c.chunks[c.current]? = some S := by
  have : c.current < c.chunks.length := by rw [h.len]; omega
  exact ⟨c.chunks[c.current], List.getElem?_eq_getElem this⟩

theorem FInv.fine {B : Kit} {progs : Nat → List DbOp} {n : Nat} {c : FConf} (h : FInv F B progs n c) (hb : n + 1 < 2 ^ 64 - 1) (i : Nat) :
    Fine (histOf c.log i) := by
  refine ⟨?_, by have := histOf_length c.log i; have := h.count; omega⟩
  intro w hw
  obtain ⟨e, he, rfl⟩ := List.mem_map.mp hw
  exact (h.ev e (List.mem_of_mem_filter he)).1

theorem set_self {α : Type} {l : List α} {i : Nat} {x : α} (h : l[i]? = some x) : l.set i x = l := by
  apply List.ext_getElem?
  intro j
  rw [List.getElem?_set]
  by_cases hij : i = j
  · subst hij
    have : i < l.length := by
      by_contra hge
      rw [List.getElem?_eq_none (by omega)] at h; cases h
    rw [if_pos rfl, if_pos this, h]
  · simp [hij]

theorem FTInv.mono {prog : List DbOp} {win win' : Nat → Option (U64 × U64)} {fin fin' : Nat → Inserts} {current : Nat} {log log' : List Event} {u : Nat} {th : FThread}
    (h : FTInv prog win fin current log u th) (hw : win' = win) (hf : ∀ i, ∀ x ∈ fin i, x ∈ fin' i) (hl : byThread log' u = byThread log u) :
    FTInv prog win' fin' current log' u th := by
  subst hw
  refine ⟨h.todo, by rw [hl]; exact h.sub, ?_, ?_, ?_, h.swaps, h.ro⟩
  · intro ls ps rest f hn
    obtain ⟨h1, lo, hi, h2, pre, h3, h4, h5⟩ := h.writing ls ps rest f hn
    exact ⟨h1, lo, hi, h2, pre, h3, fun p hp => hf _ _ (h4 p hp), h5⟩
  · intro ls ps p rest f hn
    obtain ⟨h1, lo, hi, h2, pre, h3, h4, h5⟩ := h.inserting ls ps p rest f hn
    exact ⟨h1, lo, hi, h2, pre, h3, fun p hp => hf _ _ (h4 p hp), h5⟩
  · intro ls ps r lo hi hd
    obtain ⟨h1, h0, i, hle, h2, h3⟩ := h.done ls ps r lo hi hd
    exact ⟨h1, h0, i, hle, h2, fun p hp => hf _ _ (h3 p hp)⟩

theorem fWin_set {chunks : List FChunk} {j : Nat} {S S' : FChunk} (hk : chunks[j]? = some S) (h1 : S'.store.start_ = S.store.start_)
    (h2 : S'.store.end_ = S.store.end_) : fWin (chunks.set j S') = fWin chunks := by
  funext i
  unfold fWin
  rw [List.getElem?_set]
  by_cases hij : j = i
  · subst hij
    have hlt : j < chunks.length := by
      by_contra hge
      rw [List.getElem?_eq_none (by omega)] at hk; cases hk
    rw [hk]; simp [hlt, h1, h2]
  · simp [hij]

theorem fFin_set {chunks : List FChunk} {j : Nat} {S S' : FChunk} (hk : chunks[j]? = some S) (h1 : S.finished <+: S'.finished) (i : Nat) :
    ∀ x ∈ fFin chunks i, x ∈ fFin (chunks.set j S') i := by
  unfold fFin
  rw [List.getElem?_set]
  by_cases hij : j = i
  · subst hij
    have hlt : j < chunks.length := by
      by_contra hge
      rw [List.getElem?_eq_none (by omega)] at hk; cases hk
    rw [hk]
    simp only [hlt, if_true, Option.map_some, Option.getD_some]
    intro x hx
    exact (h1.map _).subset hx
  · simp [hij]

theorem byThread_other {log es : List Event} {u : Nat} (h : ∀ e ∈ es, e.thread ≠ u) : byThread (log ++ es) u = byThread log u := by
  unfold byThread
  rw [List.filter_append, (List.filter_eq_nil_iff (l := es)).mpr (by intro e he; simpa using h e he), List.append_nil]

theorem histOf_other {log es : List Event} {i : Nat} (h : ∀ e ∈ es, e.chunk ≠ i) : histOf (log ++ es) i = histOf log i := by
  unfold histOf
  rw [List.filter_append, (List.filter_eq_nil_iff (l := es)).mpr (by intro e he; simpa using h e he), List.append_nil]

theorem histOf_these {log es : List Event} {i : Nat} (h : ∀ e ∈ es, e.chunk = i) :
    histOf (log ++ es) i = histOf log i ++ es.map fun e => (e.labels, e.point) := by
  unfold histOf
  rw [List.filter_append, (List.filter_eq_self (l := es)).mpr (by intro e he; simpa using h e he), List.map_append]

/-- Thread `t` steps and changes the current chunk. -/
theorem FInv.update {B : Kit} {progs : Nat → List DbOp} {n : Nat} {c : FConf} (h : FInv F B progs n c) (t : Nat) (th : FThread) {S S' : FChunk}
    (hS : c.chunks[c.current]? = some S) (es : List Event) (c' : FConf)
    (e1 : c'.chunks = c.chunks.set c.current S') (e2 : c'.current = c.current) (e3 : c'.log = c.log ++ es)
    (hth : c'.threads = fun u => if u = t then th else c.threads u)
    (hsec : c'.secondary = List.range (if fIsS2 (c'.threads 0).now then c.current + 1 else c.current))
    (hcur : ∀ u, u ∈ c'.curR ↔ fHoldsCur (c'.threads u).now = true)
    (hes : ∀ e ∈ es, e.thread = t ∧ e.chunk = c.current ∧ WFSet e.labels ∧ ∃ ps, DbOp.write e.labels ps ∈ progs t ∧ e.point ∈ ps)
    (hcount : es.length ≤ 1)
    (hwin : S'.store.start_ = S.store.start_ ∧ S'.store.end_ = S.store.end_)
    (hsys : ∃ todo0, SysInv B S.store.start_ S.store.end_ todo0 S')
    (hstarted : S'.started = S.started ++ es.map fun e => (e.labels, e.point))
    (hfin : S.finished <+: S'.finished)
    (hlock : ∀ u w, (∃ pr, S'.lock = some (u, w, pr)) ↔ insOf (c'.threads u).now = some w)
    (hT : FTInv (progs t) (fWin c.chunks) (fFin c'.chunks) c.current (c.log ++ es) t th) : FInv F B progs (n + 1) c' := by
  have hlt : c.current < c.chunks.length := by rw [h.len]; omega
  have hget : ∀ i X, c'.chunks[i]? = some X → (i = c.current ∧ X = S') ∨ (i ≠ c.current ∧ c.chunks[i]? = some X) := by
    intro i X hX
    rw [e1, List.getElem?_set] at hX
    by_cases hi : c.current = i
    · subst hi
      simp only [hlt, if_true, Option.some.injEq] at hX
      exact Or.inl ⟨rfl, hX.symm⟩
    · simp only [hi, if_false] at hX
      exact Or.inr ⟨fun e => hi e.symm, hX⟩
  have hw : fWin c'.chunks = fWin c.chunks := by rw [e1]; exact fWin_set hS hwin.1 hwin.2
  refine ⟨by rw [e1, e2, List.length_set]; exact h.len, by rw [e2]; exact hsec, hcur, by rw [e2]; exact h.base, ?_, ?_, ?_, ?_, ?_, ?_, ?_, ?_⟩
  · intro i s hs
    have hi : i < F.length := (List.getElem?_eq_some_iff.mp hs).1
    have := h.base
    rw [e1, List.getElem?_set_ne (by omega)]
    exact h.froz i s hs
  · intro i X hX hi
    rcases hget i X hX with ⟨rfl, rfl⟩ | ⟨-, hX⟩
    · rw [hwin.1, hwin.2]; exact hsys
    · exact h.sys i X hX hi
  · intro i X hX
    rcases hget i X hX with ⟨rfl, rfl⟩ | ⟨hi, hX⟩
    · rw [e3, hstarted, h.started _ _ hS, histOf_these fun e he => (hes e he).2.1]
    · rw [e3, histOf_other fun e he => by rw [(hes e he).2.1]; exact fun e => hi e.symm]
      exact h.started i X hX
  · intro i X hX u w
    rw [e2]
    rcases hget i X hX with ⟨rfl, rfl⟩ | ⟨hi, hX⟩
    · rw [hlock u w]; simp
    · rw [h.lock i X hX u w]; simp [hi]
  · intro e he
    rw [e3] at he
    rw [e2]
    rcases List.mem_append.mp he with he | he
    · exact h.ev e he
    · exact ⟨(hes e he).2.2.1, by rw [(hes e he).2.1]⟩
  · intro e he
    rw [e3] at he
    rcases List.mem_append.mp he with he | he
    · exact h.own e he
    · rw [(hes e he).1]; exact (hes e he).2.2.2
  · rw [e3, List.length_append]; have := h.count; omega
  · intro u
    rw [hth, e2, e3, hw]
    by_cases hu : u = t
    · subst hu; simp only [if_true]; exact hT
    · simp only [hu, if_false]
      refine (h.thr u).mono rfl ?_ (byThread_other fun e he => by rw [(hes e he).1]; exact fun e => hu e.symm)
      rw [e1]; exact fFin_set hS hfin

/-- Thread `t` steps and changes nothing but itself and the locks. -/
theorem FInv.move {B : Kit} {progs : Nat → List DbOp} {n : Nat} {c : FConf} (h : FInv F B progs n c) (t : Nat) (th : FThread)
    (c' : FConf) (e1 : c'.chunks = c.chunks) (e2 : c'.current = c.current) (e3 : c'.log = c.log)
    (hth : c'.threads = fun u => if u = t then th else c.threads u)
    (hsec : c'.secondary = List.range (if fIsS2 (c'.threads 0).now then c.current + 1 else c.current))
    (hcur : ∀ u, u ∈ c'.curR ↔ fHoldsCur (c'.threads u).now = true)
    (hi0 : insOf (c.threads t).now = none) (hi1 : insOf th.now = none)
    (hT : FTInv (progs t) (fWin c.chunks) (fFin c.chunks) c.current c.log t th) : FInv F B progs (n + 1) c' := by
  obtain ⟨S, hS⟩ := h.getCur
  refine h.update t th hS [] c' (by rw [e1, set_self hS]) e2 (by rw [e3, List.append_nil]) hth hsec hcur (by simp) (by simp) ⟨rfl, rfl⟩
    (h.sys _ _ hS h.base) (by simp) (List.prefix_refl _) ?_ (by rw [e1, List.append_nil]; exact hT)
  intro u w
  rw [h.lock _ _ hS u w, hth]
  by_cases hu : u = t
  · subst hu; simp [hi0, hi1]
  · simp [hu]

theorem FInv.same {B : Kit} {progs : Nat → List DbOp} {n : Nat} {c : FConf} (h : FInv F B progs n c) : FInv F B progs (n + 1) c :=
  ⟨h.len, h.sec, h.curR, h.base, h.froz, h.sys, h.started, h.lock, h.ev, h.own, by have := h.count; omega, h.thr⟩

theorem fcur_add {curR : List Nat} {threads : Nat → FThread} {t : Nat} (h : ∀ u, u ∈ curR ↔ fHoldsCur (threads u).now = true) {th : FThread}
    (hth : fHoldsCur th.now = true) (u : Nat) : u ∈ t :: curR ↔ fHoldsCur (if u = t then th else threads u).now = true := by
  by_cases hu : u = t
  · simp [hu, hth]
  · simp [hu, h u]

theorem fcur_same {curR : List Nat} {threads : Nat → FThread} {t : Nat} (h : ∀ u, u ∈ curR ↔ fHoldsCur (threads u).now = true) {th : FThread}
    (hth : fHoldsCur th.now = fHoldsCur (threads t).now) (u : Nat) : u ∈ curR ↔ fHoldsCur (if u = t then th else threads u).now = true := by
  by_cases hu : u = t
  · rw [if_pos hu, hth, hu]; exact h t
  · rw [if_neg hu]; exact h u

theorem fcur_drop {curR : List Nat} {threads : Nat → FThread} {t : Nat} (h : ∀ u, u ∈ curR ↔ fHoldsCur (threads u).now = true) {th : FThread}
    (hth : fHoldsCur th.now = false) (u : Nat) : u ∈ curR.filter (· ≠ t) ↔ fHoldsCur (if u = t then th else threads u).now = true := by
  by_cases hu : u = t
  · simp [hu, hth]
  · simp [hu, h u]

theorem FInv.sec_same {B : Kit} {progs : Nat → List DbOp} {n : Nat} {c : FConf} (h : FInv F B progs n c) {t : Nat} {th : FThread}
    (hth : fIsS2 th.now = false) (ho : fIsS2 (c.threads t).now = false) :
    c.secondary = List.range (if fIsS2 (if 0 = t then th else c.threads 0).now then c.current + 1 else c.current) := by
  rw [h.sec]
  by_cases h0 : 0 = t
  · rw [if_pos h0, hth]; subst h0; rw [ho]
  · rw [if_neg h0]

theorem FInv.startOn (F : List SChunk) (B : Kit) (progs : Nat → List DbOp) (lo hi : U64) : FInv F B progs 0 (FConf.startOn F lo hi progs) := by
  have hone : ∀ (i : Nat) (S : FChunk), (FConf.startOn F lo hi progs).chunks[i]? = some S → (i < F.length ∧ ∃ s, F[i]? = some s ∧ S = Sys.init s fun _ => []) ∨
      (i = F.length ∧ S = Sys.init (newSled lo hi) fun _ => []) := by
    intro i S hS
    simp only [FConf.startOn] at hS
    by_cases hi : i < F.length
    · rw [List.getElem?_append_left (by simpa using hi), List.getElem?_map, List.getElem?_eq_getElem hi] at hS
      simp only [Option.map_some, Option.some.injEq] at hS
      exact Or.inl ⟨hi, _, List.getElem?_eq_getElem hi, hS.symm⟩
    · rw [List.getElem?_append_right (by simpa using hi), List.length_map] at hS
      rcases hd : i - F.length with _ | k
      · rw [hd] at hS
        simp only [List.getElem?_cons_zero, Option.some.injEq] at hS
        exact Or.inr ⟨by omega, hS.symm⟩
      · rw [hd] at hS; simp at hS
  have hst : ∀ (i : Nat) (S : FChunk), (FConf.startOn F lo hi progs).chunks[i]? = some S → ∃ s, S = Sys.init s fun _ => [] := by
    intro i S hS
    rcases hone i S hS with ⟨-, s, -, e⟩ | ⟨-, e⟩
    · exact ⟨s, e⟩
    · exact ⟨_, e⟩
  refine ⟨by simp [FConf.startOn], by simp [FConf.startOn, fIsS2], fun t => by simp [FConf.startOn, fHoldsCur], le_refl _, ?_, ?_, ?_, ?_,
    by simp [FConf.startOn], by simp [FConf.startOn], by simp [FConf.startOn], ?_⟩
  · intro i s hs
    have hi : i < F.length := (List.getElem?_eq_some_iff.mp hs).1
    simp only [FConf.startOn]
    rw [List.getElem?_append_left (by simpa using hi), List.getElem?_map, hs]; rfl
  · intro i S hS hge
    rcases hone i S hS with ⟨h, -⟩ | ⟨-, rfl⟩
    · omega
    · exact ⟨_, SysInv.init B lo hi _⟩
  · intro i S hS
    obtain ⟨s, rfl⟩ := hst i S hS
    simp [Sys.started, Sys.init, FConf.startOn, histOf]
  · intro i S hS u w
    obtain ⟨s, rfl⟩ := hst i S hS
    simp [Sys.init, FConf.startOn, insOf]
  · intro u
    refine ⟨List.suffix_refl _, ?_, by simp [FConf.startOn], by simp [FConf.startOn], by simp [FConf.startOn], by simp [FConf.startOn, fIsSwap], by simp [FConf.startOn, fReads]⟩
    simp [FConf.startOn, byThread, fPhasePoints]

theorem FInv.start (B : Kit) (progs : Nat → List DbOp) (lo hi : U64) : FInv [] B progs 0 (FConf.start lo hi progs) := FInv.startOn [] B progs lo hi

end Verif
