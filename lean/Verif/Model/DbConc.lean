import Verif.Model.Db
/-! The database used by any number of threads at once (src/db.rs:176-318): write batches, queries and chunk swaps, at the
granularity of lock operations and chunk calls. -/
namespace Verif

/-- A call made by a thread. Swaps are made by the background thread only (src/db.rs:97-100). -/
inductive DbOp where
  | write (ls : Labels) (ps : List TimePoint)
  | query (q : Labels) (a b : U64)
  | swap (lo hi : U64)
deriving DecidableEq

/-- Where a thread is inside a call. -/
inductive Phase where
  /-- `write_time_points` holding the read lock of the current chunk, with these points left to insert and this number of
  failures (src/db.rs:177-187) -/
  | writing (ls : Labels) (ps rest : List TimePoint) (fails : Nat)
  /-- `query` holding the read lock of the current chunk (src/db.rs:213) -/
  | q1 (q : Labels) (a b : U64)
  /-- `query` between its two sections (src/db.rs:224-226) -/
  | q2 (q : Labels) (a b : U64) (m : HMap)
  /-- `query` holding the read lock of the older chunks, with these chunks left to visit (src/db.rs:227-252) -/
  | q3 (q : Labels) (a b : U64) (ids : List Nat) (m : HMap)
  /-- `swap` holding the read lock of the current chunk (src/db.rs:307) -/
  | s1 (lo hi : U64)
  /-- `swap` after the push (src/db.rs:309-310) -/
  | s2 (lo hi : U64)

/-- A finished call with its result. For a write also the window of the chunk it went to (history variable). -/
inductive Out where
  | wrote (ls : Labels) (ps : List TimePoint) (r : Res Unit) (lo hi : U64)
  | answered (q : Labels) (a b : U64) (r : Res (List (Labels × List TimePoint)))
  | swapped (lo hi : U64)
deriving DecidableEq

/-- A thread: calls to make, the call being made, finished calls. -/
structure Thread where
  todo : List DbOp
  now : Option Phase
  done : List Out

/-- An accepted insert: thread, chunk, labels, point. -/
structure Event where
  thread : Nat
  chunk : Nat
  labels : Labels
  point : TimePoint
deriving DecidableEq

/-- The shared state. Chunks are referred to by their number in order of creation (`Arc<Chunk>`); `curR` and `secR` are the
threads holding the read locks of the two fields of src/db.rs:27-28 (write locks are held within one step only). `log` is a
history variable: the accepted inserts in order; no step reads it. -/
structure Conf (σ : Type) where
  heap : List (Chunk σ)
  current : Nat
  secondary : List Nat
  curR : List Nat
  secR : List Nat
  threads : Nat → Thread
  log : List Event

/-- Change one thread. -/
def Conf.setThread {σ : Type} (c : Conf σ) (t : Nat) (th : Thread) : Conf σ := { c with threads := fun u => if u = t then th else c.threads u }

/-- The call of thread `t` returns. -/
def Conf.finish {σ : Type} (c : Conf σ) (t : Nat) (o : Out) : Conf σ :=
  c.setThread t { c.threads t with now := none, done := (c.threads t).done ++ [o] }

/-- Thread `t` goes on to another place of its call. -/
def Conf.goto {σ : Type} (c : Conf σ) (t : Nat) (ph : Phase) : Conf σ := c.setThread t { c.threads t with now := some ph }

/-- Release the read lock of the current chunk. -/
def Conf.dropCur {σ : Type} (c : Conf σ) (t : Nat) : Conf σ := { c with curR := c.curR.filter (· ≠ t) }
/-- Release the read lock of the older chunks. -/
def Conf.dropSec {σ : Type} (c : Conf σ) (t : Nat) : Conf σ := { c with secR := c.secR.filter (· ≠ t) }

/-- A call begins: all three take the read lock of the current chunk first (src/db.rs:177-183, 213, 307). The filter of
`write_time_points` runs lazily in the program; its result does not depend on when. -/
def Conf.begin {σ : Type} (c : Conf σ) (t : Nat) : Conf σ :=
  match (c.threads t).todo, c.heap[c.current]? with
  | op :: todo, some k =>
    let c' := (c.setThread t { c.threads t with todo := todo })
    let c'' := { c' with curR := t :: c.curR }
    match op with
    | .write ls ps => c''.goto t (.writing ls ps (ps.filter (keepPoint k.start_ k.end_)) 0)
    | .query q a b => c''.goto t (.q1 q a b)
    | .swap lo hi => c''.goto t (.s1 lo hi)
  | _, _ => c

/-- One insert of a batch, or the end of the batch (src/db.rs:184-193). `Chunk::insert` is one step: it runs under the
chunk's own write lock. -/
def Conf.stepWrite {σ : Type} (C : Comp σ) (c : Conf σ) (t : Nat) (ls : Labels) (ps rest : List TimePoint) (fails : Nat) : Conf σ :=
  match c.heap[c.current]? with
  | none => c
  | some k =>
    match rest with
    | [] => (c.dropCur t).finish t (.wrote ls ps (if fails = 0 then .ok () else .err .internal) k.start_ k.end_)
    | p :: rest =>
      match k.insert C ls p with
      | (.ok (), k') => ({ c with heap := c.heap.set c.current k', log := c.log ++ [⟨t, c.current, ls, p⟩] } : Conf σ).goto t (.writing ls ps rest fails)
      | (.err _, k') => ({ c with heap := c.heap.set c.current k' } : Conf σ).goto t (.writing ls ps rest (fails + 1))
      | (.panic, k') => (({ c with heap := c.heap.set c.current k' } : Conf σ).dropCur t).finish t (.wrote ls ps .panic k.start_ k.end_)

/-- The first section of `query` (src/db.rs:213-223). `Chunk::query` is one step here; its own steps are the subject of C33. -/
def Conf.stepQ1 {σ : Type} (C : Comp σ) (H : Hash) (c : Conf σ) (t : Nat) (q : Labels) (a b : U64) : Conf σ :=
  match c.heap[c.current]? with
  | none => c
  | some k =>
    match queryCurrent H (k.view C) q a b with
    | none => (c.dropCur t).finish t (.answered q a b .panic)
    | some m => (c.dropCur t).goto t (.q2 q a b m)

/-- One chunk of the second section of `query`, or the collection of the result (src/db.rs:228-266). -/
def Conf.stepQ3 {σ : Type} (C : Comp σ) (H : Hash) (c : Conf σ) (t : Nat) (q : Labels) (a b : U64) (ids : List Nat) (m : HMap) : Conf σ :=
  match ids with
  | [] => (c.dropSec t).finish t (.answered q a b (Res.ofPanic (collectKeys H m (H.order (m.map (·.1))))))
  | i :: ids =>
    match c.heap[i]? with
    | none => c
    | some k =>
      match querySecondary H q a b [k.view C] m with
      | none => (c.dropSec t).finish t (.answered q a b .panic)
      | some m' => c.goto t (.q3 q a b ids m')

/-- The second section of `swap` (src/db.rs:310-316): waits until nobody reads the current chunk, closes it and replaces it by
a chunk on the empty store `fresh`. A panic of `close` (poisoned chunk) is not modelled here; see C70. -/
def Conf.stepS2 {σ : Type} (fresh : σ) (c : Conf σ) (t : Nat) (lo hi : U64) : Conf σ :=
  if c.curR ≠ [] then c
  else
    match c.heap[c.current]? with
    | none => c
    | some k =>
      ({ c with heap := c.heap.set c.current k.close.2 ++ [Chunk.new fresh lo hi], current := c.heap.length } : Conf σ).finish t (.swapped lo hi)

/-- One step of thread `t`. A thread that has to wait for a lock does nothing. -/
def Conf.step {σ : Type} (C : Comp σ) (H : Hash) (fresh : σ) (c : Conf σ) (t : Nat) : Conf σ :=
  match (c.threads t).now with
  | none => c.begin t
  | some (.writing ls ps rest fails) => c.stepWrite C t ls ps rest fails
  | some (.q1 q a b) => c.stepQ1 C H t q a b
  | some (.q2 q a b m) => ({ c with secR := t :: c.secR } : Conf σ).goto t (.q3 q a b c.secondary.reverse m)
  | some (.q3 q a b ids m) => c.stepQ3 C H t q a b ids m
  | some (.s1 lo hi) =>
    if c.secR ≠ [] then c
    else (({ c with secondary := c.secondary ++ [c.current] } : Conf σ).dropCur t).goto t (.s2 lo hi)
  | some (.s2 lo hi) => c.stepS2 fresh t lo hi

/-- Any schedule. -/
def Conf.run {σ : Type} (C : Comp σ) (H : Hash) (fresh : σ) (c : Conf σ) (sched : List Nat) : Conf σ := sched.foldl (fun c t => c.step C H fresh t) c

/-- `RwLock` may or may not let a new reader in while a writer waits (it is left to the platform). A policy says which threads
are held back, in every state. -/
abbrev LockPolicy (σ : Type) := Conf σ → Nat → Bool

/-- Thread `t` is about to take a read lock for which a swap waits as a writer (src/db.rs:308, 311). -/
def Conf.overtakes {σ : Type} (c : Conf σ) (t : Nat) : Prop :=
  ((c.threads t).now = none ∧ ∃ u lo hi, (c.threads u).now = some (.s2 lo hi)) ∨
  ((∃ q a b m, (c.threads t).now = some (.q2 q a b m)) ∧ ∃ u lo hi, (c.threads u).now = some (.s1 lo hi))

/-- One step of thread `t` under a policy. -/
def Conf.stepUnder {σ : Type} (W : LockPolicy σ) (C : Comp σ) (H : Hash) (fresh : σ) (c : Conf σ) (t : Nat) : Conf σ :=
  if W c t then c else c.step C H fresh t

/-- Any schedule under a policy. -/
def Conf.runUnder {σ : Type} (W : LockPolicy σ) (C : Comp σ) (H : Hash) (fresh : σ) (c : Conf σ) (sched : List Nat) : Conf σ :=
  sched.foldl (fun c t => c.stepUnder W C H fresh t) c

/-- A new database with window `[lo, hi]`, and the calls of every thread. -/
def Conf.start {σ : Type} (fresh : σ) (lo hi : U64) (progs : Nat → List DbOp) : Conf σ :=
  ⟨[Chunk.new fresh lo hi], 0, [], [], [], fun t => ⟨progs t, none, []⟩, []⟩

end Verif
