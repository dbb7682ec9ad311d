import Verif.Model.DbConc
import Verif.Model.Traffic
/-! The database used by any number of threads at once (src/db.rs:176-318), at the granularity of single store operations: between any two
of them another thread may run. -/
namespace Verif

/-- A chunk shared by threads: its state, the thread that holds its write lock with its insert and what is left of it, and, for stating
properties only, the finished inserts. `todo` is not used here. -/
abbrev FChunk := Sys SChunk (Labels × TimePoint) (Res Unit)

/-- Where a thread is inside a call. -/
inductive FPhase where
  /-- `write_time_points` between two inserts, holding the read lock of the current chunk (src/db.rs:177-187) -/
  | writing (ls : Labels) (ps rest : List TimePoint) (fails : Nat)
  /-- inside `Chunk::insert` of `p`, holding the write lock of the chunk (src/chunk/chunk.rs:110-137) -/
  | inserting (ls : Labels) (ps : List TimePoint) (p : TimePoint) (rest : List TimePoint) (fails : Nat)
  /-- `query` holding the read lock of the current chunk, before it has got the chunk's own lock (src/db.rs:213-214) -/
  | q1 (q : Labels) (a b : U64)
  /-- inside `Chunk::query` of the current chunk; `p` is what is left to do (src/chunk/chunk.rs:148-161) -/
  | reading1 (q : Labels) (a b : U64) (p : Proc SChunk (Res (List Series)))
  /-- `query` between its two sections (src/db.rs:224-226) -/
  | q2 (q : Labels) (a b : U64) (m : HMap)
  /-- `query` holding the read lock of the older chunks, with these chunks left to visit (src/db.rs:227-252) -/
  | q3 (q : Labels) (a b : U64) (ids : List Nat) (m : HMap)
  /-- inside `Chunk::query` of the older chunk `i` -/
  | reading3 (q : Labels) (a b : U64) (i : Nat) (ids : List Nat) (m : HMap) (p : Proc SChunk (Res (List Series)))
  /-- `swap` holding the read lock of the current chunk (src/db.rs:307) -/
  | s1 (lo hi : U64)
  /-- `swap` after the push (src/db.rs:309-310) -/
  | s2 (lo hi : U64)

/-- A thread: calls to make, the call being made, finished calls. -/
structure FThread where
  todo : List DbOp
  now : Option FPhase
  done : List Out

/-- The shared state, as `Conf`, with the chunks' own locks. `closed` are the chunks that have been closed (the field `closed` of
src/chunk/chunk.rs:79, which nothing reads). `log` is a history variable: the inserts in the order in which they began; no step reads it. -/
structure FConf where
  chunks : List FChunk
  closed : List Nat
  current : Nat
  secondary : List Nat
  curR : List Nat
  secR : List Nat
  threads : Nat → FThread
  log : List Event

/-- Change one thread. -/
def FConf.setThread (c : FConf) (t : Nat) (th : FThread) : FConf := { c with threads := fun u => if u = t then th else c.threads u }
/-- The call of thread `t` returns. -/
def FConf.finish (c : FConf) (t : Nat) (o : Out) : FConf := c.setThread t { c.threads t with now := none, done := (c.threads t).done ++ [o] }
/-- Thread `t` goes on to another place of its call. -/
def FConf.goto (c : FConf) (t : Nat) (ph : FPhase) : FConf := c.setThread t { c.threads t with now := some ph }
/-- Release the read lock of the current chunk. -/
def FConf.dropCur (c : FConf) (t : Nat) : FConf := { c with curR := c.curR.filter (· ≠ t) }
/-- Release the read lock of the older chunks. -/
def FConf.dropSec (c : FConf) (t : Nat) : FConf := { c with secR := c.secR.filter (· ≠ t) }
/-- Change one chunk. -/
def FConf.setChunk (c : FConf) (i : Nat) (S : FChunk) : FConf := { c with chunks := c.chunks.set i S }

/-- A call begins: all three take the read lock of the current chunk first (src/db.rs:177-183, 213, 307). -/
def FConf.begin (c : FConf) (t : Nat) : FConf :=
  match (c.threads t).todo, c.chunks[c.current]? with
  | op :: todo, some S =>
    let c' := { c.setThread t { c.threads t with todo := todo } with curR := t :: c.curR }
    match op with
    | .write ls ps => c'.goto t (.writing ls ps (ps.filter (keepPoint S.store.start_ S.store.end_)) 0)
    | .query q a b => c'.goto t (.q1 q a b)
    | .swap lo hi => c'.goto t (.s1 lo hi)
  | _, _ => c

/-- The next insert of a batch waits for the chunk's write lock and takes it (src/chunk/chunk.rs:115-117), or the batch ends
(src/db.rs:184-193). -/
def FConf.stepWriting (B : Kit) (c : FConf) (t : Nat) (ls : Labels) (ps rest : List TimePoint) (fails : Nat) : FConf :=
  match c.chunks[c.current]? with
  | none => c
  | some S =>
    match rest with
    | [] => (c.dropCur t).finish t (.wrote ls ps (if fails = 0 then .ok () else .err .internal) S.store.start_ S.store.end_)
    | p :: rest =>
      match S.lock with
      | some _ => c
      | none => ({ c.setChunk c.current { S with lock := some (t, (ls, p), (kitInsert B) (ls, p)) } with log := c.log ++ [⟨t, c.current, ls, p⟩] } : FConf).goto t
          (.inserting ls ps p rest fails)

/-- One step of an insert, or its end: release of the chunk's lock. If the insert panics the thread is lost; the write lock of the chunk has been
poisoned (`kitPanic`), the read lock of the current chunk is just released. -/
def FConf.stepInserting (c : FConf) (t : Nat) (ls : Labels) (ps : List TimePoint) (rest : List TimePoint) (fails : Nat) : FConf :=
  match c.chunks[c.current]? with
  | none => c
  | some S =>
    match S.lock with
    | none => c
    | some (h, w, pr) =>
      if h = t then
        match pr with
        | .act u k => c.setChunk c.current { S with store := u S.store, lock := some (t, w, k S.store) }
        | .ret r =>
          let c' := c.setChunk c.current { S with lock := none, finished := S.finished ++ [(t, w, r)] }
          match r with
          | .ok () => c'.goto t (.writing ls ps rest fails)
          | .err _ => c'.goto t (.writing ls ps rest (fails + 1))
          | .panic => (c'.dropCur t).finish t (.wrote ls ps .panic S.store.start_ S.store.end_)
      else c

/-- What is left of `Chunk::query` when it has got the chunk's read lock, for which no insert may be under way, and released it again; it
panics on a poisoned lock (src/chunk/chunk.rs:145-147). -/
def FChunk.beginQuery (B : Kit) (S : FChunk) (q : Labels) (a b : U64) : Option (Proc SChunk (Res (List Series))) :=
  match S.lock with
  | some _ => none
  | none => some (if S.store.poisoned then .ret .panic else kitQuery B q a b)

/-- The query of the current chunk begins (src/db.rs:214). -/
def FConf.stepQ1 (B : Kit) (c : FConf) (t : Nat) (q : Labels) (a b : U64) : FConf :=
  match c.chunks[c.current]? with
  | none => c
  | some S =>
    match FChunk.beginQuery B S q a b with
    | none => c
    | some p => c.goto t (.reading1 q a b p)

/-- A chunk as the database sees it after its query has returned `r`. -/
def viewOf (r : Res (List Series)) : View := ⟨fun _ _ _ => r, fun _ _ => true⟩

/-- One read of the query of the current chunk, or its end (src/db.rs:214-224). -/
def FConf.stepReading1 (H : Hash) (c : FConf) (t : Nat) (q : Labels) (a b : U64) : Proc SChunk (Res (List Series)) → FConf
  | .act u k =>
    match c.chunks[c.current]? with
    | none => c
    | some S => (c.setChunk c.current { S with store := u S.store }).goto t (.reading1 q a b (k S.store))
  | .ret r =>
    match queryCurrent H (viewOf r) q a b with
    | none => (c.dropCur t).finish t (.answered q a b .panic)
    | some m => (c.dropCur t).goto t (.q2 q a b m)

/-- The next older chunk: skipped if its window is disjoint from the range, else its query begins; or the collection of the result
(src/db.rs:228-266). -/
def FConf.stepQ3 (B : Kit) (H : Hash) (c : FConf) (t : Nat) (q : Labels) (a b : U64) (ids : List Nat) (m : HMap) : FConf :=
  match ids with
  | [] => (c.dropSec t).finish t (.answered q a b (Res.ofPanic (collectKeys H m (H.order (m.map (·.1))))))
  | i :: ids =>
    match c.chunks[i]? with
    | none => c
    | some S =>
      if S.store.isWithRange a b then
        match FChunk.beginQuery B S q a b with
        | none => c
        | some p => c.goto t (.reading3 q a b i ids m p)
      else c.goto t (.q3 q a b ids m)

/-- One read of the query of an older chunk, or its end (src/db.rs:232-251). -/
def FConf.stepReading3 (H : Hash) (c : FConf) (t : Nat) (q : Labels) (a b : U64) (i : Nat) (ids : List Nat) (m : HMap) : Proc SChunk (Res (List Series)) → FConf
  | .act u k =>
    match c.chunks[i]? with
    | none => c
    | some S => (c.setChunk i { S with store := u S.store }).goto t (.reading3 q a b i ids m (k S.store))
  | .ret r =>
    match querySecondary H q a b [viewOf r] m with
    | none => (c.dropSec t).finish t (.answered q a b .panic)
    | some m' => c.goto t (.q3 q a b ids m')

/-- The second section of `swap` (src/db.rs:310-316): waits until nobody reads the current chunk, closes it (which needs its write lock) and
replaces it by a new chunk. -/
def FConf.stepS2 (c : FConf) (t : Nat) (lo hi : U64) : FConf :=
  if c.curR ≠ [] then c
  else
    match c.chunks[c.current]? with
    | none => c
    | some S =>
      match S.lock with
      | some _ => c
      | none =>
        ({ c with
          chunks := c.chunks ++ [Sys.init (Chunk.new ⟨KV.empty, KV.empty⟩ lo hi) (fun _ => [])]
          closed := c.closed ++ [c.current]
          current := c.chunks.length } : FConf).finish t (.swapped lo hi)

/-- One step of thread `t`. A thread that has to wait for a lock does nothing. -/
def FConf.step (B : Kit) (H : Hash) (c : FConf) (t : Nat) : FConf :=
  match (c.threads t).now with
  | none => c.begin t
  | some (.writing ls ps rest fails) => c.stepWriting B t ls ps rest fails
  | some (.inserting ls ps _ rest fails) => c.stepInserting t ls ps rest fails
  | some (.q1 q a b) => c.stepQ1 B t q a b
  | some (.reading1 q a b p) => c.stepReading1 H t q a b p
  | some (.q2 q a b m) => ({ c with secR := t :: c.secR } : FConf).goto t (.q3 q a b c.secondary.reverse m)
  | some (.q3 q a b ids m) => c.stepQ3 B H t q a b ids m
  | some (.reading3 q a b i ids m p) => c.stepReading3 H t q a b i ids m p
  | some (.s1 lo hi) =>
    if c.secR ≠ [] then c
    else (({ c with secondary := c.secondary ++ [c.current] } : FConf).dropCur t).goto t (.s2 lo hi)
  | some (.s2 lo hi) => c.stepS2 t lo hi

/-- Any schedule. -/
def FConf.run (B : Kit) (H : Hash) (c : FConf) (sched : List Nat) : FConf := sched.foldl (fun c t => c.step B H t) c

/-- A database opened on the older chunks `F` (reopened, src/db.rs:64, 127-173), with a new chunk of window `[lo, hi]` (src/db.rs:57-84), and the calls
of every thread. -/
def FConf.startOn (F : List SChunk) (lo hi : U64) (progs : Nat → List DbOp) : FConf :=
  ⟨F.map (fun s => Sys.init s fun _ => []) ++ [Sys.init (Chunk.new ⟨KV.empty, KV.empty⟩ lo hi) fun _ => []], List.range F.length, F.length,
    List.range F.length, [], [], fun t => ⟨progs t, none, []⟩, []⟩

/-- A new database with window `[lo, hi]`, and the calls of every thread. -/
def FConf.start (lo hi : U64) (progs : Nat → List DbOp) : FConf :=
  ⟨[Sys.init (Chunk.new ⟨KV.empty, KV.empty⟩ lo hi) fun _ => []], [], 0, [], [], [], fun t => ⟨progs t, none, []⟩, []⟩

/-- The holder of the write lock of chunk `i`, with its insert and what is left of it. -/
def FConf.lockAt (c : FConf) (i : Nat) : Option (Nat × (Labels × TimePoint) × Proc SChunk (Res Unit)) := (c.chunks[i]?).bind (·.lock)

/-- As `LockPolicy`. -/
abbrev FPolicy := FConf → Nat → Bool

/-- Thread `t` is about to take a read lock for which another thread waits as a writer: the lock of the current chunk or of the older chunks, for
which a swap waits (src/db.rs:308, 311), or the current chunk's own lock, for which an insert waits (src/chunk/chunk.rs:115-117). -/
def FConf.overtakes (c : FConf) (t : Nat) : Prop :=
  ((c.threads t).now = none ∧ ∃ u lo hi, (c.threads u).now = some (.s2 lo hi)) ∨
  ((∃ q a b m, (c.threads t).now = some (.q2 q a b m)) ∧ ∃ u lo hi, (c.threads u).now = some (.s1 lo hi)) ∨
  (((∃ q a b, (c.threads t).now = some (.q1 q a b)) ∨ ∃ q a b ids m, (c.threads t).now = some (.q3 q a b (c.current :: ids) m)) ∧
    ∃ u ls ps p rest f, (c.threads u).now = some (.writing ls ps (p :: rest) f))

/-- One step of thread `t` under a policy. -/
def FConf.stepUnder (W : FPolicy) (B : Kit) (H : Hash) (c : FConf) (t : Nat) : FConf := if W c t then c else c.step B H t

/-- Any schedule under a policy. -/
def FConf.runUnder (W : FPolicy) (B : Kit) (H : Hash) (c : FConf) (sched : List Nat) : FConf := sched.foldl (fun c t => c.stepUnder W B H t) c

end Verif
