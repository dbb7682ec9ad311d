import Verif.Model.Kit
/-! A chunk, on any combination of storage and indexer, used by any number of inserting and querying threads at once (src/chunk/chunk.rs:110-162). -/
namespace Verif

/-- The arguments of a `Chunk::query` call (src/chunk/chunk.rs:139-144). -/
structure Ask where
  labels : Labels
  from_ : U64
  to_ : U64
deriving DecidableEq

/-- A finished query: what was asked, what it returned, and, for stating properties only, which inserts were complete when it began and when
it ended, which had at least begun when it ended, and how many queries had ended when it began. -/
structure Answer where
  ask : Ask
  result : Res (List Series)
  before : List (Labels × TimePoint)
  after : List (Labels × TimePoint)
  begun : List (Labels × TimePoint)
  earlier : Nat

/-- The inserts that have made all their changes, in the order of the changes: the finished ones, and the one that only has to release the
lock. -/
def Sys.settled (S : Sys SChunk (Labels × TimePoint) (Res Unit)) : List (Labels × TimePoint) :=
  S.finished.map (·.2.1) ++ match S.lock with
    | some (_, w, .ret _) => [w]
    | _ => []

/-- The inserts that have begun: the finished ones, and the one that holds the lock. -/
def Sys.started (S : Sys SChunk (Labels × TimePoint) (Res Unit)) : List (Labels × TimePoint) :=
  S.finished.map (·.2.1) ++ match S.lock with
    | some (_, w, _) => [w]
    | none => []

/-- Threads that insert (`sys`: `Chunk::insert` under the write lock, src/chunk/chunk.rs:110-137) and threads that query. A thread that does
both is two threads here, whose turns the schedule orders. -/
structure Traffic where
  sys : Sys SChunk (Labels × TimePoint) (Res Unit)
  /-- queries not yet begun, by thread -/
  asks : Nat → List Ask
  /-- queries under way: what was asked, the inserts complete and the number of queries ended at its beginning, and the rest of its steps -/
  running : Nat → Option (Ask × List (Labels × TimePoint) × Nat × Proc SChunk (Res (List Series)))
  answered : List Answer

/-- Whose turn it is. -/
inductive Turn where
  | insert (t : Nat)
  | query (t : Nat)

/-- One step. A query begins when it gets the read lock, which needs that no insert is under way; it panics on a poisoned lock, and
releases the lock at once (src/chunk/chunk.rs:145-147). Then it reads without lock (`kitQuery`). -/
def Traffic.step (B : Kit) (T : Traffic) : Turn → Traffic
  | .insert t => { T with sys := T.sys.step (kitInsert B) t }
  | .query t =>
    match T.running t with
    | none =>
      match T.asks t, T.sys.lock with
      | k :: ks, none => { T with
          asks := fun u => if u = t then ks else T.asks u
          running := fun u => if u = t then some (k, T.sys.settled, T.answered.length,
            if T.sys.store.poisoned then .ret .panic else kitQuery B k.labels k.from_ k.to_) else T.running u }
      | _, _ => T
    | some (k, h, n, .ret r) => { T with
        running := fun u => if u = t then none else T.running u
        answered := T.answered ++ [⟨k, r, h, T.sys.settled, T.sys.started, n⟩] }
    | some (k, h, n, .act u next) => { T with
        sys := { T.sys with store := u T.sys.store }
        running := fun v => if v = t then some (k, h, n, next T.sys.store) else T.running v }

/-- Execution under a schedule. -/
def Traffic.exec (B : Kit) (T : Traffic) (sched : List Turn) : Traffic := sched.foldl (Traffic.step B) T

/-- The beginning: a chunk, and what the threads are going to do. -/
def Traffic.init (c : SChunk) (inserts : Nat → List (Labels × TimePoint)) (asks : Nat → List Ask) : Traffic :=
  ⟨Sys.init c inserts, asks, fun _ => none, []⟩

end Verif
