import Verif.Model.PowerLoss
/-! The whole database on sled trees, through any number of starts, ticks, stops and losses of power, with failing operations everywhere:
on the trees in writes and queries (as in C77), on the base directory when a chunk is created (as in C76). -/
namespace Verif

/-- A chunk directory; its trees may contain changes that are not on the disk yet. -/
structure PlSlot where
  name : Str
  config : ConfigFile
  trees : Volatile

/-- What the program can see of it. -/
def PlSlot.seen (s : PlSlot) : Slot := ⟨s.name, s.config, s.trees.now⟩

/-- A directory whose trees are on the disk. -/
def Slot.settled (s : Slot) : PlSlot := ⟨s.name, s.config, .settled s.stores⟩

/-- A chunk and its trees. -/
def Chunk.split (c : Chunk SledStores) : Chunk Unit × SledStores := (⟨c.start_, c.end_, c.closed, c.nextId, c.poisoned, ()⟩, c.store)

/-- A running database (src/db.rs:25-33): the directories of the older chunks, the current chunk and the state of its `metadata.json`, the
vector of older chunks (their trees do not change any more). -/
structure PlDb where
  old : List PlSlot
  cur : Chunk Unit × Volatile
  config : ConfigFile
  secondary : List (Chunk Unit × SledStores)

/-- The chunk directories. -/
def PlDb.slots (db : PlDb) : List PlSlot := db.old ++ [⟨encodeChunkDir db.cur.1.start_ db.cur.1.end_, db.config, db.cur.2⟩]

/-- The inserts of `write_time_points` (src/db.rs:184-186), each with what happens to its operations: number of failures; a panic stops
the loop. -/
def plInsertEach (st : Chunk Unit × Volatile) (ls : Labels) : List (TimePoint × List OpOutcome) → Res Nat × (Chunk Unit × Volatile)
  | [] => (.ok 0, st)
  | p :: ps =>
    match plInsert st ⟨ls, p.1, p.2⟩ with
    | (.panic, st') => (.panic, st')
    | (.ok (), st') => plInsertEach st' ls ps
    | (.err _, st') =>
      match plInsertEach st' ls ps with
      | (.ok n, st'') => (.ok (n + 1), st'')
      | r => r

/-- The points that pass the filter of `write_time_points` (src/db.rs:181-183). -/
def plKept (st : Chunk Unit × Volatile) (ps : List (TimePoint × List OpOutcome)) : List (TimePoint × List OpOutcome) :=
  ps.filter fun p => keepPoint st.1.start_ st.1.end_ p.1

/-- `MonolithDb::write_time_points` (src/db.rs:176-194) on the current chunk. -/
def plWrite (st : Chunk Unit × Volatile) (ls : Labels) (ps : List (TimePoint × List OpOutcome)) : Res Unit × (Chunk Unit × Volatile) :=
  match plInsertEach st ls (plKept st ps) with
  | (.ok 0, st') => (.ok (), st')
  | (.ok (_ + 1), st') => (.err .internal, st')
  | (.err e, st') => (.err e, st')
  | (.panic, st') => (.panic, st')

/-- The trees when the process ends within `write_time_points`: after the first points `ps`, and `n` operations of the insert of `p`. -/
def plWriteCut (st : Chunk Unit × Volatile) (ls : Labels) (ps : List (TimePoint × List OpOutcome)) (p : TimePoint) (os : List OpOutcome) (n : Nat) :
    Volatile :=
  let st' := (plInsertEach st ls ps).2
  (slInsertP st'.1 ls p).cut n os st'.2

/-- `swap` (src/db.rs:269-318). -/
def PlDb.swap (size start_ : U64) (f : DirFaults) (db : PlDb) : Res Unit × PlDb :=
  match makeChunk f start_ (start_ + size) with
  | (.ok c, some s) => (.ok (), ⟨db.slots, (c.split.1, .settled c.store), s.config, db.secondary ++ [(db.cur.1.close.2, db.cur.2.now)]⟩)
  | (.ok _, none) => (.panic, db)
  | (.err e, s) => (.err e, { db with old := db.old ++ s.toList.map Slot.settled })
  | (.panic, s) => (.panic, { db with old := db.old ++ s.toList.map Slot.settled })

/-- The process is running, or it is not. -/
inductive PlNode where
  | up (db : PlDb)
  | down (slots : List PlSlot)

/-- `MonolithDb::new` on a directory with a matching record (src/db.rs:39-103). -/
def PlNode.open (base : Str) (size : U64) (clock : Str → U64) (now : U64) (f : DirFaults) (slots : List PlSlot) : PlNode :=
  match readExistingChunks base clock (slots.map PlSlot.seen) with
  | none => .down slots
  | some chunks =>
    match makeChunk f now (now + size) with
    | (.ok c, some s) => .up ⟨slots, (c.split.1, .settled c.store), s.config, chunks.map Chunk.split⟩
    | (_, s) => .down (slots ++ s.toList.map Slot.settled)

/-- What the end of the process, or a loss of power, can do to the trees of a chunk: what is seen now could have been left before, and so
could everything that a further loss can leave. -/
def Volatile.Rests (v v' : Volatile) : Prop := v'.Leaves v'.now ∧ ∀ s, v'.Leaves s → v.Leaves s

/-- What it can do to the base directory: directories can be gone, and nothing is said about their `metadata.json`. -/
def SlotsRest (ss ss' : List PlSlot) : Prop := ∀ s' ∈ ss', ∃ s ∈ ss, s'.name = s.name ∧ s.trees.Rests s'.trees

/-- Everything that can happen to a database in base directory `base` with chunks of `size` milliseconds, beginning with an empty
directory. The list collects the points given to `write_time_points` that passed its filter. Not modelled: a new chunk whose directory
name is in use (two starts in one millisecond). -/
inductive Lived (base : Str) (size : U64) : List (Labels × TimePoint) → PlNode → Prop
  | empty : Lived base size [] (.down [])
  /-- a start; the directories are listed in any order -/
  | start {w : List (Labels × TimePoint)} {ss ss' : List PlSlot} (before : Lived base size w (.down ss)) (order : ss'.Perm ss) (clock : Str → U64) (now : U64)
      (f : DirFaults) (unused : ∀ s ∈ ss, s.name ≠ encodeChunkDir now (now + size)) : Lived base size w (.open base size clock now f ss')
  /-- a write -/
  | write {w : List (Labels × TimePoint)} {db : PlDb} (before : Lived base size w (.up db)) (ls : Labels) (ps : List (TimePoint × List OpOutcome)) :
      Lived base size (w ++ (plKept db.cur ps).map fun p => (ls, p.1)) (.up { db with cur := (plWrite db.cur ls ps).2 })
  /-- the timer ticks -/
  | tick {w : List (Labels × TimePoint)} {db : PlDb} (before : Lived base size w (.up db)) (reading : U64) (f : DirFaults)
      (unused : ∀ s ∈ db.slots, s.name ≠ encodeChunkDir (reading + 1) (reading + 1 + size)) :
      Lived base size w (.up (db.swap size (reading + 1) f).2)
  /-- the process ends -/
  | stop {w : List (Labels × TimePoint)} {db : PlDb} (before : Lived base size w (.up db)) : Lived base size w (.down db.slots)
  /-- the process ends within a write -/
  | stopWithin {w : List (Labels × TimePoint)} {db : PlDb} (before : Lived base size w (.up db)) (ls : Labels)
      (ps : List (TimePoint × List OpOutcome)) (p : TimePoint) (os : List OpOutcome) (n : Nat)
      (kept : ∀ x ∈ ps ++ [(p, os)], keepPoint db.cur.1.start_ db.cur.1.end_ x.1 = true) :
      Lived base size (w ++ (ps ++ [(p, os)]).map fun p => (ls, p.1))
        (.down { db with cur := (db.cur.1, plWriteCut db.cur ls ps p os n) }.slots)
  /-- what was not written to the disk is lost, for lack of power or because the process ended -/
  | lose {w : List (Labels × TimePoint)} {ss ss' : List PlSlot} (before : Lived base size w (.down ss)) (rest : SlotsRest ss ss') : Lived base size w (.down ss')

/-- `MonolithDb::query` (src/db.rs:202-267), with what happens to the operations on the trees of the current chunk (`os`) and of each older
chunk (`oss`; all succeed where the list is too short). -/
def PlDb.query (B : BinSearch) (H : Hash) (db : PlDb) (q : Labels) (a b : U64) (os : List OpOutcome) (oss : List (List OpOutcome)) :
    Res (List (Labels × List TimePoint)) :=
  let view := fun (st : Chunk Unit × SledStores) (os : List OpOutcome) => (⟨fun q a b => slFaultyQuery B st q a b os, st.1.isWithRange⟩ : View)
  dbQuery H (view (db.cur.1, db.cur.2.now) os) (db.secondary.mapIdx fun i st => view st (oss.getD i [])) q a b

end Verif
