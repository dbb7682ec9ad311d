import Verif.Model.Life
/-! Failing operations on the base directory (full disk, permissions, too many open files) during the swap of chunks and during
start-up, src/db.rs:39-103, 269-318, for the sled backend. The results of `swap` are dropped by the timer thread (src/db.rs:97-100). -/
namespace Verif

/-- Which operations of the creation of a chunk fail. -/
structure DirFaults where
  /-- `create_dir_all` (src/chunk/chunk.rs:49) -/
  mkdir : Bool
  /-- `File::create` for `metadata.json` (src/chunk/chunk.rs:50) -/
  create : Bool
  /-- writing the contents: the result of `to_writer` is dropped (src/chunk/chunk.rs:52) and so is that of the flush when the
  `BufWriter` goes out of scope -/
  contents : Bool
  /-- opening the tree for the points (src/db.rs:81, 293-297; src/storage/sled_storage.rs:143) -/
  storage : Bool
  /-- opening the tree for the index (src/db.rs:82, 298-302; src/indexer/sled_indexer.rs:159) -/
  indexer : Bool
deriving DecidableEq, Repr

/-- Nothing fails. -/
def DirFaults.none : DirFaults := ⟨false, false, false, false, false⟩

/-- `ChunkOpts::write_config_to_dir` (src/chunk/chunk.rs:46-55): the result, and the state of `metadata.json` (`none`: no directory). -/
def writeConfig (f : DirFaults) : Res Unit × Option ConfigFile :=
  if f.mkdir then (.err .ioErr, Option.none)
  else if f.create then (.err .ioErr, some .absent)
  else (.ok (), some (if f.contents then .unfinished else .complete))

/-- The new chunk of `new` (src/db.rs:70-85) and `swap` (src/db.rs:283-305), `write_to_chunk` of the sled builders being empty
(src/storage/sled_storage.rs:146-148, src/indexer/sled_indexer.rs:162-164): the chunk if all went well, and the directory left
behind, if any. -/
def makeChunk (f : DirFaults) (lo hi : U64) : Res (Chunk SledStores) × Option Slot :=
  let slot := fun c => (⟨encodeChunkDir lo hi, c, noStores⟩ : Slot)
  match writeConfig f with
  | (.ok (), c) =>
    if f.storage then (.err .ioErr, c.map slot)
    else if f.indexer then (.err .ioErr, c.map slot)
    else (.ok (Chunk.new noStores lo hi), c.map slot)
  | (_, c) => (.err .internal, c.map slot)

/-- A running database together with the state of `metadata.json` in the directory of the current chunk. -/
structure FaultyDb where
  live : LiveDb
  config : ConfigFile

/-- The chunk directories. -/
def FaultyDb.slots (db : FaultyDb) : List Slot :=
  db.live.old ++ [⟨encodeChunkDir db.live.cur.start_ db.live.cur.end_, db.config, db.live.cur.store⟩]

/-- `swap` (src/db.rs:269-318): all operations that can fail precede the changes in memory. -/
def FaultyDb.swap (size start_ : U64) (f : DirFaults) (db : FaultyDb) : Res Unit × FaultyDb :=
  match makeChunk f start_ (start_ + size) with
  | (.ok c, some s) => (.ok (), ⟨⟨db.slots, c, db.live.secondary ++ [db.live.cur.close.2]⟩, s.config⟩)
  | (.ok _, Option.none) => (.panic, db)
  | (.err e, s) => (.err e, ⟨{ db.live with old := db.live.old ++ s.toList }, db.config⟩)
  | (.panic, s) => (.panic, ⟨{ db.live with old := db.live.old ++ s.toList }, db.config⟩)

/-- The process is running, or it is not and there are the chunk directories. -/
inductive Node where
  | up (db : FaultyDb)
  | down (slots : List Slot)

/-- What happens. -/
inductive NodeEvent where
  /-- `write_time_points` -/
  | write (ls : Labels) (ps : List TimePoint)
  /-- the timer ticks with this clock reading -/
  | tick (reading : U64) (f : DirFaults)
  /-- the process ends -/
  | stop
  /-- the process is started: order in which the directories are listed, clock readings, failures -/
  | start (order : List Slot → List Slot) (clock : Str → U64) (now : U64) (f : DirFaults)

/-- `MonolithDb::new` on a directory with a matching record (src/db.rs:39-103). -/
def Node.open (base : Str) (size : U64) (clock : Str → U64) (now : U64) (f : DirFaults) (slots : List Slot) : Node :=
  match readExistingChunks base clock slots with
  | Option.none => .down slots
  | some chunks =>
    match makeChunk f now (now + size) with
    | (.ok c, some s) => .up ⟨⟨slots, c, chunks⟩, s.config⟩
    | (_, s) => .down (slots ++ s.toList)

/-- One event. Nothing is written while the process is down and a second process is not started. -/
def Node.step (B : BinSearch) (base : Str) (size : U64) : Node → NodeEvent → Node
  | .up db, .write ls ps => .up ⟨{ db.live with cur := (writeTimePoints (sledComp B) db.live.cur ls ps).2 }, db.config⟩
  | .up db, .tick r f => .up (db.swap size (r + 1) f).2
  | .up db, .stop => .down db.slots
  | .up db, .start .. => .up db
  | .down ss, .start order clock now f => Node.open base size clock now f (order ss)
  | .down ss, _ => .down ss

/-- A history. -/
def Node.run (B : BinSearch) (base : Str) (size : U64) (n : Node) (es : List NodeEvent) : Node := es.foldl (Node.step B base size) n

/-- A query on the running database (src/db.rs:202-267). -/
def FaultyDb.query (B : BinSearch) (H : Hash) (db : FaultyDb) (q : Labels) (a b : U64) : Res (List (Labels × List TimePoint)) := db.live.query B H q a b

/-- A database opened in an empty directory. -/
def Node.fresh (size now : U64) : Node := .up ⟨LiveDb.fresh size now, .complete⟩

end Verif
