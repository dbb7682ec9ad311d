import Verif.Model.ChunkDir
import Verif.Model.Db
/-! The life of a database directory: start-up, swaps, stops, crashes and restarts (src/db.rs:39-173, 269-318), for the sled backend
with both components of every chunk in the chunk's directory. -/
namespace Verif

/-- `metadata.json` of a chunk directory: not there, created but not completely written, or complete (only then
`ChunkOpts::read_config_from_dir`, src/chunk/chunk.rs:31-43, succeeds; its contents are not used by the sled builders and the window in
it is overwritten, src/db.rs:145-155). -/
inductive ConfigFile where
  | absent
  | unfinished
  | complete
deriving DecidableEq, Repr

/-- A directory in the base directory: name, `metadata.json`, and the trees `storage` and `indexer` (empty if they do not exist: sled
creates them, src/storage/sled_storage.rs:150-156, src/indexer/sled_indexer.rs:166-170). -/
structure Slot where
  name : Str
  config : ConfigFile
  stores : SledStores

/-- The base directory. -/
structure Disk where
  record : MetaFile
  slots : List Slot

/-- Trees without entries. -/
def noStores : SledStores := ⟨KV.empty, KV.empty⟩

/-- One round of the loop in `read_existing_chunk` (src/db.rs:133-168): `none` if `new` fails, `some none` if the entry is skipped. The
chunk is built with the window of the directory name cut at the clock reading, a fresh id generator, and closed. `clock` gives the
reading taken for each entry. -/
def Slot.reopen (base : Str) (clock : Str → U64) (s : Slot) : Option (Option (Chunk SledStores)) :=
  match readEntry base ⟨s.name, decide (s.config = .complete), some true, some true, clock s.name⟩ with
  | .failed => none
  | .ignored => some none
  | .chunk a b => some (some (Chunk.close (Chunk.new s.stores a b)).2)

/-- The loop (src/db.rs:132-169), entries in directory order. -/
def readChunks (base : Str) (clock : Str → U64) : List Slot → Option (List (Chunk SledStores))
  | [] => some []
  | s :: ss =>
    match s.reopen base clock with
    | none => none
    | some none => readChunks base clock ss
    | some (some c) => (readChunks base clock ss).map (c :: ·)

/-- `read_existing_chunk` (src/db.rs:127-173): sorted by start time (src/chunk/chunk.rs:196-214). -/
def readExistingChunks (base : Str) (clock : Str → U64) (ss : List Slot) : Option (List (Chunk SledStores)) :=
  (readChunks base clock ss).map (stableSort fun a b => decide (a.start_.toNat ≤ b.start_.toNat))

/-- The effects of `read_or_create_metadata` on the disk, one by one (src/db.rs:107-124): if there is no readable record the file is
created empty (`File::create`) and then written. -/
def recordProc {α : Type} (m : DbMeta) (k : Res Unit → Proc Disk α) : Proc Disk α :=
  .get (fun d : Disk => d.record) fun f =>
    match f with
    | .unreadable =>
      .put (fun d : Disk => { d with record := .text none })
        (.put (fun d : Disk => { d with record := .text (some m) }) (k (.ok ())))
    | f => k (readOrCreateMeta f m).1

/-- Change the configuration file of one directory. -/
def setConfig (name : Str) (c : ConfigFile) (ss : List Slot) : List Slot := ss.map fun s => if s.name = name then { s with config := c } else s

/-- The directory of a new chunk, step by step (`ChunkOpts::write_config_to_dir`, src/chunk/chunk.rs:46-55, called at src/db.rs:73 and
287): `create_dir_all`, `File::create`, the write of the contents when the `BufWriter` is dropped. The trees are created by `build`
afterwards (src/db.rs:81-84, 295-304) and are empty. -/
def chunkDirProc {α : Type} (name : Str) (k : Proc Disk α) : Proc Disk α :=
  .put (fun d : Disk => { d with slots := d.slots ++ [⟨name, .absent, noStores⟩] })
    (.put (fun d : Disk => { d with slots := setConfig name .unfinished d.slots })
      (.put (fun d : Disk => { d with slots := setConfig name .complete d.slots }) k))

/-- A running database: the directories of the older chunks (their contents do not change any more), the current chunk, whose
directory is named after its window, and the vector of older chunks. -/
structure LiveDb where
  old : List Slot
  cur : Chunk SledStores
  secondary : List (Chunk SledStores)

/-- The chunk directories of a running database. -/
def LiveDb.slots (db : LiveDb) : List Slot := db.old ++ [⟨encodeChunkDir db.cur.start_ db.cur.end_, .complete, db.cur.store⟩]

/-- `MonolithDb::new` (src/db.rs:39-103) with `size` = chunk size in milliseconds, `now` = clock reading at line 57, storage and
indexer types in `m`. Not modelled: a new directory with the name of an existing one (a restart in the same millisecond). -/
def newDbProc (base : Str) (size : U64) (m : DbMeta) (clock : Str → U64) (now : U64) : Proc Disk (Res LiveDb) :=
  recordProc m fun r =>
    match r with
    | .ok () =>
      .get (fun d : Disk => (d.slots, readExistingChunks base clock d.slots)) fun x =>
        match x.2 with
        | none => .ret (.err .notFound)
        | some chunks => chunkDirProc (encodeChunkDir now (now + size)) (.ret (.ok ⟨x.1, Chunk.new noStores now (now + size), chunks⟩))
    | .err e => .ret (.err e)
    | .panic => .ret .panic

/-- `swap` (src/db.rs:269-318) as far as the disk is concerned. -/
def swapDiskProc (size start_ : U64) : Proc Disk Unit := chunkDirProc (encodeChunkDir start_ (start_ + size)) (.ret ())

/-- What happens to a database. -/
inductive LifeEvent where
  /-- `write_time_points` -/
  | write (ls : Labels) (ps : List TimePoint)
  /-- the timer ticked with this clock reading -/
  | tick (reading : U64)
  /-- the process stops and is started again; `order` is the order in which the directories are listed, the trees contain what was
  written (for crashes that lose the latest operations see C35, C36) -/
  | restart (order : List Slot → List Slot) (clock : Str → U64) (now : U64)

/-- One event; `none` if the database cannot be opened. -/
def LiveDb.step (B : BinSearch) (base : Str) (size : U64) (db : LiveDb) : LifeEvent → Option LiveDb
  | .write ls ps => some { db with cur := (writeTimePoints (sledComp B) db.cur ls ps).2 }
  | .tick r => some ⟨db.slots, Chunk.new noStores (r + 1) (r + 1 + size), db.secondary ++ [db.cur.close.2]⟩
  | .restart order clock now =>
    (readExistingChunks base clock (order db.slots)).map fun chunks => ⟨order db.slots, Chunk.new noStores now (now + size), chunks⟩

/-- A history of events. -/
def LiveDb.run (B : BinSearch) (base : Str) (size : U64) : LiveDb → List LifeEvent → Option LiveDb
  | db, [] => some db
  | db, e :: es =>
    match db.step B base size e with
    | none => none
    | some db' => LiveDb.run B base size db' es

/-- A query on a running database (src/db.rs:202-267). -/
def LiveDb.query (B : BinSearch) (H : Hash) (db : LiveDb) (q : Labels) (a b : U64) : Res (List (Labels × List TimePoint)) :=
  dbQuery H (db.cur.view (sledComp B)) (db.secondary.map fun c => c.view (sledComp B)) q a b

/-- A database opened in an empty directory. -/
def LiveDb.fresh (size now : U64) : LiveDb := ⟨[], Chunk.new noStores now (now + size), []⟩

end Verif
