import Verif.Model.ServerConc
import Verif.Model.Life
/-! The server process (src/bin/monolith-server.rs, src/db.rs, src/server.rs) started, killed and started again on one directory, for the sled backend: requests
as bytes, the timer thread swapping chunks, at the granularity of single store operations. -/
namespace Verif

/-- One life of the server process, from its start to the moment it is killed. Not modelled: `metadata.json` of the database (see C37, C63); a new chunk
directory with the name of an existing one (two chunks with the same window). -/
structure Session where
  /-- the order in which the directories are listed (src/db.rs:132) -/
  order : List Slot → List Slot
  /-- the clock readings for the chunks found (src/db.rs:145-147) -/
  clock : Str → U64
  /-- the clock reading for the first chunk (src/db.rs:57) -/
  now : U64
  /-- the chunk size in milliseconds -/
  size : U64
  /-- of the three steps in which the directory of the first chunk is made, so many are made; the server comes up after all three -/
  born : Nat
  /-- the windows the swaps of the timer give to new chunks (src/db.rs:86-103) -/
  ticks : List (U64 × U64)
  /-- the requests that come -/
  reqs : List Request
  /-- the turns of the timer thread (0) and of the thread that handles requests (1), up to the kill -/
  sched : List Nat
  /-- if at the kill the timer is about to make the directory of a new chunk: how many of the three steps are made -/
  cut : Nat

/-- The directory of a new chunk after `n` steps of its creation (`ChunkOpts::write_config_to_dir`, src/chunk/chunk.rs:46-55); directories with other names
are not touched. -/
def newDir (lo hi : U64) (n : Nat) : List Slot := ((chunkDirProc (encodeChunkDir lo hi) (.ret ())).upTo n ⟨.unreadable, []⟩).slots

/-- The directories of the chunks of a running server that were made since its start: number `k` and later. What is inserted goes to the chunk's trees
(src/storage/sled_storage.rs:61-78, src/indexer/sled_indexer.rs:109-147). -/
def SrvConf.dirs (c : SrvConf) (k : Nat) : List Slot :=
  (c.db.chunks.drop k).map fun S => ⟨encodeChunkDir S.store.start_ S.store.end_, .complete, S.store.store⟩

/-- The directory of the chunk that is not yet current: `swap` makes it before it takes any lock (src/db.rs:270-304), of which the first is taken by the step
from which on the thread is in `s1`. -/
def SrvConf.nextDir (c : SrvConf) (cut : Nat) : List Slot :=
  match (c.db.threads 0).now, (c.db.threads 0).todo with
  | some (.s1 lo hi), _ => newDir lo hi 3
  | some (.s2 lo hi), _ => newDir lo hi 3
  | none, .swap lo hi :: _ => newDir lo hi cut
  | _, _ => []

/-- The server after the turns `sched`, started on these directories; `none` if it does not come up (`MonolithDb::new`, src/db.rs:39-103, called by
src/bin/monolith-server.rs:117-145; `serve`, src/server.rs:47-63). -/
def Session.at (B : BinSearch) (H : Hash) (F : Formats) (P : Paths) (base : Str) (slots : List Slot) (s : Session) (sched : List Nat) : Option SrvConf :=
  match readExistingChunks base s.clock (s.order slots) with
  | none => none
  | some A => if s.born < 3 then none else some ((SrvConf.startOn A s.now (s.now + s.size) s.ticks s.reqs).run (Kit.sled B) H F P sched)

/-- The directories left by the kill. The older chunks are not written to. -/
def Session.leaves (B : BinSearch) (H : Hash) (F : Formats) (P : Paths) (base : Str) (slots : List Slot) (s : Session) : List Slot :=
  match readExistingChunks base s.clock (s.order slots) with
  | none => s.order slots
  | some A => s.order slots ++
      if s.born < 3 then newDir s.now (s.now + s.size) s.born
      else
        let c := (SrvConf.startOn A s.now (s.now + s.size) s.ticks s.reqs).run (Kit.sled B) H F P s.sched
        c.dirs A.length ++ c.nextDir s.cut

/-- Lives one after the other, from an empty directory on. -/
def lives (B : BinSearch) (H : Hash) (F : Formats) (P : Paths) (base : Str) (ss : List Session) : List Slot :=
  ss.foldl (fun slots s => s.leaves B H F P base slots) []

/-- The server of life number `n` after the turns `sched`. -/
def serverOf (B : BinSearch) (H : Hash) (F : Formats) (P : Paths) (base : Str) (ss : List Session) (n : Nat) (sched : List Nat) : Option SrvConf :=
  (ss[n]?).bind fun s => s.at B H F P base (lives B H F P base (ss.take n)) sched

/-- The server of life number `n` when it is killed. -/
def serverEnd (B : BinSearch) (H : Hash) (F : Formats) (P : Paths) (base : Str) (ss : List Session) (n : Nat) : Option SrvConf :=
  (ss[n]?).bind fun s => s.at B H F P base (lives B H F P base (ss.take n)) s.sched

end Verif
