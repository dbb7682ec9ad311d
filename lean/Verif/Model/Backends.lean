import Verif.Model.TikvBackend
/-! The four combinations of storage and indexer that the server binary offers (src/bin/monolith-server.rs:66-145), with a TiKV
cluster or in dry-run mode (src/backend/tikv.rs:93-113). -/
namespace Verif

/-- The two values of the options `--storage` and `--indexer` that are accepted (src/lib.rs:53-54). -/
inductive Backend where
  | sled
  | tikv
deriving DecidableEq, Repr

/-- `SLED_BACKEND`, `TIKV_BACKEND` (src/lib.rs:53-54). -/
def Backend.name : Backend → Str
  | .sled => [115#8, 108#8, 101#8, 100#8]
  | .tikv => [116#8, 105#8, 107#8, 118#8]

/-- The patterns of the inner and outer `match` in `main` (src/bin/monolith-server.rs:117-145). -/
def Backend.ofName (s : Str) : Option Backend :=
  if s = Backend.tikv.name then some .tikv else if s = Backend.sled.name then some .sled else none

/-- `main` (src/bin/monolith-server.rs:117-145): the storage and the indexer the database is created with; `none` is `exit(1)`. -/
def mainChoice (storage indexer : Str) : Option (Backend × Backend) :=
  match Backend.ofName storage with
  | some s =>
    match Backend.ofName indexer with
    | some i => some (s, i)
    | none => none
  | none => none

/-- What a TiKV client is connected to: a cluster, which all clients share, or (dry run) a map of its own:
`get_instance` makes a new `DummyTiKvBackend` every time (src/backend/tikv.rs:93-101). -/
inductive Conn where
  | cluster
  | dryRun
deriving DecidableEq, Repr

/-- How `main` connects (src/bin/monolith-server.rs:66-84): `config` is the `dry_run` entry of the configuration file, if a file is
given. `none`: no TiKV client is needed. -/
def mainConn (config : Option Bool) (storage indexer : Str) : Option Conn :=
  if indexer = Backend.tikv.name ∨ storage = Backend.tikv.name then
    match config with
    | some dry => some (if dry then .dryRun else .cluster)
    | none => some .dryRun
  else none

/-- Everything the components of one chunk read and write: the sled trees of indexer and storage, what the indexer's TiKV client is
connected to, and the map of the storage's TiKV client in dry-run mode. Each combination uses part of it. -/
structure Stores where
  idx : KV
  ser : KV
  kvI : KV
  kvS : KV

/-- What the TiKV client of the storage is connected to. -/
def Stores.getS (conn : Conn) (s : Stores) : KV :=
  match conn with
  | .cluster => s.kvI
  | .dryRun => s.kvS

/-- Its change. -/
def Stores.setS (conn : Conn) (s : Stores) (kv : KV) : Stores :=
  match conn with
  | .cluster => { s with kvI := kv }
  | .dryRun => { s with kvS := kv }

/-- Storage `st` with identifier `spre` and indexer `ix` with identifier `ipre` (src/bin/monolith-server.rs:86-102). Identifiers
matter for TiKV components only. -/
def backComp (B : BinSearch) (conn : Conn) (st ix : Backend) (ipre spre : Str) : Comp Stores where
  byLabels s ls := match ix with
    | .sled => sledByLabels s.idx ls
    | .tikv => tikvByLabels ipre s.kvI ls
  create s ls i := match ix with
    | .sled => ((sledCreate s.idx ls i).1, { s with idx := (sledCreate s.idx ls i).2 })
    | .tikv => ((tikvCreate ipre s.kvI ls i).1, { s with kvI := (tikvCreate ipre s.kvI ls i).2 })
  metadata s ls := match ix with
    | .sled => sledMetadata s.idx ls
    | .tikv => tikvMetadata ipre s.kvI ls
  write s i p := match st with
    | .sled => ((sledWrite s.ser i p).1, { s with ser := (sledWrite s.ser i p).2 })
    | .tikv => ((tikvWrite spre (s.getS conn) i p).1, s.setS conn (tikvWrite spre (s.getS conn) i p).2)
  read s i a b := match st with
    | .sled => sledRead B s.ser i a b
    | .tikv => tikvRead B spre (s.getS conn) i a b

/-! ### Building a chunk -/

/-- Both builders' `build` for a new chunk with identifier `chunkId` (src/db.rs:81-84, 295-304: storage first): the identifiers of
storage and indexer, and the stores. The sled trees are new (empty). In dry-run mode each component registers itself in its own new map
(src/storage/tikv_storage.rs:103-119, src/indexer/tikv_indexer.rs:185-201); on a cluster both use the cluster. -/
def buildStores (conn : Conn) (st ix : Backend) (cluster : KV) (chunkId uuidS uuidI : Str) : Res (Str × Str) × Stores :=
  let empty : Stores := ⟨KV.empty, KV.empty, match conn with | .cluster => cluster | .dryRun => KV.empty, KV.empty⟩
  let r1 : Res Str × Stores := match st with
    | .sled => (.ok [], empty)
    | .tikv => ((initComponent (empty.getS conn) chunkId false uuidS).1,
        empty.setS conn (initComponent (empty.getS conn) chunkId false uuidS).2)
  match r1 with
  | (.ok sid, s1) =>
    match ix with
    | .sled => (.ok (sid, []), s1)
    | .tikv =>
      match initComponent s1.kvI chunkId true uuidI with
      | (.ok iid, kv) => (.ok (sid, iid), { s1 with kvI := kv })
      | (.err e, kv) => (.err e, { s1 with kvI := kv })
      | (.panic, kv) => (.panic, { s1 with kvI := kv })
  | (.err e, s1) => (.err e, s1)
  | (.panic, s1) => (.panic, s1)

/-- `read_from_chunk` of both builders (src/db.rs:156-159), on the stores left by the previous run: the identifiers (storage, indexer) and
stores of the reopened chunk; `none`: one component is not found and the directory is skipped (src/db.rs:161). In dry-run mode a TiKV
component gets a new, empty map, in which it finds nothing. -/
def reopenStores (conn : Conn) (st ix : Backend) (chunkId : Str) (s : Stores) : Res (Option ((Str × Str) × Stores)) :=
  let s' : Stores := match conn with
    | .cluster => s
    | .dryRun => { s with kvI := KV.empty, kvS := KV.empty }
  let sid : Res (Option Str) := match st with
    | .sled => .ok (some [])
    | .tikv => match s'.getS conn chunkId with
      | none => .ok none
      | some v => if v.length < 16 then .panic else .ok (some (v.drop 16))
  let iid : Res (Option Str) := match ix with
    | .sled => .ok (some [])
    | .tikv => match s'.kvI chunkId with
      | none => .ok none
      | some v => if v.length < 16 then .panic else .ok (some (v.take 16))
  sid.bind fun a => iid.bind fun b => match a, b with
    | some a, some b => .ok (some ((a, b), s'))
    | _, _ => .ok none

/-! ### Several chunks on one cluster -/

/-- The chunks of a database whose TiKV clients share a cluster, oldest first, with the identifiers of storage and indexer. Every
chunk's `kvI` is stale until the chunk is used. -/
structure Shared where
  cluster : KV
  chunks : List ((Str × Str) × Chunk Stores)

/-- The chunk with the present contents of the cluster. -/
def Chunk.synced (c : Chunk Stores) (cluster : KV) : Chunk Stores := { c with store := { c.store with kvI := cluster } }

/-- What happens to the chunks: a new one is built (src/db.rs:56-85, 269-305; a failure leaves no chunk), or a point is inserted into the
`k`-th (the database inserts into the newest only). -/
inductive SharedOp where
  | build (chunkId uuidS uuidI : Str) (lo hi : U64)
  | insert (k : Nat) (ls : Labels) (p : TimePoint)

/-- One operation with storage `st` and indexer `ix` (`Chunk::new`, src/chunk/chunk.rs:83-96; `Chunk::insert`,
src/chunk/chunk.rs:110-137). -/
def Shared.step (B : BinSearch) (st ix : Backend) (m : Shared) : SharedOp → Shared
  | .build chunkId uuidS uuidI lo hi =>
    match buildStores .cluster st ix m.cluster chunkId uuidS uuidI with
    | (.ok ids, s) => ⟨s.kvI, m.chunks ++ [(ids, Chunk.new s lo hi)]⟩
    | (.err _, s) => ⟨s.kvI, m.chunks⟩
    | (.panic, s) => ⟨s.kvI, m.chunks⟩
  | .insert k ls p =>
    match m.chunks[k]? with
    | none => m
    | some (ids, c) =>
      let r := (c.synced m.cluster).insert (backComp B .cluster st ix ids.2 ids.1) ls p
      ⟨r.2.store.kvI, m.chunks.set k (ids, r.2)⟩

/-- A sequence of operations. -/
def Shared.run (B : BinSearch) (st ix : Backend) (m : Shared) (ops : List SharedOp) : Shared := ops.foldl (Shared.step B st ix) m

/-- `Chunk::query` (src/chunk/chunk.rs:139-162) on the `k`-th chunk; `none`: there is no such chunk. -/
def Shared.query (B : BinSearch) (st ix : Backend) (m : Shared) (k : Nat) (q : Labels) (a b : U64) : Option (Res (List Series)) :=
  m.chunks[k]?.map fun x => (x.2.synced m.cluster).query (backComp B .cluster st ix x.1.2 x.1.1) q a b

end Verif
