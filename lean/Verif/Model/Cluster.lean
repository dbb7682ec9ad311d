import Verif.Model.ServerConc
/-! Several server processes, and other clients, on one TiKV cluster (src/backend/tikv.rs:51-67: every component has a client of its own, all connected to the same
cluster), at the granularity of single operations of the cluster and of the sled trees. -/
namespace Verif

/-- The keys that start with `pre`, without it (src/indexer/tikv_indexer.rs:20-26, src/storage/tikv_storage.rs:32-34). -/
def under (pre : Str) (kv : KV) : KV := fun k => kv (pre ++ k)

/-- A server process: what its chunks are made of; the identifiers of indexer and storage that its `i`-th chunk got from `init_component` (src/backend/tikv.rs:15-35);
its paths; the window of its first chunk and those of the chunks made by its timer; the requests that come (see `SrvConf.start`). -/
structure Member where
  kit : Kit
  ids : Nat → Str × Str
  paths : Paths
  lo : U64
  hi : U64
  ticks : List (U64 × U64)
  reqs : List Request

/-- A chunk as its clients see it: a TiKV component sees the cluster, below its identifier; a sled component has a tree of its own. -/
def FChunk.seen (K : Kit) (ids : Str × Str) (kv : KV) (S : FChunk) : FChunk :=
  { S with store := { S.store with store :=
    ⟨match K.ix with | .sled => S.store.store.idx | .tikv => under ids.1 kv, match K.st with | .sled => S.store.store.ser | .tikv => under ids.2 kv⟩ } }

/-- All chunks as their clients see them. -/
def FConf.seen (K : Kit) (ids : Nat → Str × Str) (kv : KV) (c : FConf) : FConf := { c with chunks := c.chunks.mapIdx fun i S => S.seen K (ids i) kv }

/-- The server as its clients see the cluster. -/
def SrvConf.seen (m : Member) (kv : KV) (c : SrvConf) : SrvConf := { c with db := c.db.seen m.kit m.ids kv }

/-- A part of the cluster that belongs to a component, before and after a step, without the identifier. -/
structure Area where
  pre : Str
  old : KV
  new : KV

/-- The parts of the cluster of the chunks of a database. -/
def areas (K : Kit) (ids : Nat → Str × Str) (c c' : FConf) : List Area :=
  (List.range c.chunks.length).flatMap fun i =>
    match c.chunks[i]?, c'.chunks[i]? with
    | some S, some S' =>
      (match K.ix with | .sled => [] | .tikv => [⟨(ids i).1, S.store.store.idx, S'.store.store.idx⟩]) ++
      (match K.st with | .sled => [] | .tikv => [⟨(ids i).2, S.store.store.ser, S'.store.store.ser⟩])
    | _, _ => []

/-- The cluster after a step: what the step has changed. A step is at most one `put` of one key (`writeBack_put`). -/
def writeBack (as : List Area) (kv : KV) : KV := fun k =>
  match as.find? fun a => a.pre.isPrefixOf k && decide (a.new (k.drop a.pre.length) ≠ a.old (k.drop a.pre.length)) with
  | some a => a.new (k.drop a.pre.length)
  | none => kv k

/-- The cluster and the servers. What a chunk holds for a TiKV component is stale until the chunk is used (`seen`). -/
structure Fleet where
  cluster : KV
  nodes : Nat → SrvConf

/-- What happens: a turn of thread `t` of server number `n`; another client, or `init_component` for a new chunk (src/backend/tikv.rs:15-35), puts or deletes a key. -/
inductive FleetOp where
  | turn (n t : Nat)
  | other (k : Str) (v : Option Str)

/-- One step. Not modelled: operations of the cluster that fail (see C74). -/
def Fleet.step (ms : Nat → Member) (H : Hash) (F : Formats) (f : Fleet) : FleetOp → Fleet
  | .turn n t =>
    let c := (f.nodes n).seen (ms n) f.cluster
    let c' := c.step (ms n).kit H F (ms n).paths t
    ⟨writeBack (areas (ms n).kit (ms n).ids c.db c'.db) f.cluster, fun u => if u = n then c' else f.nodes u⟩
  | .other k v => ⟨fun x => if x = k then v else f.cluster x, f.nodes⟩

/-- A sequence of steps. -/
def Fleet.run (ms : Nat → Member) (H : Hash) (F : Formats) (f : Fleet) (ops : List FleetOp) : Fleet := ops.foldl (Fleet.step ms H F) f

/-- All servers are started in empty directories (src/bin/monolith-server.rs:117-145). -/
def Fleet.start (ms : Nat → Member) (kv : KV) : Fleet := ⟨kv, fun n => SrvConf.start (ms n).lo (ms n).hi (ms n).ticks (ms n).reqs⟩

end Verif
