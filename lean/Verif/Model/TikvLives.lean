import Verif.Model.Sessions
import Verif.Model.Backends
/-! The server process (src/bin/monolith-server.rs, src/db.rs, src/server.rs) with a TiKV component, started, killed and started again on one directory, at the
granularity of single store operations: as Model/Sessions, which is about sled for both components. -/
namespace Verif

/-- How the server is deployed (src/bin/monolith-server.rs:66-145). `dryRun st ix`: this storage and this indexer, TiKV clients in dry-run mode.
`clusterIndex`: sled storage, the indexer on a TiKV cluster. Not modelled here: TiKV storage on a cluster, where all chunks share their keys (C46, C88). -/
inductive Deployment where
  | dryRun (st ix : Backend)
  | clusterIndex

/-- The components of the chunks. In dry-run mode every component has a map of its own (src/backend/tikv.rs:93-101); on a cluster the keys of an indexer start with
its identifier (src/indexer/tikv_indexer.rs:20-26), which no other component has (C46, C88): here, too, each has a map of its own, the keys without the identifier. -/
def Deployment.kit (B : BinSearch) : Deployment → Kit
  | .dryRun st ix => ⟨B, st, ix⟩
  | .clusterIndex => ⟨B, .sled, .tikv⟩

/-- One of the components is TiKV. -/
def Deployment.tikv : Deployment → Prop
  | .dryRun st ix => st = .tikv ∨ ix = .tikv
  | .clusterIndex => True

/-- What an indexer finds under the identifier it gets when its chunk is read again. While the chunk was written the identifier was a UUID followed by 16 zero bytes
(src/backend/tikv.rs:23-27: `value` is 32 zero bytes, or what the storage left there); when it is read it is the first 16 bytes of that
(src/indexer/tikv_indexer.rs:216). -/
def readAgain (idx : KV) : KV := fun k => if nilUuid.isPrefixOf k then idx (k.drop nilUuid.length) else none

/-- Of the chunks for which there is a directory, those that the server gets (src/db.rs:156-165). A TiKV component in dry-run mode begins with a new, empty map
(src/backend/tikv.rs:93-101), where `read_from_chunk` does not find the record of the chunk and gives `None`
(src/storage/tikv_storage.rs:133-142, src/indexer/tikv_indexer.rs:215-224), so the chunk is left out. -/
def Deployment.recall : Deployment → List SChunk → List SChunk
  | .dryRun .sled .sled, A => A
  | .dryRun _ _, _ => []
  | .clusterIndex, A => A.map fun S => { S with store := { S.store with idx := readAgain S.store.idx } }

/-- The server after the turns `sched`, started on these directories; `none` if it does not come up (see `Session.at`). -/
def Session.atD (D : Deployment) (B : BinSearch) (H : Hash) (F : Formats) (P : Paths) (base : Str) (slots : List Slot) (s : Session) (sched : List Nat) : Option SrvConf :=
  match readExistingChunks base s.clock (s.order slots) with
  | none => none
  | some A => if s.born < 3 then none else some ((SrvConf.startOn (D.recall A) s.now (s.now + s.size) s.ticks s.reqs).run (D.kit B) H F P sched)

/-- The directories left by the kill (see `Session.leaves`), with what the chunks' components hold; what is in memory only (dry run) is not looked at again. -/
def Session.leavesD (D : Deployment) (B : BinSearch) (H : Hash) (F : Formats) (P : Paths) (base : Str) (slots : List Slot) (s : Session) : List Slot :=
  match readExistingChunks base s.clock (s.order slots) with
  | none => s.order slots
  | some A => s.order slots ++
      if s.born < 3 then newDir s.now (s.now + s.size) s.born
      else
        let c := (SrvConf.startOn (D.recall A) s.now (s.now + s.size) s.ticks s.reqs).run (D.kit B) H F P s.sched
        c.dirs (D.recall A).length ++ c.nextDir s.cut

/-- Lives one after the other, from an empty directory on. -/
def livesD (D : Deployment) (B : BinSearch) (H : Hash) (F : Formats) (P : Paths) (base : Str) (ss : List Session) : List Slot :=
  ss.foldl (fun slots s => s.leavesD D B H F P base slots) []

/-- The server of life number `n` after the turns `sched`. -/
def serverOfD (D : Deployment) (B : BinSearch) (H : Hash) (F : Formats) (P : Paths) (base : Str) (ss : List Session) (n : Nat) (sched : List Nat) : Option SrvConf :=
  (ss[n]?).bind fun s => s.atD D B H F P base (livesD D B H F P base (ss.take n)) sched

end Verif
