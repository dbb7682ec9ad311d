import Verif.Model.Chunk
/-! The shared TiKV backend (src/backend/tikv.rs) and the builders of TiKV components. -/
namespace Verif

/-- 16 zero bytes: `Uuid::nil().as_bytes()`. -/
def nilUuid : Str := List.replicate 16 0#8

/-- `TiKvRawBackend::init_component` (src/backend/tikv.rs:15-35); `uuid` is the fresh random UUID. Slicing `value[..16]` or
`value[16..]` panics on a shorter value. In the storage branch `res.append(storage_id.as_mut())` moves all bytes out of
`storage_id` (lines 28-31), so that the returned vector is empty. Client errors are not modelled. -/
def initComponent (kv : KV) (chunkId : Str) (isIndexer : Bool) (uuid : Str) : Res Str × KV :=
  let value := (kv chunkId).getD (nilUuid ++ nilUuid)
  if value.length < 16 then (.panic, kv)
  else if isIndexer then
    let indexerId := uuid ++ value.take 16
    (.ok indexerId, kv.set chunkId indexerId)
  else
    (.ok [], kv.set chunkId (value.drop 16 ++ uuid))

/-- `TiKvStorageBuilder::build`, then `TiKvIndexerBuilder::build` (src/storage/tikv_storage.rs:103-119,
src/indexer/tikv_indexer.rs:185-200), in the order of src/db.rs:79-82 and 286-298, on one cluster: the identifiers of storage
and indexer and the store. -/
def buildTikv (kv : KV) (chunkId uuidS uuidI : Str) : Res (Str × Str) × KV :=
  match initComponent kv chunkId false uuidS with
  | (.ok s, kv1) =>
    match initComponent kv1 chunkId true uuidI with
    | (.ok i, kv2) => (.ok (s, i), kv2)
    | (.err e, kv2) => (.err e, kv2)
    | (.panic, kv2) => (.panic, kv2)
  | (.err e, kv1) => (.err e, kv1)
  | (.panic, kv1) => (.panic, kv1)

/-- `read_from_chunk` of both builders (src/storage/tikv_storage.rs:125-143, src/indexer/tikv_indexer.rs:206-225): the
identifiers a reopened chunk uses, storage first; `none` if the chunk is unknown. -/
def reopenTikv (kv : KV) (chunkId : Str) : Res (Option (Str × Str)) :=
  match kv chunkId with
  | none => .ok none
  | some v => if v.length < 16 then .panic else .ok (some (v.drop 16, v.take 16))

end Verif
