import Verif.Model.ChunkConc
import Verif.Model.Backends
/-! Chunk operations on any combination of storage and indexer, as sequences of elementary store operations. The stores are the chunk's own: the
sled trees of its directory, or the maps that TiKV clients have in dry-run mode, one for each client (src/backend/tikv.rs:93-101).

Simplifications: the identifier before every key of a TiKV component (src/indexer/tikv_indexer.rs:20-26) is left out, as nobody else
uses the map (that of a storage is empty, src/backend/tikv.rs:30-34; the entry that registers the chunk has a key of its own, Model/Backends); the TiKV indexer decodes
the reverse entries when all have been read, here each is decoded when it is read (decoding is a function of the bytes, and its failure is
reported after the last read there, after the failing one here). -/
namespace Verif

/-- What a chunk is made of: its storage, its indexer, and the search of the standard library. -/
structure Kit where
  search : BinSearch
  st : Backend
  ix : Backend

/-- sled for both. -/
def Kit.sled (B : BinSearch) : Kit := ⟨B, .sled, .sled⟩

/-- The key of a series in the storage's own store (src/storage/sled_storage.rs:36-38, src/storage/tikv_storage.rs:32-34). -/
def Kit.key (K : Kit) (i : U64) : Str :=
  match K.st with
  | .sled => sledKey i
  | .tikv => tikvKey [] i

/-- `get_series_id_by_labels` (src/indexer/sled_indexer.rs:98-107, src/indexer/tikv_indexer.rs:103-113). -/
def Kit.byLabels (K : Kit) (kv : KV) (ls : Labels) : Res (Option U64) :=
  match K.ix with
  | .sled => sledByLabels kv ls
  | .tikv => tikvByLabels [] kv ls

/-- The ids of one reverse entry: `SledIndexer::get_id` (src/indexer/sled_indexer.rs:47-60); src/indexer/tikv_indexer.rs:76-99 (which decodes the
entries after all have been read). -/
def Kit.getId (K : Kit) (kv : KV) (l : Label) : Res (Option (List U64)) :=
  match K.ix with
  | .sled => sledGetId kv l
  | .tikv =>
    match kv (encodeLabel l) with
    | some v => (decodeIds v).bind fun ids => .ok (some ids)
    | none => .ok none

/-- One iteration of the metadata loop (src/indexer/sled_indexer.rs:76-83, src/indexer/tikv_indexer.rs:36-67). -/
def Kit.meta1 (K : Kit) (kv : KV) (i : U64) : Res (Option (U64 × Labels)) :=
  match K.ix with
  | .sled => sledMeta1 kv i
  | .tikv => .ok (tikvMeta1 [] kv i)

/-- `read_time_series` (src/storage/sled_storage.rs:80-96, src/storage/tikv_storage.rs:53-84). -/
def Kit.read (K : Kit) (kv : KV) (i a b : U64) : Res (List TimePoint) :=
  match K.st with
  | .sled => sledRead K.search kv i a b
  | .tikv => tikvRead K.search [] kv i a b

/-- The components, with uninterrupted operations. -/
def kitComp (K : Kit) : Comp SledStores where
  byLabels s ls := K.byLabels s.idx ls
  create s ls i := match K.ix with
    | .sled => ((sledCreate s.idx ls i).1, { s with idx := (sledCreate s.idx ls i).2 })
    | .tikv => ((tikvCreate [] s.idx ls i).1, { s with idx := (tikvCreate [] s.idx ls i).2 })
  metadata s ls := match K.ix with
    | .sled => sledMetadata s.idx ls
    | .tikv => tikvMetadata [] s.idx ls
  write s i p := match K.st with
    | .sled => ((sledWrite s.ser i p).1, { s with ser := (sledWrite s.ser i p).2 })
    | .tikv => ((tikvWrite [] s.ser i p).1, { s with ser := (tikvWrite [] s.ser i p).2 })
  read s i a b := K.read s.ser i a b

/-! ### Insert -/

/-- An id as it is stored (src/indexer/sled_indexer.rs:119, src/indexer/tikv_indexer.rs:131). -/
def Kit.fmt (K : Kit) (i : U64) : Str :=
  match K.ix with
  | .sled => fmtId i
  | .tikv => toBE i

/-- A reverse entry with one id more (src/indexer/sled_indexer.rs:133-143, src/indexer/tikv_indexer.rs:149-160). -/
def Kit.app (K : Kit) (i : U64) (old : Option Str) : Str :=
  match K.ix with
  | .sled => match old with
    | none => fmtId i
    | some v => v ++ comma :: fmtId i
  | .tikv => match old with
    | none => toBE i
    | some v => v ++ toBE i

/-- The loop over labels in `create_index` (src/indexer/sled_indexer.rs:133-144, src/indexer/tikv_indexer.rs:136-161): get, then set. -/
def kitCreateLabels (K : Kit) (i : U64) (k : Proc SChunk (Res Unit)) : Labels → Proc SChunk (Res Unit)
  | [] => k
  | l :: ls =>
    .get (fun c : SChunk => c.store.idx (encodeLabel l)) fun v =>
      .put (fun c : SChunk => c.setIdx (encodeLabel l) (K.app i v)) (kitCreateLabels K i k ls)

/-- `create_index` (src/indexer/sled_indexer.rs:109-147, src/indexer/tikv_indexer.rs:115-165) followed by `k` if it succeeds (`?`). -/
def kitCreate (K : Kit) (ls : Labels) (i : U64) (k : Proc SChunk (Res Unit)) : Proc SChunk (Res Unit) :=
  match K.ix with
  | .sled =>
    .get (fun c : SChunk => (c.store.idx (encodeLabels ls true)).isSome) fun dup =>
      if dup then .ret (.err .internal)
      else
        .put (fun c : SChunk => c.setIdx (encodeLabels ls true) (K.fmt i))
          (.put (fun c : SChunk => c.setIdx (encodeId i) (encodeLabels ls false)) (kitCreateLabels K i k ls))
  | .tikv =>
    .put (fun c : SChunk => c.setIdx (encodeId i) (encodeLabels ls false))
      (.put (fun c : SChunk => c.setIdx (encodeLabels ls true) (K.fmt i)) (kitCreateLabels K i k ls))

/-- A panic under the write lock poisons it (src/chunk/chunk.rs:112-117). -/
def kitPanic : Proc SChunk (Res Unit) := .put (fun c : SChunk => { c with poisoned := true }) (.ret .panic)

/-- The stored bytes of a series with the point appended, or why not (src/storage/sled_storage.rs:61-78, src/storage/tikv_storage.rs:35-50). -/
def Kit.append (K : Kit) (p : TimePoint) (old : Option Str) : Res Str :=
  match K.st, old with
  | _, none => .ok (encodePoint p)
  | .sled, some v => .ok (v ++ encodePoint p)
  | .tikv, some v => (lastPoint v).bind fun last => if last.ts.toNat ≥ p.ts.toNat then .err .internal else .ok (v ++ encodePoint p)

/-- `write_time_point` (src/storage/sled_storage.rs:61-78, src/storage/tikv_storage.rs:23-51), get, then set; its result is passed through `f`. -/
def kitWrite (K : Kit) (i : U64) (p : TimePoint) (f : Res Unit → Res Unit) : Proc SChunk (Res Unit) :=
  .get (fun c : SChunk => c.store.ser (K.key i)) fun v =>
    match K.append p v with
    | .ok v' => .put (fun c : SChunk => c.setSer (K.key i) v') (.ret (f (.ok ())))
    | .err e => .ret (f (.err e))
    | .panic => kitPanic

/-- `Chunk::insert` (src/chunk/chunk.rs:110-137) between taking and releasing the write lock. The result of a write to an existing series is
dropped (lines 132-133). -/
def kitInsert (K : Kit) (w : Labels × TimePoint) : Proc SChunk (Res Unit) :=
  .get (fun c : SChunk => (c.poisoned, c.start_, c.end_, c.isInRange w.2.ts)) fun st =>
    if st.1 then .ret .panic
    else if st.2.2.2 then
      .get (fun c : SChunk => K.byLabels c.store.idx w.1) fun r =>
        match r with
        | .err e => .ret (.err e)
        | .panic => kitPanic
        | .ok none =>
          .act (fun c : SChunk => { c with nextId := (idNext c.nextId).2 }) fun c =>
            kitCreate K w.1 (idNext c.nextId).1 (kitWrite K (idNext c.nextId).1 w.2 id)
        | .ok (some i) => kitWrite K i w.2 fun _ => .ok ()
    else .ret (.err (.outOfRange st.2.1 st.2.2.1))

/-! ### Query -/

/-- `get_series_id_contains_labels` (src/indexer/sled_indexer.rs:87-96, src/indexer/tikv_indexer.rs:70-101): one get per label. -/
def kitContains {β : Type} (K : Kit) (k : Res (List (List U64)) → Proc SChunk β) : Labels → List (List U64) → Proc SChunk β
  | [], acc => k (.ok acc)
  | l :: ls, acc =>
    .get (fun c : SChunk => K.getId c.store.idx l) fun r =>
      match r with
      | .ok (some ts) => kitContains K k ls (acc ++ [ts])
      | .ok none => kitContains K k ls acc
      | .err e => k (.err e)
      | .panic => k .panic

/-- The metadata loop (src/indexer/sled_indexer.rs:76-83, src/indexer/tikv_indexer.rs:36-67): one get per id. -/
def kitMeta {β : Type} (K : Kit) (k : Res (List (U64 × Labels)) → Proc SChunk β) : List U64 → List (U64 × Labels) → Proc SChunk β
  | [], acc => k (.ok acc)
  | i :: is, acc =>
    .get (fun c : SChunk => K.meta1 c.store.idx i) fun r =>
      match r with
      | .ok (some m) => kitMeta K k is (acc ++ [m])
      | .ok none => kitMeta K k is acc
      | .err e => k (.err e)
      | .panic => k .panic

/-- The read loop of `Chunk::query` (src/chunk/chunk.rs:153-161): one get per series. -/
def kitRead (K : Kit) (a b : U64) : List (U64 × Labels) → List Series → Proc SChunk (Res (List Series))
  | [], acc => .ret (.ok acc)
  | (i, ls) :: rest, acc =>
    .get (fun c : SChunk => K.read c.store.ser i a b) fun r =>
      match r with
      | .ok d => kitRead K a b rest (if d.length = 0 then acc else acc ++ [⟨i, ls, d⟩])
      | .err e => .ret (.err e)
      | .panic => .ret .panic

/-- `Chunk::query` (src/chunk/chunk.rs:139-162) after the read lock has been taken and released again (lines 145-147: the
guard is dropped at the end of the statement). -/
def kitQuery (K : Kit) (q : Labels) (a b : U64) : Proc SChunk (Res (List Series)) :=
  .get (fun c : SChunk => (c.start_, c.end_, c.isWithRange a b)) fun st =>
    if st.2.2 then
      kitContains K (fun r => match r with
        | .ok ts => kitMeta K (fun m => match m with
            | .ok cands => kitRead K a b cands []
            | .err e => .ret (.err e)
            | .panic => .ret .panic) (intersectAll ts) []
        | .err e => .ret (.err e)
        | .panic => .ret .panic) q []
    else .ret (.err (.outOfRange st.1 st.2.1))

end Verif
