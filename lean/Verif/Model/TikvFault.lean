import Verif.Model.Chunk
/-! A chunk on a TiKV cluster whose operations can fail: the code of the TiKV components as programs over single client operations. -/
namespace Verif

/-- A program over the two client operations (`TiKvRawBackend`, src/backend/tikv.rs:10-12); each answers with a result. -/
inductive KvProg (α : Type) where
  | ret (a : α)
  | get (k : Str) (next : Res (Option Str) → KvProg α)
  | set (k v : Str) (next : Res Unit → KvProg α)

/-- Sequential composition. -/
def KvProg.bind {α β : Type} : KvProg α → (α → KvProg β) → KvProg β
  | .ret a, f => f a
  | .get k next, f => .get k fun r => (next r).bind f
  | .set k v next, f => .set k v fun r => (next r).bind f

/-- What happens to an operation: it succeeds; it fails and has no effect; or it takes effect, but its answer is lost and the client
reports an error (src/backend/tikv.rs:53-63: the error of the network client is passed on). -/
inductive OpOutcome where
  | done
  | failed
  | lost
deriving DecidableEq, Repr

/-- Execution on a cluster; the list says what happens to the operations one after the other (after its end all succeed). Returns the
result, what is left of the list, and the cluster. -/
def KvProg.exec {α : Type} : KvProg α → List OpOutcome → KV → (α × List OpOutcome) × KV
  | .ret a, os, kv => ((a, os), kv)
  | .get k next, os, kv =>
    match os.headD .done with
    | .done => (next (.ok (kv k))).exec os.tail kv
    | _ => (next (.err .tikvErr)).exec os.tail kv
  | .set k v next, os, kv =>
    match os.headD .done with
    | .done => (next (.ok ())).exec os.tail (kv.set k v)
    | .failed => (next (.err .tikvErr)).exec os.tail kv
    | .lost => (next (.err .tikvErr)).exec os.tail (kv.set k v)

/-! ### Storage -/

/-- `TiKvStorage::write_time_point` (src/storage/tikv_storage.rs:23-51): both operations with `?`. -/
def writeP (spre : Str) (i : U64) (p : TimePoint) : KvProg (Res Unit) :=
  .get (tikvKey spre i) fun r =>
    match r with
    | .err e => .ret (.err e)
    | .panic => .ret .panic
    | .ok none => .set (tikvKey spre i) (encodePoint p) .ret
    | .ok (some v) =>
      match lastPoint v with
      | .ok last =>
        if last.ts.toNat ≥ p.ts.toNat then .ret (.err .internal) else .set (tikvKey spre i) (v ++ encodePoint p) .ret
      | .err e => .ret (.err e)
      | .panic => .ret .panic

/-- `TiKvStorage::read_time_series` (src/storage/tikv_storage.rs:53-84). -/
def readP (B : BinSearch) (spre : Str) (i a b : U64) : KvProg (Res (List TimePoint)) :=
  .get (tikvKey spre i) fun r =>
    match r with
    | .err e => .ret (.err e)
    | .panic => .ret .panic
    | .ok none => .ret (.err .notFound)
    | .ok (some v) => .ret ((decodeSeries v).bind fun series => readSeries B series a b)

/-! ### Indexer -/

/-- `TiKvIndexer::get_series_id_by_labels` (src/indexer/tikv_indexer.rs:103-113). -/
def byLabelsP (ipre : Str) (ls : Labels) : KvProg (Res (Option U64)) :=
  .get (ipre ++ encodeLabels ls true) fun r =>
    match r with
    | .err e => .ret (.err e)
    | .panic => .ret .panic
    | .ok none => .ret (.ok none)
    | .ok (some v) => .ret ((Res.ofPanic (fromBE v)).bind fun i => .ok (some i))

/-- The reverse entries in `TiKvIndexer::create_index` (src/indexer/tikv_indexer.rs:136-161): a label whose entry cannot be read is
skipped, the result of the write is dropped. -/
def createLabelsP (ipre : Str) (i : U64) : Labels → KvProg Unit
  | [] => .ret ()
  | l :: ls =>
    .get (ipre ++ encodeLabel l) fun r =>
      match r with
      | .ok none => .set (ipre ++ encodeLabel l) (toBE i) fun _ => createLabelsP ipre i ls
      | .ok (some v) => .set (ipre ++ encodeLabel l) (v ++ toBE i) fun _ => createLabelsP ipre i ls
      | _ => createLabelsP ipre i ls

/-- `TiKvIndexer::create_index` (src/indexer/tikv_indexer.rs:115-165): all results are dropped, always `Ok`. -/
def createP (ipre : Str) (ls : Labels) (i : U64) : KvProg (Res Unit) :=
  .set (ipre ++ encodeId i) (encodeLabels ls false) fun _ =>
    .set (ipre ++ encodeLabels ls true) (toBE i) fun _ => (createLabelsP ipre i ls).bind fun _ => .ret (.ok ())

/-- The reverse entries read by `TiKvIndexer::get_series_id_contains_labels` (src/indexer/tikv_indexer.rs:70-88): labels without an entry
and labels whose entry cannot be read are skipped. -/
def entriesP (ipre : Str) : Labels → KvProg (List Str)
  | [] => .ret []
  | l :: ls =>
    .get (ipre ++ encodeLabel l) fun r =>
      match r with
      | .ok (some v) => (entriesP ipre ls).bind fun vs => .ret (v :: vs)
      | _ => entriesP ipre ls

/-- `TiKvIndexer::get_series_id_contains_labels` (src/indexer/tikv_indexer.rs:70-101). -/
def containsP (ipre : Str) (ls : Labels) : KvProg (Res (List U64)) :=
  (entriesP ipre ls).bind fun vs => .ret ((Res.mapM decodeIds vs).bind fun ts => .ok (intersectAll ts))

/-- The iterator chain of `TiKvIndexer::get_series_metadata_contains_labels` (src/indexer/tikv_indexer.rs:36-67): an id whose labels
cannot be read or decoded is skipped. -/
def labelsOfP (ipre : Str) : List U64 → KvProg (List (U64 × Labels))
  | [] => .ret []
  | i :: is =>
    .get (ipre ++ encodeId i) fun r =>
      match r with
      | .ok (some v) =>
        match decodeLabels v with
        | .ok ls => (labelsOfP ipre is).bind fun ms => .ret ((i, ls) :: ms)
        | _ => labelsOfP ipre is
      | _ => labelsOfP ipre is

/-- `TiKvIndexer::get_series_metadata_contains_labels` (src/indexer/tikv_indexer.rs:29-68). -/
def metadataP (ipre : Str) (ls : Labels) : KvProg (Res (List (U64 × Labels))) :=
  (containsP ipre ls).bind fun r =>
    match r with
    | .ok ids => (labelsOfP ipre ids).bind fun ms => .ret (.ok ms)
    | .err e => .ret (.err e)
    | .panic => .ret .panic

/-! ### Chunk -/

/-- `Chunk::insert` (src/chunk/chunk.rs:110-137) on TiKV components; the chunk's own state is carried along. -/
def insertP (ipre spre : Str) (c : Chunk Unit) (ls : Labels) (p : TimePoint) : KvProg (Res Unit × Chunk Unit) :=
  if c.poisoned then .ret (.panic, c)
  else if c.isInRange p.ts then
    (byLabelsP ipre ls).bind fun r =>
      match r with
      | .err e => .ret (.err e, c)
      | .panic => .ret (Chunk.seal (.panic, c))
      | .ok none =>
        (createP ipre ls (idNext c.nextId).1).bind fun r =>
          match r with
          | .ok () => (writeP spre (idNext c.nextId).1 p).bind fun w => .ret (Chunk.seal (w, { c with nextId := (idNext c.nextId).2 }))
          | .err e => .ret (.err e, { c with nextId := (idNext c.nextId).2 })
          | .panic => .ret (Chunk.seal (.panic, { c with nextId := (idNext c.nextId).2 }))
      | .ok (some i) =>
        (writeP spre i p).bind fun w =>
          match w with
          | .panic => .ret (Chunk.seal (.panic, c))
          | _ => .ret (.ok (), c)
  else .ret (.err (.outOfRange c.start_ c.end_), c)

/-- The loop of `Chunk::query` (src/chunk/chunk.rs:153-161). -/
def readAllP (B : BinSearch) (spre : Str) (a b : U64) : List (U64 × Labels) → KvProg (Res (List Series))
  | [] => .ret (.ok [])
  | (i, ls) :: rest =>
    (readP B spre i a b).bind fun r =>
      match r with
      | .ok d => (readAllP B spre a b rest).bind fun r' => .ret (r'.bind fun ss => .ok (if d.length = 0 then ss else ⟨i, ls, d⟩ :: ss))
      | .err e => .ret (.err e)
      | .panic => .ret .panic

/-- `Chunk::query` (src/chunk/chunk.rs:139-162) on TiKV components. -/
def queryP (B : BinSearch) (ipre spre : Str) (c : Chunk Unit) (q : Labels) (a b : U64) : KvProg (Res (List Series)) :=
  if c.poisoned then .ret .panic
  else if c.isWithRange a b then
    (metadataP ipre q).bind fun r =>
      match r with
      | .ok ms => readAllP B spre a b ms
      | .err e => .ret (.err e)
      | .panic => .ret .panic
  else .ret (.err (.outOfRange c.start_ c.end_))

/-- A call of `insert` and what happens to its operations. -/
structure FaultyInsert where
  ls : Labels
  p : TimePoint
  os : List OpOutcome

/-- One insert. -/
def faultyInsert (ipre spre : Str) (st : Chunk Unit × KV) (w : FaultyInsert) : Res Unit × (Chunk Unit × KV) :=
  let r := (insertP ipre spre st.1 w.ls w.p).exec w.os st.2
  (r.1.1.1, (r.1.1.2, r.2))

/-- A sequence of inserts into a new chunk with window `(lo, hi)`. -/
def faultyRun (ipre spre : Str) (lo hi : U64) (kv : KV) (h : List FaultyInsert) : Chunk Unit × KV :=
  h.foldl (fun st w => (faultyInsert ipre spre st w).2) (Chunk.new () lo hi, kv)

/-- A query, with what happens to its operations. -/
def faultyQuery (B : BinSearch) (ipre spre : Str) (st : Chunk Unit × KV) (q : Labels) (a b : U64) (os : List OpOutcome) : Res (List Series) :=
  ((queryP B ipre spre st.1 q a b).exec os st.2).1.1

end Verif
