import Verif.Model.TikvFault
/-! A chunk on two sled trees whose operations can fail: the code of the sled components as programs over single tree operations. -/
namespace Verif

/-- The two trees of a chunk (src/indexer/sled_indexer.rs:159, src/storage/sled_storage.rs:144). -/
inductive TreeName where
  | idx
  | ser
deriving DecidableEq, Repr

/-- `Tree::get`. -/
def SledStores.get (s : SledStores) : TreeName → Str → Option Str
  | .idx, k => s.idx k
  | .ser, k => s.ser k

/-- `Tree::set`. -/
def SledStores.set (s : SledStores) : TreeName → Str → Str → SledStores
  | .idx, k, v => { s with idx := s.idx.set k v }
  | .ser, k, v => { s with ser := s.ser.set k v }

/-- A program over the operations of the trees; each answers with a result. -/
inductive TreeProg (α : Type) where
  | ret (a : α)
  | get (t : TreeName) (k : Str) (next : Res (Option Str) → TreeProg α)
  | set (t : TreeName) (k v : Str) (next : Res Unit → TreeProg α)
  | flush (t : TreeName) (next : Res Unit → TreeProg α)

/-- Sequential composition. -/
def TreeProg.bind {α β : Type} : TreeProg α → (α → TreeProg β) → TreeProg β
  | .ret a, f => f a
  | .get t k next, f => .get t k fun r => (next r).bind f
  | .set t k v next, f => .set t k v fun r => (next r).bind f
  | .flush t next, f => .flush t fun r => (next r).bind f

/-- `let a = p?; f(a)`. -/
def TreeProg.andThen {α β : Type} (p : TreeProg (Res α)) (f : α → TreeProg (Res β)) : TreeProg (Res β) :=
  p.bind fun r =>
    match r with
    | .ok a => f a
    | .err e => .ret (.err e)
    | .panic => .ret .panic

/-- A loop with `?` in its body that collects the results. -/
def TreeProg.each {α β : Type} (f : α → TreeProg (Res β)) : List α → TreeProg (Res (List β))
  | [] => .ret (.ok [])
  | a :: as => (f a).andThen fun b => (TreeProg.each f as).andThen fun bs => .ret (.ok (b :: bs))

/-- Execution; the list says what happens to the operations one after the other, as for TiKV (after its end all succeed). An error of sled
becomes an `IoError` (src/error.rs:60-67). A failing `set` may or
may not have changed the tree. `Tree::flush` changes nothing that can be read. -/
def TreeProg.exec {α : Type} : TreeProg α → List OpOutcome → SledStores → (α × List OpOutcome) × SledStores
  | .ret a, os, s => ((a, os), s)
  | .get t k next, os, s =>
    match os.headD .done with
    | .done => (next (.ok (s.get t k))).exec os.tail s
    | _ => (next (.err .ioErr)).exec os.tail s
  | .set t k v next, os, s =>
    match os.headD .done with
    | .done => (next (.ok ())).exec os.tail (s.set t k v)
    | .failed => (next (.err .ioErr)).exec os.tail s
    | .lost => (next (.err .ioErr)).exec os.tail (s.set t k v)
  | .flush _ next, os, s =>
    match os.headD .done with
    | .done => (next (.ok ())).exec os.tail s
    | _ => (next (.err .ioErr)).exec os.tail s

/-! ### Storage -/

/-- `SledStorage::write_time_point` (src/storage/sled_storage.rs:61-78): the result of the `set` that extends an existing series is
dropped. -/
def slWriteP (i : U64) (p : TimePoint) : TreeProg (Res Unit) :=
  (TreeProg.get .ser (sledKey i) .ret).andThen fun cur =>
    match cur with
    | some v => .set .ser (sledKey i) (v ++ encodePoint p) fun _ => .ret (.ok ())
    | none => (TreeProg.set .ser (sledKey i) (encodePoint p) .ret).andThen fun _ => .ret (.ok ())

/-- `SledStorage::read_time_series` (src/storage/sled_storage.rs:80-96, 40-57). -/
def slReadP (B : BinSearch) (i a b : U64) : TreeProg (Res (List TimePoint)) :=
  (TreeProg.get .ser (sledKey i) .ret).andThen fun cur =>
    match cur with
    | none => .ret (.err .notFound)
    | some v => .ret ((decodeSeries v).bind fun series => readSeries B series a b)

/-! ### Indexer -/

/-- `SledIndexer::get_id` (src/indexer/sled_indexer.rs:47-60). -/
def slGetIdP (l : Label) : TreeProg (Res (Option (List U64))) :=
  (TreeProg.get .idx (encodeLabel l) .ret).andThen fun cur =>
    match cur with
    | some v => .ret ((Res.mapM parseId (splitComma v)).bind fun ids => .ok (some ids))
    | none => .ret (.ok none)

/-- `SledIndexer::get_series_id_contains_labels` (src/indexer/sled_indexer.rs:87-96). -/
def slContainsP (ls : Labels) : TreeProg (Res (List U64)) :=
  (TreeProg.each slGetIdP ls).andThen fun ts => .ret (.ok (intersectAll (ts.filterMap id)))

/-- One iteration of the metadata loop (src/indexer/sled_indexer.rs:76-83). -/
def slMeta1P (i : U64) : TreeProg (Res (Option (U64 × Labels))) :=
  (TreeProg.get .idx (encodeId i) .ret).andThen fun cur =>
    match cur with
    | some v => .ret ((decodeLabels v).bind fun ls => .ok (some (i, ls)))
    | none => .ret (.ok none)

/-- `SledIndexer::get_series_metadata_contains_labels` (src/indexer/sled_indexer.rs:70-85). -/
def slMetadataP (ls : Labels) : TreeProg (Res (List (U64 × Labels))) :=
  (slContainsP ls).andThen fun ids => (TreeProg.each slMeta1P ids).andThen fun r => .ret (.ok (r.filterMap id))

/-- `SledIndexer::get_series_id_by_labels` (src/indexer/sled_indexer.rs:98-107). -/
def slByLabelsP (ls : Labels) : TreeProg (Res (Option U64)) :=
  (TreeProg.get .idx (encodeLabels ls true) .ret).andThen fun cur =>
    match cur with
    | some v => .ret ((parseId v).bind fun i => .ok (some i))
    | none => .ret (.ok none)

/-- The reverse entries in `SledIndexer::create_index` (src/indexer/sled_indexer.rs:133-144): `?` on the `get`, the results of `set` and
`flush` are dropped. Stored strings are valid UTF-8. -/
def slCreateLabelsP (i : U64) : Labels → TreeProg (Res Unit)
  | [] => .ret (.ok ())
  | l :: ls =>
    (TreeProg.get .idx (encodeLabel l) .ret).andThen fun cur =>
      .set .idx (encodeLabel l) (match cur with
        | none => fmtId i
        | some v => v ++ comma :: fmtId i) fun _ => .flush .idx fun _ => slCreateLabelsP i ls

/-- `SledIndexer::create_index` (src/indexer/sled_indexer.rs:109-147): `?` on `contains_key`, the results of the `set`s are dropped. -/
def slCreateP (ls : Labels) (i : U64) : TreeProg (Res Unit) :=
  (TreeProg.get .idx (encodeLabels ls true) .ret).andThen fun cur =>
    if cur.isSome then .ret (.err .internal)
    else
      .set .idx (encodeLabels ls true) (fmtId i) fun _ =>
        .set .idx (encodeId i) (encodeLabels ls false) fun _ => slCreateLabelsP i ls

/-! ### Chunk -/

/-- `Chunk::insert` (src/chunk/chunk.rs:110-137) on sled components; the chunk's own state is carried along. -/
def slInsertP (c : Chunk Unit) (ls : Labels) (p : TimePoint) : TreeProg (Res Unit × Chunk Unit) :=
  if c.poisoned then .ret (.panic, c)
  else if c.isInRange p.ts then
    (slByLabelsP ls).bind fun r =>
      match r with
      | .err e => .ret (.err e, c)
      | .panic => .ret (Chunk.seal (.panic, c))
      | .ok none =>
        (slCreateP ls (idNext c.nextId).1).bind fun r =>
          match r with
          | .ok () => (slWriteP (idNext c.nextId).1 p).bind fun w => .ret (Chunk.seal (w, { c with nextId := (idNext c.nextId).2 }))
          | .err e => .ret (.err e, { c with nextId := (idNext c.nextId).2 })
          | .panic => .ret (Chunk.seal (.panic, { c with nextId := (idNext c.nextId).2 }))
      | .ok (some i) =>
        (slWriteP i p).bind fun w =>
          match w with
          | .panic => .ret (Chunk.seal (.panic, c))
          | _ => .ret (.ok (), c)
  else .ret (.err (.outOfRange c.start_ c.end_), c)

/-- The loop of `Chunk::query` (src/chunk/chunk.rs:153-161). -/
def slReadAllP (B : BinSearch) (a b : U64) : List (U64 × Labels) → TreeProg (Res (List Series))
  | [] => .ret (.ok [])
  | (i, ls) :: rest =>
    (slReadP B i a b).andThen fun d => (slReadAllP B a b rest).andThen fun ss => .ret (.ok (if d.length = 0 then ss else ⟨i, ls, d⟩ :: ss))

/-- `Chunk::query` (src/chunk/chunk.rs:139-162) on sled components. -/
def slQueryP (B : BinSearch) (c : Chunk Unit) (q : Labels) (a b : U64) : TreeProg (Res (List Series)) :=
  if c.poisoned then .ret .panic
  else if c.isWithRange a b then (slMetadataP q).andThen (slReadAllP B a b)
  else .ret (.err (.outOfRange c.start_ c.end_))

/-- One insert, with what happens to its operations. -/
def slFaultyInsert (st : Chunk Unit × SledStores) (w : FaultyInsert) : Res Unit × (Chunk Unit × SledStores) :=
  let r := (slInsertP st.1 w.ls w.p).exec w.os st.2
  (r.1.1.1, (r.1.1.2, r.2))

/-- A sequence of inserts into a new chunk with window `(lo, hi)`. -/
def slFaultyRun (lo hi : U64) (h : List FaultyInsert) : Chunk Unit × SledStores :=
  h.foldl (fun st w => (slFaultyInsert st w).2) (Chunk.new () lo hi, ⟨KV.empty, KV.empty⟩)

/-- A query, with what happens to its operations. -/
def slFaultyQuery (B : BinSearch) (st : Chunk Unit × SledStores) (q : Labels) (a b : U64) (os : List OpOutcome) : Res (List Series) :=
  ((slQueryP B st.1 q a b).exec os st.2).1.1

end Verif
