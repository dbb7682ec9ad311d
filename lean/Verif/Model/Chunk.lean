import Verif.Model.Storage
import Verif.Model.Misc
/-! Chunks (src/chunk/chunk.rs), generic in storage and indexer as in the program. -/
namespace Verif

/-- The operations of a `Storage` (src/storage/common.rs:8-30) and an `Indexer` (src/indexer/common.rs:9-34) instance on
the stores `σ` behind them. -/
structure Comp (σ : Type) where
  /-- `get_series_id_by_labels` -/
  byLabels : σ → Labels → Res (Option U64)
  /-- `create_index` -/
  create : σ → Labels → U64 → Res Unit × σ
  /-- `get_series_metadata_contains_labels` -/
  metadata : σ → Labels → Res (List (U64 × Labels))
  /-- `write_time_point` -/
  write : σ → U64 → TimePoint → Res Unit × σ
  /-- `read_time_series` -/
  read : σ → U64 → U64 → U64 → Res (List TimePoint)

/-- The two sled trees of a chunk: `<chunk dir>/indexer` and `<chunk dir>/storage` (src/indexer/sled_indexer.rs:159,
src/storage/sled_storage.rs:144). -/
structure SledStores where
  idx : KV
  ser : KV

/-- `SledIndexer` and `SledStorage`. -/
def sledComp (B : BinSearch) : Comp SledStores where
  byLabels s ls := sledByLabels s.idx ls
  create s ls i := ((sledCreate s.idx ls i).1, { s with idx := (sledCreate s.idx ls i).2 })
  metadata s ls := sledMetadata s.idx ls
  write s i p := ((sledWrite s.ser i p).1, { s with ser := (sledWrite s.ser i p).2 })
  read s i a b := sledRead B s.ser i a b

/-- `TiKvIndexer` with identifier `ipre` and `TiKvStorage` with identifier `spre` on one TiKV cluster. -/
def tikvComp (B : BinSearch) (ipre spre : Str) : Comp KV where
  byLabels s ls := tikvByLabels ipre s ls
  create s ls i := tikvCreate ipre s ls i
  metadata s ls := tikvMetadata ipre s ls
  write s i p := tikvWrite spre s i p
  read s i a b := tikvRead B spre s i a b

/-- `Chunk` (src/chunk/chunk.rs:72-80). `poisoned` is the state of the `RwLock`: a panic while it is write-locked makes
every later `lock().expect(..)` panic. -/
structure Chunk (σ : Type) where
  start_ : U64
  end_ : U64
  closed : Bool
  nextId : U64
  poisoned : Bool
  store : σ

/-- `Chunk::new` with both times given (src/chunk/chunk.rs:83-96). -/
def Chunk.new {σ : Type} (store : σ) (start_ end_ : U64) : Chunk σ := ⟨start_, end_, false, 1#64, false, store⟩

/-- `Chunk::new` (src/chunk/chunk.rs:83-96) from options with possibly missing times; `now` is the clock reading. The
default length is `DEFAULT_CHUNK_SIZE` = "12000" (src/lib.rs:44). In release the addition wraps. -/
def Chunk.newOpts {σ : Type} (store : σ) (start_ end_ : Option U64) (now : U64) : Chunk σ :=
  let s := start_.getD now
  Chunk.new store s (end_.getD (s + 12000#64))

/-- `Chunk::close` (src/chunk/chunk.rs:98-104). -/
def Chunk.close {σ : Type} (c : Chunk σ) : Res Unit × Chunk σ :=
  if c.poisoned then (.panic, c) else (.ok (), { c with closed := true })

/-- `Chunk::is_in_range` (src/chunk/chunk.rs:173-175). -/
def Chunk.isInRange {σ : Type} (c : Chunk σ) (t : U64) : Bool :=
  decide (c.start_.toNat < t.toNat) && decide (c.end_.toNat > t.toNat)

/-- A panic inside the write-locked section poisons the lock. -/
def Chunk.seal {σ : Type} (r : Res Unit × Chunk σ) : Res Unit × Chunk σ :=
  match r.1 with
  | .panic => (.panic, { r.2 with poisoned := true })
  | _ => r

/-- The body of `Chunk::insert` inside the lock, after the range check (src/chunk/chunk.rs:123-136). The result of the
write to an existing series is dropped (lines 132-133), but its panic is not. -/
def Chunk.insertBody {σ : Type} (C : Comp σ) (c : Chunk σ) (ls : Labels) (p : TimePoint) : Res Unit × Chunk σ :=
  match C.byLabels c.store ls with
  | .err e => (.err e, c)
  | .panic => (.panic, c)
  | .ok none =>
    let i := (idNext c.nextId).1
    let c1 := { c with nextId := (idNext c.nextId).2 }
    let r := C.create c1.store ls i
    let c2 := { c1 with store := r.2 }
    match r.1 with
    | .ok () =>
      let w := C.write c2.store i p
      (w.1, { c2 with store := w.2 })
    | .err e => (.err e, c2)
    | .panic => (.panic, c2)
  | .ok (some i) =>
    let w := C.write c.store i p
    let c' := { c with store := w.2 }
    match w.1 with
    | .panic => (.panic, c')
    | _ => (.ok (), c')

/-- `Chunk::insert` (src/chunk/chunk.rs:110-137), whole call under the write lock. -/
def Chunk.insert {σ : Type} (C : Comp σ) (c : Chunk σ) (ls : Labels) (p : TimePoint) : Res Unit × Chunk σ :=
  if c.poisoned then (.panic, c)
  else if c.isInRange p.ts then Chunk.seal (Chunk.insertBody C c ls p)
  else (.err (.outOfRange c.start_ c.end_), c)

/-- `TimeSeries` (src/common/time_series.rs:10-15). -/
structure Series where
  id : U64
  labels : Labels
  points : List TimePoint
deriving DecidableEq, Repr

/-- The loop of `Chunk::query` (src/chunk/chunk.rs:153-161). -/
def readAll {σ : Type} (C : Comp σ) (s : σ) (a b : U64) : List (U64 × Labels) → Res (List Series)
  | [] => .ok []
  | (i, ls) :: rest => (C.read s i a b).bind fun d => (readAll C s a b rest).bind fun r =>
      .ok (if d.length = 0 then r else ⟨i, ls, d⟩ :: r)

/-- `Chunk::is_with_range` (src/chunk/chunk.rs:164-166). -/
def Chunk.isWithRange {σ : Type} (c : Chunk σ) (a b : U64) : Bool := isDurationOverlap c.start_ c.end_ a b

/-- `Chunk::query` (src/chunk/chunk.rs:139-162) without concurrent writers. -/
def Chunk.query {σ : Type} (C : Comp σ) (c : Chunk σ) (ls : Labels) (a b : U64) : Res (List Series) :=
  if c.poisoned then .panic
  else if c.isWithRange a b then (C.metadata c.store ls).bind (readAll C c.store a b)
  else .err (.outOfRange c.start_ c.end_)

end Verif
