import Verif.Model.Chunk
import Verif.Model.Conc
/-! Chunk operations as sequences of elementary sled operations (get, contains_key, set) and atomic counter increments. -/
namespace Verif

/-- The state shared by the threads using a sled chunk. -/
abbrev SChunk := Chunk SledStores

/-- `tree.set` on the index tree. -/
def SChunk.setIdx (c : SChunk) (k v : Str) : SChunk := { c with store := { c.store with idx := c.store.idx.set k v } }
/-- `storage.set` on the series tree. -/
def SChunk.setSer (c : SChunk) (k v : Str) : SChunk := { c with store := { c.store with ser := c.store.ser.set k v } }

/-- The loop over labels in `SledIndexer::create_index` (src/indexer/sled_indexer.rs:133-144): get, then set. -/
def createLabelsProc (i : U64) (k : Proc SChunk (Res Unit)) : Labels → Proc SChunk (Res Unit)
  | [] => k
  | l :: ls =>
    .get (fun c : SChunk => c.store.idx (encodeLabel l)) fun v =>
      .put (fun c : SChunk => c.setIdx (encodeLabel l) (match v with
        | none => fmtId i
        | some v => v ++ comma :: fmtId i)) (createLabelsProc i k ls)

/-- `SledIndexer::create_index` (src/indexer/sled_indexer.rs:109-147) followed by `k` if it succeeds (`?`). -/
def createProc (ls : Labels) (i : U64) (k : Proc SChunk (Res Unit)) : Proc SChunk (Res Unit) :=
  .get (fun c : SChunk => (c.store.idx (encodeLabels ls true)).isSome) fun dup =>
    if dup then .ret (.err .internal)
    else
      .put (fun c : SChunk => c.setIdx (encodeLabels ls true) (fmtId i))
        (.put (fun c : SChunk => c.setIdx (encodeId i) (encodeLabels ls false)) (createLabelsProc i k ls))

/-- `SledStorage::write_time_point` (src/storage/sled_storage.rs:61-78): get, then set. -/
def writeProc (i : U64) (p : TimePoint) : Proc SChunk (Res Unit) :=
  .get (fun c : SChunk => c.store.ser (sledKey i)) fun v =>
    .put (fun c : SChunk => c.setSer (sledKey i) (match v with
      | some cur => cur ++ encodePoint p
      | none => encodePoint p)) (.ret (.ok ()))

/-- `Chunk::insert` (src/chunk/chunk.rs:110-137) between taking and releasing the write lock. -/
def insertProc (w : Labels × TimePoint) : Proc SChunk (Res Unit) :=
  .get (fun c : SChunk => (c.poisoned, c.start_, c.end_, c.isInRange w.2.ts)) fun st =>
    if st.1 then .ret .panic
    else if st.2.2.2 then
      .get (fun c : SChunk => sledByLabels c.store.idx w.1) fun r =>
        match r with
        | .err e => .ret (.err e)
        | .panic => .ret .panic
        | .ok none =>
          .act (fun c : SChunk => { c with nextId := (idNext c.nextId).2 }) fun c =>
            createProc w.1 (idNext c.nextId).1 (writeProc (idNext c.nextId).1 w.2)
        | .ok (some i) => writeProc i w.2
    else .ret (.err (.outOfRange st.2.1 st.2.2.1))

/-- Inserts one after another; results dropped. -/
def insertsProc : List (Labels × TimePoint) → Proc SChunk Unit
  | [] => .ret ()
  | w :: ws => (insertProc w).bind fun _ => insertsProc ws

/-! ### Query -/

/-- `get_series_id_contains_labels` (src/indexer/sled_indexer.rs:87-96): one get per label. -/
def containsProc {β : Type} (k : Res (List (List U64)) → Proc SChunk β) : Labels → List (List U64) → Proc SChunk β
  | [], acc => k (.ok acc)
  | l :: ls, acc =>
    .get (fun c : SChunk => sledGetId c.store.idx l) fun r =>
      match r with
      | .ok (some ts) => containsProc k ls (acc ++ [ts])
      | .ok none => containsProc k ls acc
      | .err e => k (.err e)
      | .panic => k .panic

/-- The metadata loop (src/indexer/sled_indexer.rs:76-83): one get per id. -/
def metaProc {β : Type} (k : Res (List (U64 × Labels)) → Proc SChunk β) : List U64 → List (U64 × Labels) → Proc SChunk β
  | [], acc => k (.ok acc)
  | i :: is, acc =>
    .get (fun c : SChunk => sledMeta1 c.store.idx i) fun r =>
      match r with
      | .ok (some m) => metaProc k is (acc ++ [m])
      | .ok none => metaProc k is acc
      | .err e => k (.err e)
      | .panic => k .panic

/-- The read loop of `Chunk::query` (src/chunk/chunk.rs:153-161): one get per series. -/
def readProc (B : BinSearch) (a b : U64) : List (U64 × Labels) → List Series → Proc SChunk (Res (List Series))
  | [], acc => .ret (.ok acc)
  | (i, ls) :: rest, acc =>
    .get (fun c : SChunk => sledRead B c.store.ser i a b) fun r =>
      match r with
      | .ok d => readProc B a b rest (if d.length = 0 then acc else acc ++ [⟨i, ls, d⟩])
      | .err e => .ret (.err e)
      | .panic => .ret .panic

/-- `Chunk::query` (src/chunk/chunk.rs:139-162) after the read lock has been taken and released again (lines 145-147: the
guard is dropped at the end of the statement). -/
def queryProc (B : BinSearch) (q : Labels) (a b : U64) : Proc SChunk (Res (List Series)) :=
  .get (fun c : SChunk => (c.start_, c.end_, c.isWithRange a b)) fun st =>
    if st.2.2 then
      containsProc (fun r => match r with
        | .ok ts => metaProc (fun m => match m with
            | .ok cands => readProc B a b cands []
            | .err e => .ret (.err e)
            | .panic => .ret .panic) (intersectAll ts) []
        | .err e => .ret (.err e)
        | .panic => .ret .panic) q []
    else .ret (.err (.outOfRange st.1 st.2.1))

end Verif
