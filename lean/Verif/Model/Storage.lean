import Verif.Model.Indexer
/-! Sled storage (src/storage/sled_storage.rs), TiKV storage (src/storage/tikv_storage.rs) and the shared range selection
(src/storage/common.rs). -/
namespace Verif

/-- The documented contract of `slice::binary_search` on the timestamps of a slice (`TimePoint::cmp` compares timestamps
only, src/common/time_point.rs:29-33): `(true, i)` is `Ok(i)`, `(false, i)` is `Err(i)`. Nothing is promised for unsorted
slices. -/
structure BinSearch where
  /-- the search -/
  run : List U64 → U64 → Bool × Nat
  found : ∀ l x i, l.Pairwise (fun a b => a.toNat ≤ b.toNat) → run l x = (true, i) → l[i]? = some x
  missing : ∀ l x i, l.Pairwise (fun a b => a.toNat ≤ b.toNat) → run l x = (false, i) →
    i ≤ l.length ∧ (∀ y ∈ l.take i, y.toNat < x.toNat) ∧ ∀ y ∈ l.drop i, x.toNat < y.toNat

/-- `&series[left..=right]` where `right` is given as an exclusive end (`none`: `idx - 1` underflowed; the overflow check
or the bounds check panics in either build mode). -/
def sliceIncl (series : List TimePoint) (left : Nat) (rightEnd : Option Nat) : Res (List TimePoint) :=
  match rightEnd with
  | none => .panic
  | some r => if r ≤ series.length ∧ left ≤ r then .ok ((series.take r).drop left) else .panic

/-- `Storage::trim_time_series` (src/storage/common.rs:32-48). `right + 1` is `idx + 1` for `Ok(idx)` and `idx` for
`Err(idx)`, where `Err(0)` underflows. -/
def trimSeries (B : BinSearch) (series : List TimePoint) (start end_ : U64) : Res (List TimePoint) :=
  let keys := series.map (·.ts)
  let left := (B.run keys start).2
  let right := match B.run keys end_ with
    | (true, i) => some (i + 1)
    | (false, 0) => none
    | (false, i + 1) => some (i + 1)
  sliceIncl series left right

/-- Range check and selection of `read_time_series` on a decoded series (src/storage/sled_storage.rs:87-95,
src/storage/tikv_storage.rs:71-80). `first().unwrap()` panics on an empty series. -/
def readSeries (B : BinSearch) (series : List TimePoint) (start end_ : U64) : Res (List TimePoint) :=
  match series.head?, series.getLast? with
  | some f, some l =>
    if f.ts.toNat > end_.toNat ∨ l.ts.toNat < start.toNat then .err (.outOfRange f.ts l.ts)
    else trimSeries B series start end_
  | _, _ => .panic

/-- `encode_time_point` (src/storage/sled_storage.rs:108-116). -/
def encodePoint (p : TimePoint) : Str := toBE p.ts ++ toBE p.val

/-- `decode_time_point` (src/storage/sled_storage.rs:118-133). -/
def decodePoint (raw : Str) : Res TimePoint :=
  if raw.length ≠ 16 then .err .internal
  else (Res.ofPanic (fromBE (raw.take 8))).bind fun t => (Res.ofPanic (fromBE (raw.drop 8))).bind fun v => .ok ⟨t, v⟩

/-- The decoding loop over 16-byte pieces (src/storage/sled_storage.rs:47-52, src/storage/tikv_storage.rs:66-69). -/
def decodeSeries (v : Str) : Res (List TimePoint) := Res.mapM decodePoint (chunksOf 16 v.length v)

/-! ### Sled -/

/-- `parse_key_name("TS", id)` (src/storage/sled_storage.rs:13, 36-38). -/
def sledKey (id : U64) : Str := [84#8, 83#8] ++ fmtId id

/-- `SledStorage::write_time_point` (src/storage/sled_storage.rs:61-78). Sled itself does not fail here. -/
def sledWrite (kv : KV) (id : U64) (p : TimePoint) : Res Unit × KV :=
  match kv (sledKey id) with
  | some cur => (.ok (), kv.set (sledKey id) (cur ++ encodePoint p))
  | none => (.ok (), kv.set (sledKey id) (encodePoint p))

/-- `SledStorage::read_time_series` (src/storage/sled_storage.rs:80-96) with `get_series_by_id` (lines 40-57). -/
def sledRead (B : BinSearch) (kv : KV) (id start end_ : U64) : Res (List TimePoint) :=
  match kv (sledKey id) with
  | none => .err .notFound
  | some v => (decodeSeries v).bind fun series => readSeries B series start end_

/-! ### TiKV -/

/-- Key of a series: storage identifier followed by the 8 id bytes (src/storage/tikv_storage.rs:32-34, 61-63). -/
def tikvKey (pre : Str) (id : U64) : Str := pre ++ toBE id

/-- `&val[(val.len() - 16)..]` and decoding (src/storage/tikv_storage.rs:37-38); the subtraction panics (or the slice does)
on a value shorter than 16 bytes. -/
def lastPoint (v : Str) : Res TimePoint := if v.length < 16 then .panic else decodePoint (v.drop (v.length - 16))

/-- `TiKvStorage::write_time_point` (src/storage/tikv_storage.rs:23-51); the client never fails here. -/
def tikvWrite (pre : Str) (kv : KV) (id : U64) (p : TimePoint) : Res Unit × KV :=
  match kv (tikvKey pre id) with
  | some v =>
    match lastPoint v with
    | .ok last =>
      if last.ts.toNat ≥ p.ts.toNat then (.err .internal, kv)
      else (.ok (), kv.set (tikvKey pre id) (v ++ encodePoint p))
    | .err e => (.err e, kv)
    | .panic => (.panic, kv)
  | none => (.ok (), kv.set (tikvKey pre id) (encodePoint p))

/-- `TiKvStorage::read_time_series` (src/storage/tikv_storage.rs:53-84). -/
def tikvRead (B : BinSearch) (pre : Str) (kv : KV) (id start end_ : U64) : Res (List TimePoint) :=
  match kv (tikvKey pre id) with
  | none => .err .notFound
  | some v => (decodeSeries v).bind fun series => readSeries B series start end_

/-! ### The search of the standard library -/

/-- `while size > 1` loop of `binary_search_by` (Rust before 1.52; not a file of /repo). -/
def stdSearchLoop (l : List U64) (x : U64) : Nat → Nat → Nat → Nat
  | 0, base, _ => base
  | fuel + 1, base, size =>
    if size > 1 then
      let half := size / 2
      let mid := base + half
      let base' := if (l[mid]?.getD 0#64).toNat > x.toNat then base else mid
      stdSearchLoop l x fuel base' (size - half)
    else base

/-- `binary_search_by` of the Rust standard library (before 1.52). -/
def stdSearch (l : List U64) (x : U64) : Bool × Nat :=
  if l.length = 0 then (false, 0)
  else
    let base := stdSearchLoop l x l.length 0 l.length
    let y := l[base]?.getD 0#64
    if y = x then (true, base) else (false, base + (if y.toNat < x.toNat then 1 else 0))

end Verif
