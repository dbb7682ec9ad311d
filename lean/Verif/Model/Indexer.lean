import Verif.Model.Label
import Verif.Model.Intersect
/-! The sled indexer (src/indexer/sled_indexer.rs) and the TiKV indexer (src/indexer/tikv_indexer.rs). -/
namespace Verif

/-- A key-value store: sled `Tree` or the TiKV raw client (`get` returns the last `set`). -/
abbrev KV := Str → Option Str

/-- A store without entries. -/
def KV.empty : KV := fun _ => none
/-- `set` / `put`. -/
def KV.set (kv : KV) (k v : Str) : KV := fun k' => if k' = k then some v else kv k'

/-- A schedule in which every worker's message has arrived at the first poll. -/
def eagerSchedule : Schedule := fun _ => [(true, true)]

/-- The value of `intersect_time_series_id_vec`. By C13 it is the same under every fair schedule, so the indexers use the
one of the eager schedule. -/
def intersectAll (ts : List (List U64)) : List U64 := (intersectIds eagerSchedule ts).getD []

/-! ### Sled -/

/-- `format!("{}", id)`. -/
def fmtId (id : U64) : Str := formatNat 10 id.toNat

/-- `str::parse::<u64>()?`. -/
def parseId (s : Str) : Res U64 :=
  (Res.ofErr .parseErr (parseUnsigned 10 (2 ^ 64 - 1) s)).bind fun n => .ok (BitVec.ofNat 64 n)

/-- `SledIndexer::get_id` (src/indexer/sled_indexer.rs:47-60). Stored strings are valid UTF-8. -/
def sledGetId (kv : KV) (l : Label) : Res (Option (List U64)) :=
  match kv (encodeLabel l) with
  | some v => (Res.mapM parseId (splitComma v)).bind fun ids => .ok (some ids)
  | none => .ok none

/-- `SledIndexer::get_series_id_contains_labels` (src/indexer/sled_indexer.rs:87-96). -/
def sledContains (kv : KV) (ls : Labels) : Res (List U64) :=
  (Res.mapM (sledGetId kv) ls).bind fun ts => .ok (intersectAll (ts.filterMap id))

/-- One iteration of the metadata loop (src/indexer/sled_indexer.rs:76-83): nothing is pushed for an unknown id. -/
def sledMeta1 (kv : KV) (i : U64) : Res (Option (U64 × Labels)) :=
  match kv (encodeId i) with
  | some v => (decodeLabels v).bind fun ls => .ok (some (i, ls))
  | none => .ok none

/-- `SledIndexer::get_series_metadata_contains_labels` (src/indexer/sled_indexer.rs:70-85). -/
def sledMetadata (kv : KV) (ls : Labels) : Res (List (U64 × Labels)) :=
  (sledContains kv ls).bind fun ids => (Res.mapM (sledMeta1 kv) ids).bind fun r => .ok (r.filterMap id)

/-- `SledIndexer::get_series_id_by_labels` (src/indexer/sled_indexer.rs:98-107). -/
def sledByLabels (kv : KV) (ls : Labels) : Res (Option U64) :=
  match kv (encodeLabels ls true) with
  | some v => (parseId v).bind fun i => .ok (some i)
  | none => .ok none

/-- Read-modify-write of one reverse entry (src/indexer/sled_indexer.rs:133-143). -/
def sledAppendId (i : U64) (key : Str) (kv : KV) : KV :=
  kv.set key (match kv key with
    | none => fmtId i
    | some v => v ++ comma :: fmtId i)

/-- The `set` operations of `SledIndexer::create_index` in program order (src/indexer/sled_indexer.rs:119-143). -/
def sledCreateSteps (ls : Labels) (i : U64) : List (KV → KV) :=
  (fun kv => kv.set (encodeLabels ls true) (fmtId i)) ::
  (fun kv => kv.set (encodeId i) (encodeLabels ls false)) ::
  ls.map fun l => sledAppendId i (encodeLabel l)

/-- `SledIndexer::create_index` (src/indexer/sled_indexer.rs:109-147). Errors of `set` are ignored by the program. -/
def sledCreate (kv : KV) (ls : Labels) (i : U64) : Res Unit × KV :=
  if (kv (encodeLabels ls true)).isSome then (.err .internal, kv)
  else (.ok (), (sledCreateSteps ls i).foldl (fun kv f => f kv) kv)

/-! ### TiKV -/

/-- `val.chunks(n)`: consecutive pieces of length `n`, the last one possibly shorter. -/
def chunksOf (n : Nat) : Nat → Str → List Str
  | 0, _ => []
  | fuel + 1, v => if v = [] then [] else v.take n :: chunksOf n fuel (v.drop n)

/-- The loop of src/indexer/tikv_indexer.rs:91-99: 8-byte pieces; `unwrap` panics on a shorter last piece. -/
def decodeIds (v : Str) : Res (List U64) := Res.mapM (fun p => Res.ofPanic (fromBE p)) (chunksOf 8 v.length v)

/-- `TiKvIndexer::get_series_id_contains_labels` (src/indexer/tikv_indexer.rs:70-101) with indexer identifier `pre`.
The client never fails here (failures are skipped by the program). -/
def tikvContains (pre : Str) (kv : KV) (ls : Labels) : Res (List U64) :=
  (Res.mapM decodeIds (ls.filterMap fun l => kv (pre ++ encodeLabel l))).bind fun ts => .ok (intersectAll ts)

/-- The iterator chain of src/indexer/tikv_indexer.rs:36-67 for one id: unknown ids and undecodable metadata are skipped. -/
def tikvMeta1 (pre : Str) (kv : KV) (i : U64) : Option (U64 × Labels) :=
  match kv (pre ++ encodeId i) with
  | some v =>
    match decodeLabels v with
    | .ok ls => some (i, ls)
    | _ => none
  | none => none

/-- `TiKvIndexer::get_series_metadata_contains_labels` (src/indexer/tikv_indexer.rs:29-68). -/
def tikvMetadata (pre : Str) (kv : KV) (ls : Labels) : Res (List (U64 × Labels)) :=
  (tikvContains pre kv ls).bind fun ids => .ok (ids.filterMap (tikvMeta1 pre kv))

/-- `TiKvIndexer::get_series_id_by_labels` (src/indexer/tikv_indexer.rs:103-113); `try_into().unwrap()` panics unless the
value has 8 bytes. -/
def tikvByLabels (pre : Str) (kv : KV) (ls : Labels) : Res (Option U64) :=
  match kv (pre ++ encodeLabels ls true) with
  | some v => (Res.ofPanic (fromBE v)).bind fun i => .ok (some i)
  | none => .ok none

/-- Read-modify-write of one reverse entry (src/indexer/tikv_indexer.rs:149-160). -/
def tikvAppendId (i : U64) (key : Str) (kv : KV) : KV :=
  kv.set key (match kv key with
    | none => toBE i
    | some v => v ++ toBE i)

/-- The `set` operations of `TiKvIndexer::create_index` in program order (src/indexer/tikv_indexer.rs:115-165). -/
def tikvCreateSteps (pre : Str) (ls : Labels) (i : U64) : List (KV → KV) :=
  (fun kv => kv.set (pre ++ encodeId i) (encodeLabels ls false)) ::
  (fun kv => kv.set (pre ++ encodeLabels ls true) (toBE i)) ::
  ls.map fun l => tikvAppendId i (pre ++ encodeLabel l)

/-- `TiKvIndexer::create_index` (src/indexer/tikv_indexer.rs:115-165): no check for an existing entry, always `Ok`. -/
def tikvCreate (pre : Str) (kv : KV) (ls : Labels) (i : U64) : Res Unit × KV :=
  (.ok (), (tikvCreateSteps pre ls i).foldl (fun kv f => f kv) kv)

end Verif
