import Verif.Model.Server
/-! The protobuf messages of the remote read/write protocol (src/proto/types.rs, src/proto/remote.rs): generated writers and
parsers. The runtime they call (crate protobuf 2.8.0, not in /repo) is modelled by the protobuf wire format; what the format does
not determine is left open in `PbRt`. -/
namespace Verif

/-- Behaviour of the protobuf runtime that the model leaves open. -/
structure PbRt where
  /-- Validity of UTF-8 (`String::from_utf8`). -/
  utf8 : Str → Bool
  /-- Skips a (deprecated) group; `none` is an error. -/
  skipGroup : Str → Option Str
  /-- A nested message announces more bytes than there are: `true` reads what there is, `false` is an error. -/
  overrun : Nat → Str → Bool
  shrinks : ∀ s r, skipGroup s = some r → r.length ≤ s.length
  utf8nil : utf8 [] = true

/-! ### Reading primitives -/

/-- `CodedInputStream::read_raw_varint64`: at most ten bytes, bits above 64 are lost. `i` bytes were read before. -/
def readVarintFrom (i : Nat) : Str → Option (Nat × Str)
  | [] => none
  | b :: s =>
    if 10 ≤ i then none
    else if b.toNat < 128 then some (b.toNat, s)
    else match readVarintFrom (i + 1) s with
      | none => none
      | some (v, r) => some (b.toNat - 128 + 128 * v, r)

/-- `read_raw_varint64`. -/
def readVarint (s : Str) : Option (Nat × Str) :=
  match readVarintFrom 0 s with
  | none => none
  | some (v, r) => some (v % 2 ^ 64, r)

/-- `read_raw_varint32`. -/
def readVarint32 (s : Str) : Option (Nat × Str) :=
  match readVarint s with
  | none => none
  | some (v, r) => some (v % 2 ^ 32, r)

/-- `read_tag_unpack`: field number and wire type; both are checked. -/
def readTag (s : Str) : Option (Nat × Nat × Str) :=
  match readVarint32 s with
  | none => none
  | some (v, r) => if v % 8 ≤ 5 ∧ v / 8 ≠ 0 then some (v / 8, v % 8, r) else none

/-- `n` raw bytes. -/
def readRaw (n : Nat) (s : Str) : Option (Str × Str) := if n ≤ s.length then some (s.take n, s.drop n) else none

/-- Length-delimited bytes. -/
def readBytes (s : Str) : Option (Str × Str) :=
  match readVarint32 s with
  | none => none
  | some (n, r) => readRaw n r

/-- Little-endian number. -/
def leNat (s : Str) : Nat := beNat s.reverse

/-- `read_double`, `read_fixed64`. -/
def readFixed64 (s : Str) : Option (U64 × Str) :=
  match readRaw 8 s with
  | none => none
  | some (p, r) => some (BitVec.ofNat 64 (leNat p), r)

/-- Payload of a field nobody asked for (`rt::read_unknown_or_skip_group`). -/
def skipUnknown (rt : PbRt) (wt : Nat) (s : Str) : Option Str :=
  match wt with
  | 0 => (readVarint s).map (·.2)
  | 1 => (readRaw 8 s).map (·.2)
  | 2 => (readBytes s).map (·.2)
  | 3 => rt.skipGroup s
  | 5 => (readRaw 4 s).map (·.2)
  | _ => none

/-- The loop every generated `merge_from` consists of (e.g. src/proto/types.rs:85-121): fields until the end of the message. `step`
handles one field (number, wire type, rest of the input) and returns the rest, `none` is an error; the message keeps what was read
before the error. The first argument bounds the number of rounds; every round reads at least one byte, so the length of the input
is enough (`mergeLoop_fuel`). -/
def mergeLoop {M : Type} (step : M → Nat → Nat → Str → M × Option Str) : Nat → M → Str → M × Bool
  | _, m, [] => (m, true)
  | 0, m, _ :: _ => (m, false)
  | f + 1, m, b :: s =>
    match readTag (b :: s) with
    | none => (m, false)
    | some (num, wt, r) =>
      match step m num wt r with
      | (m', none) => (m', false)
      | (m', some r') => mergeLoop step f m' r'

/-- `merge_from`. -/
def merge {M : Type} (step : M → Nat → Nat → Str → M × Option Str) (m : M) (s : Str) : M × Bool := mergeLoop step s.length m s

/-- `CodedInputStream::merge_message` into a fresh message. -/
def readMessage {M : Type} (rt : PbRt) (step : M → Nat → Nat → Str → M × Option Str) (m : M) (s : Str) : M × Option Str :=
  match readVarint s with
  | none => (m, none)
  | some (n, r) =>
    if n ≤ r.length then
      match merge step m (r.take n) with
      | (m', true) => (m', some (r.drop n))
      | (m', false) => (m', none)
    else if rt.overrun n r then
      match merge step m r with
      | (m', true) => (m', some [])
      | (m', false) => (m', none)
    else (m, none)

/-- `rt::read_singular_proto3_string_into`: the target is emptied first. -/
def readString (rt : PbRt) (wt : Nat) (old : Str) (s : Str) : Str × Option Str :=
  if wt ≠ 2 then (old, none)
  else match readBytes s with
    | none => ([], none)
    | some (p, r) => if rt.utf8 p then (p, some r) else ([], none)

/-- An `int64` field. -/
def readInt64 (wt : Nat) (old : Int) (s : Str) : Int × Option Str :=
  if wt ≠ 0 then (old, none)
  else match readVarint s with
    | none => (old, none)
    | some (v, r) => (asI64 (BitVec.ofNat 64 v), some r)

/-- `rt::read_repeated_message_into`: a default message is pushed, then filled. -/
def readRepeated {M : Type} (rt : PbRt) (step : M → Nat → Nat → Str → M × Option Str) (dflt : M) (wt : Nat) (l : List M) (s : Str) :
    List M × Option Str :=
  if wt ≠ 2 then (l, none)
  else (l ++ [(readMessage rt step dflt s).1], (readMessage rt step dflt s).2)

/-! ### Parsers -/

/-- `Sample::merge_from` (src/proto/types.rs:85-121), one field. -/
def sampleStep (rt : PbRt) (m : Sample) (num wt : Nat) (s : Str) : Sample × Option Str :=
  if num = 1 then
    if wt ≠ 1 then (m, none)
    else match readFixed64 s with
      | none => (m, none)
      | some (v, r) => ({ m with value := v }, some r)
  else if num = 2 then ({ m with timestamp := (readInt64 wt m.timestamp s).1 }, (readInt64 wt m.timestamp s).2)
  else (m, skipUnknown rt wt s)

/-- `Label::merge_from` (src/proto/types.rs:569-602). -/
def labelStep (rt : PbRt) (m : Label) (num wt : Nat) (s : Str) : Label × Option Str :=
  if num = 1 then ({ m with key := (readString rt wt m.key s).1 }, (readString rt wt m.key s).2)
  else if num = 2 then ({ m with value := (readString rt wt m.value s).1 }, (readString rt wt m.value s).2)
  else (m, skipUnknown rt wt s)

/-- `TimeSeries::merge_from` (src/proto/types.rs:334-359). -/
def seriesStep (rt : PbRt) (m : PSeries) (num wt : Nat) (s : Str) : PSeries × Option Str :=
  if num = 1 then ({ m with labels := (readRepeated rt (labelStep rt) ⟨[], []⟩ wt m.labels s).1 }, (readRepeated rt (labelStep rt) ⟨[], []⟩ wt m.labels s).2)
  else if num = 2 then ({ m with samples := (readRepeated rt (sampleStep rt) ⟨0#64, 0⟩ wt m.samples s).1 }, (readRepeated rt (sampleStep rt) ⟨0#64, 0⟩ wt m.samples s).2)
  else (m, skipUnknown rt wt s)

/-- `WriteRequest::merge_from` (src/proto/remote.rs:85-111). -/
def writeStep (rt : PbRt) (m : List PSeries) (num wt : Nat) (s : Str) : List PSeries × Option Str :=
  if num = 1 then readRepeated rt (seriesStep rt) ⟨[], []⟩ wt m s
  else (m, skipUnknown rt wt s)

/-- `LabelMatcher_Type::from_i32` (src/proto/types.rs:1196-1204); `read_int32` keeps the low 32 bits. -/
def matcherType (v : Nat) : Option MatcherType :=
  match v % 2 ^ 32 with
  | 0 => some .eq
  | 1 => some .neq
  | 2 => some .re
  | 3 => some .nre
  | _ => none

/-- `LabelMatcher::merge_from` (src/proto/types.rs:1005-1045). An unknown type is kept among the unknown fields. -/
def matcherStep (rt : PbRt) (m : LabelMatcher) (num wt : Nat) (s : Str) : LabelMatcher × Option Str :=
  if num = 1 then
    if wt ≠ 0 then (m, none)
    else match readVarint s with
      | none => (m, none)
      | some (v, r) => ({ m with type := (matcherType v).getD m.type }, some r)
  else if num = 2 then ({ m with name := (readString rt wt m.name s).1 }, (readString rt wt m.name s).2)
  else if num = 3 then ({ m with value := (readString rt wt m.value s).1 }, (readString rt wt m.value s).2)
  else (m, skipUnknown rt wt s)

/-- `ReadHints::merge_from` (src/proto/types.rs:1343-1396): the program does not use the contents. -/
def hintsStep (rt : PbRt) (m : Unit) (num wt : Nat) (s : Str) : Unit × Option Str :=
  if num = 1 ∨ num = 3 ∨ num = 4 then (m, (readInt64 wt 0 s).2)
  else if num = 2 then (m, (readString rt wt [] s).2)
  else (m, skipUnknown rt wt s)

/-- `Query::merge_from` (src/proto/remote.rs:838-882). -/
def queryStep (rt : PbRt) (m : PQuery) (num wt : Nat) (s : Str) : PQuery × Option Str :=
  if num = 1 then ({ m with start_ := (readInt64 wt m.start_ s).1 }, (readInt64 wt m.start_ s).2)
  else if num = 2 then ({ m with end_ := (readInt64 wt m.end_ s).1 }, (readInt64 wt m.end_ s).2)
  else if num = 3 then
    ({ m with matchers := (readRepeated rt (matcherStep rt) ⟨.eq, [], []⟩ wt m.matchers s).1 }, (readRepeated rt (matcherStep rt) ⟨.eq, [], []⟩ wt m.matchers s).2)
  else if num = 4 then (m, if wt ≠ 2 then none else (readMessage rt (hintsStep rt) () s).2)
  else (m, skipUnknown rt wt s)

/-- Reads varints until the end (packed enum values). -/
def readPacked : Nat → Str → Bool
  | _, [] => true
  | 0, _ :: _ => false
  | f + 1, b :: s =>
    match readVarint (b :: s) with
    | none => false
    | some (_, r) => readPacked f r

/-- `ReadRequest::merge_from` (src/proto/remote.rs:306-335). The flag says whether anything but queries was read (accepted response
types or unknown fields); with the queries it determines whether `compute_size` (lines 338-350) is zero. A packed list of no
response types leaves no trace. -/
def readStep (rt : PbRt) (m : List PQuery × Bool) (num wt : Nat) (s : Str) : (List PQuery × Bool) × Option Str :=
  if num = 1 then (((readRepeated rt (queryStep rt) ⟨0, 0, []⟩ wt m.1 s).1, m.2), (readRepeated rt (queryStep rt) ⟨0, 0, []⟩ wt m.1 s).2)
  else if num = 2 then
    if wt = 2 then
      match readBytes s with
      | none => (m, none)
      | some (p, r) => if readPacked p.length p then ((m.1, m.2 || !p.isEmpty), some r) else (m, none)
    else if wt = 0 then ((m.1, true), (readVarint s).map (·.2))
    else (m, none)
  else ((m.1, m.2 || decide (wt ≠ 3)), skipUnknown rt wt s)

/-! ### Writers -/

/-- `write_raw_varint64`. -/
def encVarint (n : Nat) : Str :=
  if h : n < 128 then [BitVec.ofNat 8 n] else BitVec.ofNat 8 (n % 128 + 128) :: encVarint (n / 128)
termination_by n
decreasing_by omega

/-- `compute_raw_varint64_size`. -/
def varintSize (n : Nat) : Nat :=
  if h : n < 128 then 1 else 1 + varintSize (n / 128)
termination_by n
decreasing_by omega

/-- `write_tag`. -/
def encTag (num wt : Nat) : Str := encVarint (8 * num + wt)

/-- `f64::to_bits().to_le_bytes()`. -/
def toLE (v : U64) : Str := (toBE v).reverse

/-- `self.value != 0.`: both zeros of `f64` are equal to `0.`; a NaN is not. -/
def f64NeZero (v : U64) : Bool := decide (v ≠ 0x0000000000000000#64 ∧ v ≠ 0x8000000000000000#64)

/-- `write_string`. -/
def encString (num : Nat) (s : Str) : Str := encTag num 2 ++ encVarint s.length ++ s
/-- `rt::string_size`: one-byte tag, length, bytes. -/
def stringSize (s : Str) : Nat := 1 + varintSize s.length + s.length

/-- `Sample::write_to_with_cached_sizes` (src/proto/types.rs:142-154). -/
def encSample (m : Sample) : Str :=
  (if f64NeZero m.value then encTag 1 1 ++ toLE m.value else []) ++
  (if m.timestamp ≠ 0 then encTag 2 0 ++ encVarint (asU64 m.timestamp).toNat else [])
/-- `Sample::compute_size` (src/proto/types.rs:125-140). Sizes are natural numbers here, `u32` in the code. -/
def sizeSample (m : Sample) : Nat :=
  (if f64NeZero m.value then 9 else 0) + (if m.timestamp ≠ 0 then 1 + varintSize (asU64 m.timestamp).toNat else 0)

/-- `Label::write_to_with_cached_sizes` (src/proto/types.rs:618-630). -/
def encLabel (l : Label) : Str :=
  (if l.key.isEmpty then [] else encString 1 l.key) ++ (if l.value.isEmpty then [] else encString 2 l.value)
/-- `Label::compute_size` (src/proto/types.rs:605-616). -/
def sizeLabel (l : Label) : Nat := (if l.key.isEmpty then 0 else stringSize l.key) + (if l.value.isEmpty then 0 else stringSize l.value)

/-- Repeated message field (e.g. src/proto/types.rs:381-385): tag, cached size, message. -/
def encRepeated {M : Type} (num : Nat) (size : M → Nat) (enc : M → Str) (l : List M) : Str :=
  l.flatMap fun m => encTag num 2 ++ encVarint (size m) ++ enc m
/-- Size of a repeated message field (e.g. src/proto/types.rs:364-367). -/
def sizeRepeated {M : Type} (size : M → Nat) (l : List M) : Nat := (l.map fun m => 1 + varintSize (size m) + size m).sum

/-- `TimeSeries::write_to_with_cached_sizes` (src/proto/types.rs:377-393). -/
def encSeries (m : PSeries) : Str := encRepeated 1 sizeLabel encLabel m.labels ++ encRepeated 2 sizeSample encSample m.samples
/-- `TimeSeries::compute_size` (src/proto/types.rs:362-375). -/
def sizeSeries (m : PSeries) : Nat := sizeRepeated sizeLabel m.labels + sizeRepeated sizeSample m.samples

/-- `QueryResult::write_to_with_cached_sizes` (src/proto/remote.rs:1145-1156). -/
def encResult (m : List PSeries) : Str := encRepeated 1 sizeSeries encSeries m
/-- `QueryResult::compute_size` (src/proto/remote.rs:1134-1143). -/
def sizeResult (m : List PSeries) : Nat := sizeRepeated sizeSeries m

/-- `ReadResponse::write_to` (src/proto/remote.rs:612-623, `compute_size` first: 601-610). -/
def encResponse (m : List (List PSeries)) : Str := encRepeated 1 sizeResult encResult m

/-- `WriteRequest::write_to` (src/proto/remote.rs:125-136); used by clients. -/
def encWrite (m : List PSeries) : Str := encRepeated 1 sizeSeries encSeries m

/-- `LabelMatcher_Type::value` (src/proto/types.rs:1192-1194). -/
def matcherCode : MatcherType → Nat
  | .eq => 0
  | .neq => 1
  | .re => 2
  | .nre => 3

/-- `LabelMatcher::write_to_with_cached_sizes` (src/proto/types.rs:1064-1079). -/
def encMatcher (m : LabelMatcher) : Str :=
  (if m.type = .eq then [] else encTag 1 0 ++ encVarint (matcherCode m.type)) ++
  (if m.name.isEmpty then [] else encString 2 m.name) ++ (if m.value.isEmpty then [] else encString 3 m.value)
/-- `LabelMatcher::compute_size` (src/proto/types.rs:1048-1062); `enum_size` of a small value is 2. -/
def sizeMatcher (m : LabelMatcher) : Nat :=
  (if m.type = .eq then 0 else 1 + varintSize (matcherCode m.type)) +
  (if m.name.isEmpty then 0 else stringSize m.name) + (if m.value.isEmpty then 0 else stringSize m.value)

/-- `Query::write_to_with_cached_sizes` without hints (src/proto/remote.rs:913-935). -/
def encQuery (m : PQuery) : Str :=
  (if m.start_ ≠ 0 then encTag 1 0 ++ encVarint (asU64 m.start_).toNat else []) ++
  (if m.end_ ≠ 0 then encTag 2 0 ++ encVarint (asU64 m.end_).toNat else []) ++ encRepeated 3 sizeMatcher encMatcher m.matchers
/-- `Query::compute_size` without hints (src/proto/remote.rs:884-911). -/
def sizeQuery (m : PQuery) : Nat :=
  (if m.start_ ≠ 0 then 1 + varintSize (asU64 m.start_).toNat else 0) +
  (if m.end_ ≠ 0 then 1 + varintSize (asU64 m.end_).toNat else 0) + sizeRepeated sizeMatcher m.matchers

/-- `ReadRequest::write_to` without accepted response types (src/proto/remote.rs:352-365); used by clients. -/
def encRead (m : List PQuery) : Str := encRepeated 1 sizeQuery encQuery m

/-! ### The server's formats -/

/-- Raw Snappy (crate snap, not in /repo): only that decompression undoes compression is assumed. -/
structure Snappy where
  compress : Str → Str
  decompress : Str → Option Str
  undo : ∀ s, decompress (compress s) = some s

/-- What `_process` (src/server.rs:65-131) does with bytes: `merge_from` into a fresh request (77-79, 112-113; the write path
ignores its result), `write_to` and compression (92-102). -/
def pbFormats (sn : Snappy) (rt : PbRt) : Formats where
  decompress := sn.decompress
  parseRead s := match merge (readStep rt) ([], false) s with
    | (m, true) => some ⟨m.1, m.1.isEmpty && !m.2⟩
    | (_, false) => none
  parseWrite s := (merge (writeStep rt) [] s).1
  respond rs := sn.compress (encResponse rs)

end Verif
