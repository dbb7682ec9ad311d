import Verif.Model.Num
/-! Chunk directory names and reopening (src/common/utils.rs:26-41, src/db.rs:127-173). -/
namespace Verif

/-- `encode_chunk_dir` (src/common/utils.rs:26-33). -/
def encodeChunkDir (start end_ : U64) : Str :=
  let res : BitVec 128 := 0
  let res := res ||| start.zeroExtend 128
  let res := res <<< 64
  let res := res ||| end_.zeroExtend 128
  formatNat 16 res.toNat

/-- `decode_chunk_dir` (src/common/utils.rs:35-41). `none`: the parse error. -/
def decodeChunkDir (name : Str) : Option (U64 × U64) :=
  (parseUnsigned 16 (2 ^ 128 - 1) name).map fun n =>
    let decimal : BitVec 128 := BitVec.ofNat 128 n
    let u64max : BitVec 128 := BitVec.ofNat 128 (2 ^ 64 - 1)
    let endTime : U64 := (decimal &&& u64max).truncate 64
    let startTime : U64 := ((decimal &&& (BitVec.ofNat 128 (2 ^ 128 - 1) - u64max)) >>> 64).truncate 64
    (startTime, endTime)

/-- UTF-8 continuation byte. -/
def isCont (b : Byte) : Bool := b &&& 0xC0#8 = 0x80#8

/-- The string continues a character. -/
def startsCont : Str → Bool
  | [] => false
  | b :: _ => isCont b

/-- Put a byte in front of the characters that follow it. -/
def joinChar (b : Byte) (cont : Bool) : List Str → List Str
  | [] => [[b]]
  | g :: gs => if cont then (b :: g) :: gs else [b] :: g :: gs

/-- `str::chars` as groups of bytes: a new character starts at every byte that is not a continuation byte
(valid UTF-8 is an invariant of Rust strings). -/
def chars : Str → List Str
  | [] => []
  | b :: rest => joinChar b (startsCont rest) (chars rest)

/-- `path_str.rfind('/')`: byte index of the last slash. -/
def rfindSlash (s : Str) : Option Nat :=
  match s.reverse.findIdx? (· = 47#8) with
  | some i => some (s.length - 1 - i)
  | none => none

/-- The directory name as `read_existing_chunk` computes it (src/db.rs:134-141): a byte index is used to skip
characters. `none`: the panic of `unwrap` when there is no slash. -/
def dirNameOf (path : Str) : Option Str :=
  (rfindSlash path).map fun i =>
    let slash := i + 1
    (((chars path).drop slash).take (path.length - slash)).flatten

/-- A directory entry as seen when reopening: its name, whether `metadata.json` in it can be read
(`ChunkOpts::read_config_from_dir`), whether the storage and indexer components can be read (`Ok(Some)`, `Ok(None)`,
`Err`), and the clock reading taken while it is processed. -/
structure DirEntry where
  name : Str
  config : Bool
  storage : Option Bool
  indexer : Option Bool
  now : U64
deriving DecidableEq, Repr

/-- What happens to one entry. -/
inductive EntryOutcome where
  | ignored
  | failed
  | chunk (start end_ : U64)
deriving DecidableEq, Repr

/-- Loop body of `read_existing_chunk` (src/db.rs:133-168) for the entry at `base/name`. -/
def readEntry (base : Str) (e : DirEntry) : EntryOutcome :=
  match dirNameOf (base ++ 47#8 :: e.name) with
  | none => .failed
  | some d =>
    match decodeChunkDir d with
    | none => .ignored
    | some (s, en) =>
      if e.config = false then .failed
      else
        let en := if en.toNat > e.now.toNat then e.now else en
        match e.storage, e.indexer with
        | none, _ => .failed
        | some _, none => .failed
        | some true, some true => .chunk s en
        | _, _ => .ignored

/-- The windows found, in directory order; `none`: `new` fails. -/
def readEntries (base : Str) : List DirEntry → Option (List (U64 × U64))
  | [] => some []
  | e :: es =>
    match readEntry base e with
    | .failed => none
    | .ignored => readEntries base es
    | .chunk s en => (readEntries base es).map ((s, en) :: ·)

/-- `read_existing_chunk` (src/db.rs:127-173): windows sorted by start time (`Ord for Chunk`, src/chunk/chunk.rs). -/
def readExisting (base : Str) (es : List DirEntry) : Option (List (U64 × U64)) :=
  (readEntries base es).map (stableSort fun a b => a.1.toNat ≤ b.1.toNat)

end Verif
