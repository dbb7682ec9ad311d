import Verif.Model.Basic
/-! Model of `Bstream` and `BstreamSeeker` (src/compaction/mod.rs:183-430). -/
namespace Verif

/-- `struct Bstream` (src/compaction/mod.rs:190-194). `remaining` is a `u8`, kept as `Nat`. -/
structure Bstream where
  data : List Byte
  remaining : Nat
deriving DecidableEq, Repr

namespace Bstream

/-- `Bstream::new` (src/compaction/mod.rs:197-202). -/
def new : Bstream := { data := [], remaining := 0 }

/-- `Bstream::from_bytes` (src/compaction/mod.rs:212-215). -/
def fromBytes (data : List Byte) : Bstream :=
  { data := data.dropLast, remaining := (data.getLast?.getD 0#8).toNat }

/-- `Bstream::as_bytes_vec` (src/compaction/mod.rs:354-358). -/
def asBytesVec (s : Bstream) : List Byte := s.data ++ [BitVec.ofNat 8 s.remaining]

/-- OR a byte into the last byte of a vector: `*(self.data.last_mut().unwrap()) |= x`
(src/compaction/mod.rs:230, 251, 258). `none`: the vector is empty and `unwrap` panics. -/
def orLast (data : List Byte) (x : Byte) : Option (List Byte) :=
  match data.getLast? with
  | none => none
  | some y => some (data.dropLast ++ [y ||| x])

/-- `Bstream::write` (src/compaction/mod.rs:218-233). -/
def write (m : Mode) (s : Bstream) (bit : Bool) : Option Bstream :=
  if s.remaining = 0 then
    some { data := s.data ++ [if bit then 0b10000000#8 else 0b00000000#8], remaining := 7 }
  else
    let r := s.remaining - 1
    if bit then do
      let one ← shl8 m 0b00000001#8 r
      let data ← orLast s.data one
      pure { data := data, remaining := r }
    else some { s with remaining := r }

/-- `Bstream::bitlen` (src/compaction/mod.rs:236-238): `usize` subtraction. -/
def bitlen (m : Mode) (s : Bstream) : Option Nat :=
  if s.remaining ≤ s.data.length * 8 then some (s.data.length * 8 - s.remaining)
  else match m with
    | .debug => none
    | .release => some (2 ^ 64 + s.data.length * 8 - s.remaining)

/-- Loop of `append` (src/compaction/mod.rs:260-267): byte `i` shifted left joined with the head of
byte `i+1`, for `i` in `0..len-1`. -/
def shiftPairs (m : Mode) (r : Nat) : List Byte → Option (List Byte)
  | [] => some []
  | [_] => some []
  | a :: b :: rest => do
      let first ← shl8 m a r
      let k ← u8sub m 8 r
      let second ← shr8 m b k
      let tl ← shiftPairs m r (b :: rest)
      pure ((first ||| second) :: tl)

/-- `Bstream::append` (src/compaction/mod.rs:241-283).
`get(0).unwrap()` panics when the appendee has no bytes; `abs` of the `i8` difference is the distance
of the two counters (counters below 128). -/
def append (m : Mode) (s o : Bstream) : Option Bstream := do
  let olen ← o.bitlen m
  if olen = 0 then pure s
  else if s.remaining ≠ 0 then
    let k ← u8sub m 8 s.remaining
    let b0 ← o.data.head?
    let mask ← shr8 m b0 k
    let data ← orLast s.data mask
    if olen ≤ s.remaining then
      pure { data := data, remaining := s.remaining - olen }
    else
      let pushed ← shiftPairs m s.remaining o.data
      let space ← u8sub m 8 o.remaining
      if s.remaining ≤ space then
        let bl ← o.data.getLast?
        let last ← shl8 m bl s.remaining
        pure { data := data ++ pushed ++ [last], remaining := o.remaining + s.remaining }
      else
        pure { data := data ++ pushed,
               remaining := (o.remaining - s.remaining) + (s.remaining - o.remaining) }
  else
    pure { data := s.data ++ o.data, remaining := o.remaining }

/-- `Bstream::append_bytes` (src/compaction/mod.rs:285-291) with its assertion. -/
def appendBytes (m : Mode) (s : Bstream) (bytes : List Byte) (remaining : Nat) : Option Bstream :=
  if remaining ≤ 8 then s.append m { data := bytes, remaining := remaining } else none

/-- `Bstream::write_bits` (src/compaction/mod.rs:323-328). `bytes` is the `[u8; 8]` argument. -/
def writeBits (m : Mode) (s : Bstream) (bytes : List Byte) (nbits : Nat) : Option Bstream := do
  let leading ← u8sub m 64 nbits
  let b ← bytes[leading / 8]?
  let val ← shl8 m b (leading % 8)
  let s1 ← s.appendBytes m [val] (leading % 8)
  s1.appendBytes m (bytes.drop (leading / 8 + 1)) 0

/-- `Bstream::read_bytes` (src/compaction/mod.rs:339-347), first component (the second is never used). -/
def readByte (s : Bstream) (idx : Nat) : Option Byte := s.data[idx]?

end Bstream

/-- `BstreamSeeker` (src/compaction/mod.rs:361-365). -/
structure Seeker where
  data : Bstream
  cursor : Nat
deriving DecidableEq, Repr

namespace Seeker

/-- The `k` bytes that the loop of `read_next_n_bit` produces starting at byte `pos`
(src/compaction/mod.rs:391-404). `none`: `read_bytes(..).unwrap()` panics. -/
def readLoop (s : Bstream) (leading : Nat) : Nat → Nat → Option (List Byte)
  | _, 0 => some []
  | pos, k + 1 => do
      let first ← s.readByte pos
      let first := (first &&& (0xff#8 >>> leading)) <<< leading
      let second := (s.readByte (pos + 1)).getD 0x00#8
      -- `checked_shr(8 - leading).unwrap_or(0)`: shifting by 8 gives 0
      let second := if 8 - leading < 8 then second >>> (8 - leading) else 0#8
      let rest ← readLoop s leading (pos + 1) k
      pure ((first ||| second) :: rest)

/-- `BstreamSeeker::read_next_n_bit` (src/compaction/mod.rs:377-419): returns the new buffer, the number
of bits read and the new seeker. `none`: a panic (buffer too short, or reading past the data). -/
def readNextNBit (m : Mode) (sk : Seeker) (buf : List Byte) (n : Nat) :
    Option (List Byte × Nat × Seeker) := do
  let len ← sk.data.bitlen m
  if sk.cursor > len then pure (buf, 0, sk)
  else
    let n := if sk.cursor + n > len then len - sk.cursor else n
    let k := (n + 7) / 8
    let vals ← readLoop sk.data (sk.cursor % 8) (sk.cursor / 8) k
    if k > buf.length then none
    else
      -- mask the unused low bits of the last byte written (lines 407-414)
      let flag : Byte := if n % 8 ≠ 0 then 0xff#8 <<< (8 - n % 8) else 0xff#8
      let vals := match vals.getLast? with
        | none => vals
        | some x => vals.dropLast ++ [flag &&& x]
      pure (vals ++ buf.drop k, n, { sk with cursor := sk.cursor + n })

end Seeker
end Verif
