import Verif.Model.Bstream
/-! Model of the Gorilla compactor and decompactor (src/compaction/gorilla.rs). -/
namespace Verif

/-! ### 64-bit and 32-bit arithmetic of the two cargo profiles -/

/-- `u64` subtraction: debug panics below zero, release wraps. -/
def u64sub (m : Mode) (a b : U64) : Option U64 :=
  match m with
  | .release => some (a - b)
  | .debug => if b.toNat ≤ a.toNat then some (a - b) else none

/-- `u64` addition: debug panics above `u64::MAX`, release wraps. -/
def u64add (m : Mode) (a b : U64) : Option U64 :=
  match m with
  | .release => some (a + b)
  | .debug => if a.toNat + b.toNat < 2 ^ 64 then some (a + b) else none

/-- `i64` subtraction (two's complement): debug panics on overflow, release wraps. -/
def i64sub (m : Mode) (a b : U64) : Option U64 :=
  match m with
  | .release => some (a - b)
  | .debug => if -2 ^ 63 ≤ a.toInt - b.toInt ∧ a.toInt - b.toInt < 2 ^ 63 then some (a - b) else none

/-- `i64` addition (two's complement): debug panics on overflow, release wraps. -/
def i64add (m : Mode) (a b : U64) : Option U64 :=
  match m with
  | .release => some (a + b)
  | .debug => if -2 ^ 63 ≤ a.toInt + b.toInt ∧ a.toInt + b.toInt < 2 ^ 63 then some (a + b) else none

/-- `i32` subtraction: debug panics on overflow, release wraps. -/
def i32sub (m : Mode) (a b : BitVec 32) : Option (BitVec 32) :=
  match m with
  | .release => some (a - b)
  | .debug => if -2 ^ 31 ≤ a.toInt - b.toInt ∧ a.toInt - b.toInt < 2 ^ 31 then some (a - b) else none

/-- `u64 >> k` for `u8`/`u64` shift amounts: debug panics when `k ≥ 64`, release masks. -/
def shr64 (m : Mode) (x : U64) (k : Nat) : Option U64 :=
  if k < 64 then some (x >>> k)
  else match m with
    | .debug => none
    | .release => some (x >>> (k % 64))

/-- `u64::leading_zeros`. -/
def lz (x : U64) : Nat := ((bitsOf x).takeWhile (fun b => !b)).length
/-- `u64::trailing_zeros`. -/
def tz (x : U64) : Nat := ((bitsOf x).reverse.takeWhile (fun b => !b)).length

/-- `in_bit_range` (src/compaction/gorilla.rs:395-397). The literal of the lower bound is an `i32`:
for `nbits = 32`, `1 << 31` is `i32::MIN` and subtracting 1 overflows. The negation cannot overflow
(its operand is never `i32::MIN`). The upper bound is computed in `i64`. -/
def inBitRange (m : Mode) (t : U64) (nbits : Nat) : Option Bool := do
  let b ← i32sub m ((1#32) <<< (nbits - 1)) 1#32
  let lower : U64 := (-b).signExtend 64
  pure (lower.sle t && t.sle ((1#64) <<< (nbits - 1)))

/-- `struct GorillaCompactor` (src/compaction/gorilla.rs:10-23). -/
structure GorillaCompactor where
  bstream : Bstream
  t : U64
  v : U64
  leading : Nat
  tailing : Nat
  d : U64
  len : Nat
deriving DecidableEq, Repr

namespace GorillaCompactor

/-- `GorillaCompactor::new` (src/compaction/gorilla.rs:26-36). -/
def new : GorillaCompactor :=
  { bstream := Bstream.new, d := 0, v := 0, leading := 0, tailing := 0, t := 0, len := 0 }

/-- `GorillaCompactor::compact_value` (src/compaction/gorilla.rs:87-127). -/
def compactValue (m : Mode) (c : GorillaCompactor) (value : U64) : Option GorillaCompactor :=
  if c.len = 0 then do
    let s ← c.bstream.appendBytes m (toBE value) 0
    pure { c with bstream := s, v := value, leading := lz value, tailing := tz value }
  else
    let xord := value ^^^ c.v
    if xord = 0#64 then do
      let s ← c.bstream.write m false
      pure { c with bstream := s }
    else do
      let s ← c.bstream.write m true
      let leading := lz xord
      let trailing := tz xord
      if c.len > 1 ∧ leading ≥ c.leading ∧ trailing ≥ c.tailing then
        let s ← s.write m false
        let sh ← shr64 m xord c.tailing
        let n ← u8sub m 64 c.leading
        let n ← u8sub m n c.tailing
        let s ← s.writeBits m (toBE sh) n
        pure { c with bstream := s }
      else
        let s ← s.write m true
        let s ← s.writeBits m (toBE (BitVec.ofNat 64 leading)) 5
        let n ← u8sub m 64 leading
        let sigbits ← u8sub m n trailing
        let s ← s.writeBits m (toBE (BitVec.ofNat 64 sigbits)) 6
        let sh ← shr64 m xord trailing
        let s ← s.writeBits m (toBE sh) sigbits
        pure { c with bstream := s, tailing := trailing, leading := leading }

/-- The chain of tests on the second difference in `compact` (src/compaction/gorilla.rs:65-79). -/
def compactDod (m : Mode) (s : Bstream) (dod : U64) : Option Bstream :=
  if dod = 0#64 then s.appendBytes m [0b00000000#8] 7
  else do
    let r8 ← inBitRange m dod 8
    if r8 then do
      let s ← s.appendBytes m [0b10000000#8] 6
      s.writeBits m (toBE dod) 8
    else do
      let r16 ← inBitRange m dod 16
      if r16 then do
        let s ← s.appendBytes m [0b11000000#8] 5
        s.writeBits m (toBE dod) 16
      else do
        let r32 ← inBitRange m dod 32
        if r32 then do
          let s ← s.appendBytes m [0b11100000#8] 4
          s.writeBits m (toBE dod) 32
        else do
          let s ← s.appendBytes m [0b11110000#8] 4
          s.writeBits m (toBE dod) 64

/-- The three branches of `compact` (src/compaction/gorilla.rs:40-81). -/
def compactBody (m : Mode) (c : GorillaCompactor) (tp : TimePoint) : Option GorillaCompactor :=
  if c.len = 0 then do
    let s ← c.bstream.appendBytes m (toBE tp.ts) 0
    let s ← s.appendBytes m (toBE tp.val) 0
    pure { c with bstream := s }
  else if c.len = 1 then do
    let tDelta ← u64sub m tp.ts c.t
    let s ← c.bstream.appendBytes m (toBE tDelta) 0
    let c ← compactValue m { c with bstream := s } tp.val
    pure { c with d := tDelta }
  else do
    let tDelta ← u64sub m tp.ts c.t
    let dod ← i64sub m tDelta c.d
    let s ← compactDod m c.bstream dod
    compactValue m { c with bstream := s, d := tDelta } tp.val

/-- `GorillaCompactor::compact` (src/compaction/gorilla.rs:39-85). -/
def compact (m : Mode) (c : GorillaCompactor) (tp : TimePoint) : Option GorillaCompactor := do
  let c ← compactBody m c tp
  pure { c with len := c.len + 1, t := tp.ts, v := tp.val }

/-- `GorillaCompactor::as_bytes_vec` (src/compaction/gorilla.rs:129-131). -/
def asBytesVec (c : GorillaCompactor) : List Byte := c.bstream.asBytesVec

end GorillaCompactor

/-- `struct GorillaDecompactor` (src/compaction/gorilla.rs:134-149). -/
structure GorillaDecompactor where
  source : Seeker
  t : U64
  v : U64
  leading : Nat
  tailing : Nat
  d : U64
  idx : Nat
deriving DecidableEq, Repr

namespace GorillaDecompactor

/-- `GorillaDecompactor::new` (src/compaction/gorilla.rs:152-162). -/
def new (s : Bstream) : GorillaDecompactor :=
  { source := { data := s, cursor := 0 }, t := 0, v := 0, leading := 0, tailing := 0, d := 0, idx := 0 }

/-- `vec_with_len` (src/compaction/gorilla.rs:386-392). -/
def vecWithLen (n : Nat) : List Byte := List.replicate n 0#8

/-- `GorillaDecompactor::decompact_values` (src/compaction/gorilla.rs:164-233).
Outer `none`: panic; inner `none`: the Rust `None`. -/
def decompactValues (m : Mode) (dc : GorillaDecompactor) : Option (Option U64 × GorillaDecompactor) := do
  let (buf, rl, src) ← dc.source.readNextNBit m [0x00#8] 2
  let dc := { dc with source := src }
  if rl > 2 ∨ rl = 0 then pure (none, dc)
  else
    let flag := buf.headD 0#8
    if rl = 1 ∨ flag &&& 0b10000000#8 = 0#8 then
      pure (some dc.v, { dc with source := { src with cursor := src.cursor + (2 - rl) - 1 } })
    else if flag &&& 0b11000000#8 = 0b10000000#8 then do
      let n ← u8sub m 64 dc.leading
      let len ← u8sub m n dc.tailing
      let (bytes, l, src) ← dc.source.readNextNBit m (vecWithLen 8) len
      let dc := { dc with source := src }
      if l ≠ len then pure (none, dc)
      else
        let w ← fromBE bytes
        let xord ← shr64 m w dc.leading
        let value := dc.v ^^^ xord
        pure (some value, { dc with v := value })
    else do
      let (lbuf, l, src) ← dc.source.readNextNBit m [0x00#8] 5
      let dc := { dc with source := src }
      if l ≠ 5 then pure (none, dc)
      else
        let leading := (lbuf.headD 0#8 >>> 3).toNat
        let (sbuf, l, src) ← dc.source.readNextNBit m [0x00#8] 6
        let dc := { dc with source := src }
        if l ≠ 6 then pure (none, dc)
        else
          let sigLen := (sbuf.headD 0#8 >>> 2).toNat
          let n ← u8sub m 64 sigLen
          let tailing ← u8sub m n leading
          let (sig, l, src) ← dc.source.readNextNBit m (vecWithLen 8) sigLen
          let dc := { dc with source := src }
          if l ≠ sigLen then pure (none, dc)
          else
            let w ← fromBE sig
            let xord ← shr64 m w leading
            let value := dc.v ^^^ xord
            pure (some value, { dc with tailing := tailing, leading := leading, v := value })

/-- `GorillaDecompactor::decompact_timestamp` (src/compaction/gorilla.rs:235-264); called with
`range` 8, 16, 32 or 64 only. -/
def decompactTimestamp (m : Mode) (dc : GorillaDecompactor) (range : Nat) :
    Option (Option U64 × GorillaDecompactor) := do
  let (bytes, l, src) ← dc.source.readNextNBit m (vecWithLen (range / 8)) range
  let dc := { dc with source := src }
  if l ≠ range then pure (none, dc)
  else
    let delta : U64 := (BitVec.ofNat range (beNat bytes)).signExtend 64
    let d ← i64add m delta dc.d
    let ts ← u64add m dc.t d
    pure (some ts, { dc with d := d })

/-- The part of `next` after the timestamp is known (src/compaction/gorilla.rs:307-315, 363-369). -/
def finish (m : Mode) (dc : GorillaDecompactor) (ts : U64) : Option (Option TimePoint × GorillaDecompactor) := do
  let (r, dc) ← decompactValues m { dc with t := ts }
  match r with
  | some value => pure (some ⟨ts, value⟩, { dc with idx := dc.idx + 1 })
  | none => pure (none, dc)

/-- The chain of tests on a non-zero second-difference flag in `next` (src/compaction/gorilla.rs:331-362);
`src` is the source after reading `l` flag bits. -/
def flagTimestamp (m : Mode) (dc : GorillaDecompactor) (flag : Byte) (l : Nat) (src : Seeker) :
    Option (Option U64 × GorillaDecompactor) :=
  if flag &&& 0b11000000#8 = 0b10000000#8 then
    decompactTimestamp m { dc with source := { src with cursor := src.cursor + (4 - l) - 2 } } 8
  else if flag &&& 0b11100000#8 = 0b11000000#8 then
    decompactTimestamp m { dc with source := { src with cursor := src.cursor + (4 - l) - 1 } } 16
  else if flag &&& 0b11110000#8 = 0b11100000#8 then decompactTimestamp m { dc with source := src } 32
  else decompactTimestamp m { dc with source := src } 64

/-- `GorillaDecompactor::next` (src/compaction/gorilla.rs:270-371). -/
def next (m : Mode) (dc : GorillaDecompactor) : Option (Option TimePoint × GorillaDecompactor) :=
  if dc.idx = 0 then do
    let (buf, l, src) ← dc.source.readNextNBit m (vecWithLen 16) 128
    let dc := { dc with source := src }
    if l ≠ 128 then pure (none, dc)
    else
      let ts ← fromBE (buf.take 8)
      let value ← fromBE (buf.drop 8)
      pure (some ⟨ts, value⟩, { dc with t := ts, v := value, idx := dc.idx + 1 })
  else if dc.idx = 1 then do
    let (buf, l, src) ← dc.source.readNextNBit m (vecWithLen 8) 64
    let dc := { dc with source := src }
    if l ≠ 64 then pure (none, dc)
    else
      let delta ← fromBE buf
      let ts ← i64add m delta dc.t
      finish m { dc with d := delta } ts
  else do
    let (buf, l, src) ← dc.source.readNextNBit m [0x00#8] 4
    let dc := { dc with source := src }
    if l = 0 ∨ l > 4 then pure (none, dc)
    else
      let flag := buf.headD 0#8
      if flag &&& 0b10000000#8 = 0#8 then do
        let ts ← u64add m dc.t dc.d
        finish m { dc with source := { src with cursor := src.cursor + (4 - l) - 3 } } ts
      else do
        let (r, dc) ← flagTimestamp m dc flag l src
        match r with
        | some ts => finish m dc ts
        | none => pure (none, dc)

end GorillaDecompactor

/-- Outcome of running an iterator to the end. -/
inductive Outcome (α : Type) where
  | ok (a : α)
  | panic
  | outOfFuel
deriving DecidableEq, Repr

namespace GorillaDecompactor

/-- `Vec::from_iter(decompactor)` (src/compaction/mod.rs:165): call `next` until it returns `None`.
The fuel makes the loop a total function; `C08` proves that the fuel used by `decompact` never runs out and
that more fuel does not change the result. -/
def collect (m : Mode) : Nat → GorillaDecompactor → Outcome (List TimePoint)
  | 0, _ => .outOfFuel
  | fuel + 1, dc =>
    match dc.next m with
    | none => .panic
    | some (none, _) => .ok []
    | some (some p, dc) =>
      match collect m fuel dc with
      | .ok l => .ok (p :: l)
      | .panic => .panic
      | .outOfFuel => .outOfFuel

end GorillaDecompactor
end Verif
