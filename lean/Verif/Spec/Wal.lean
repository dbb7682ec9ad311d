import Verif.Model.Basic
/-! Independent specification of the log format: a reader. `crc` is the checksum function. -/
namespace Verif

/-- What a log record says. -/
structure Record where
  seqId : U64
  type : Byte
  content : List Byte
deriving DecidableEq, Repr

/-- Read one record from the front: 8 bytes sequence number, 1 byte type, 2 bytes length, content, 4 bytes checksum of the
content, all big-endian. `none`: not enough bytes, or the checksum is wrong. Second component: the rest. -/
def readRecord (crc : List Byte → BitVec 32) (bs : List Byte) : Option (Record × List Byte) :=
  if bs.length < 11 then none
  else
    let len := beNat ((bs.drop 9).take 2)
    if bs.length < 11 + len + 4 then none
    else
      let content := (bs.drop 11).take len
      if beNat ((bs.drop (11 + len)).take 4) = (crc content).toNat then
        some (⟨BitVec.ofNat 64 (beNat (bs.take 8)), (bs.drop 8).headD 0#8, content⟩, bs.drop (11 + len + 4))
      else none

/-- Read records until one cannot be read (`fuel`: at most so many). -/
def readLogN (crc : List Byte → BitVec 32) : Nat → List Byte → List Record
  | 0, _ => []
  | n + 1, bs =>
    match readRecord crc bs with
    | none => []
    | some (r, rest) => r :: readLogN crc n rest

/-- Read all records (every record takes at least 15 bytes). -/
def readLog (crc : List Byte → BitVec 32) (bs : List Byte) : List Record := readLogN crc bs.length bs

/-- The bits of some bytes in the order in which a reflected CRC takes them: bytes in order, each from its lowest bit. -/
def wireBits (bs : List Byte) : List Bool :=
  bs.flatMap fun b => [b.getLsbD 0, b.getLsbD 1, b.getLsbD 2, b.getLsbD 3, b.getLsbD 4, b.getLsbD 5, b.getLsbD 6, b.getLsbD 7]

/-- Two byte strings differ in a burst of at most `n` bits: they have the same length, differ, and every differing bit lies in
a window of `n` consecutive bits. -/
def BurstWithin (n : Nat) (xs ys : List Byte) : Prop :=
  xs ≠ ys ∧ xs.length = ys.length ∧ ∃ s, ∀ i, (wireBits xs)[i]? ≠ (wireBits ys)[i]? → s ≤ i ∧ i < s + n

end Verif
