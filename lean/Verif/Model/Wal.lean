import Verif.Model.Result
/-! Write-ahead log (src/wal). -/
namespace Verif

/-! ### CRC (crate crc 1.8.1, Cargo.toml:22), modelled from its documentation and source: table-driven, reflected -/

/-- One bit of the polynomial division. -/
def crcBit {w : Nat} (poly v : BitVec w) : BitVec w := if v.getLsbD 0 then (v >>> 1) ^^^ poly else v >>> 1

/-- `n` bits. -/
def crcBits {w : Nat} (poly : BitVec w) : Nat → BitVec w → BitVec w
  | 0, v => v
  | n + 1, v => crcBits poly n (crcBit poly v)

/-- Entry `b` of the table. -/
def crcTable {w : Nat} (poly : BitVec w) (b : Byte) : BitVec w := crcBits poly 8 (b.setWidth w)

/-- `value = table[((value as u8) ^ i) as usize] ^ (value >> 8)`. -/
def crcByte {w : Nat} (poly v : BitVec w) (b : Byte) : BitVec w := crcTable poly (v.setWidth 8 ^^^ b) ^^^ (v >>> 8)

/-- `update`: the value is kept complemented between calls. -/
def crcUpdate {w : Nat} (poly v : BitVec w) (bs : List Byte) : BitVec w := ~~~ (bs.foldl (crcByte poly) (~~~ v))

/-- `crc32::IEEE`. -/
def ieee : BitVec 32 := 0xEDB88320#32
/-- `crc64::ECMA`. -/
def ecma : BitVec 64 := 0xC96C5795D7870F42#64

/-- `Digest` (the table is fixed by the polynomial). -/
structure Digest (w : Nat) where
  initial : BitVec w
  value : BitVec w
deriving DecidableEq, Repr

/-- `Digest::new`. -/
def Digest.new {w : Nat} : Digest w := ⟨0, 0⟩
/-- `Digest::new_with_initial`. -/
def Digest.newWithInitial {w : Nat} (i : BitVec w) : Digest w := ⟨i, i⟩
/-- `write`. -/
def Digest.write {w : Nat} (poly : BitVec w) (d : Digest w) (bs : List Byte) : Digest w := { d with value := crcUpdate poly d.value bs }
/-- `sum32`, `finish`. -/
def Digest.sum {w : Nat} (d : Digest w) : BitVec w := d.value

/-! ### Entries -/

/-- `Entry` (src/wal/mod.rs:26-31). -/
structure Entry where
  seqId : U64
  type : Byte
  content : List Byte
  crc : Digest 32
deriving DecidableEq, Repr

/-- `Entry::new` (src/wal/mod.rs:56-63); `EntryType` has one value, `Default = 0` (mod.rs:116-118), the model takes any byte. -/
def Entry.new (seqId : U64) (type : Byte) : Entry := ⟨seqId, type, [], .new⟩
/-- `Entry::default` (src/wal/mod.rs:44-53). -/
def Entry.default : Entry := ⟨0#64, 0#8, [], .new⟩
/-- `Clone for Entry` (src/wal/mod.rs:33-42). -/
def Entry.clone (e : Entry) : Entry := ⟨e.seqId, e.type, e.content, .newWithInitial e.crc.sum⟩
/-- `Entry::len` (src/wal/mod.rs:65-67); the two length bytes are not counted. -/
def Entry.len (e : Entry) : Nat := 8 + 1 + e.content.length + 4
/-- `Entry::get_bytes` (src/wal/mod.rs:69-78); `as u16` keeps the low 16 bits. -/
def Entry.getBytes (e : Entry) : List Byte :=
  toBE e.seqId ++ [e.type] ++ beBytes 2 (e.content.length % 65536) ++ e.content ++ beBytes 4 e.crc.sum.toNat
/-- `Entry::push` (src/wal/mod.rs:80-83). -/
def Entry.push (e : Entry) (bs : List Byte) : Entry := { e with crc := e.crc.write ieee bs, content := e.content ++ bs }

/-! ### Writers -/

/-- What the environment decides about a `std::io::Write`: for the n-th `write` call with so many bytes, how many are accepted
(`Ok(n)`, possibly fewer than given), or an error. -/
abbrev Accepts := Nat → Nat → Option Nat

/-- A file: its bytes and the number of `write` calls so far. `flush` moves no bytes in this model and its errors are dropped
by the program (src/wal/segment.rs:76, 117, 127, 142), except in an explicit `flush`. -/
structure Sink where
  data : List Byte
  calls : Nat
deriving DecidableEq, Repr

/-- `Write::write`. -/
def Sink.write (A : Accepts) (s : Sink) (bs : List Byte) : Option Nat × Sink :=
  match A s.calls bs.length with
  | none => (none, { s with calls := s.calls + 1 })
  | some n => (some (min n bs.length), ⟨s.data ++ bs.take n, s.calls + 1⟩)

/-! ### Segments -/

/-- `FlushPolicy` (src/wal/mod.rs:90-99). -/
inductive Policy
  | timeBased
  | numBased (limit : Nat)
  | sizeBased (limit : Nat)
  | immediate
deriving DecidableEq, Repr

/-- `FlushCache` (src/wal/mod.rs:102-117). -/
inductive Cache
  | timeBased (cache : List Entry)
  | numBased (limit idx : Nat) (cache : List Entry)
  | sizeBased (limit size : Nat) (cache : List Entry)
  | none
deriving DecidableEq, Repr

/-- `Segment` (src/wal/segment.rs:16-20). -/
structure Segment where
  writer : Sink
  cache : Cache
  crc : Digest 64
deriving DecidableEq, Repr

/-- `WAL_MAGIC_NUMBER` (src/wal/mod.rs:11). -/
def walMagic : U64 := 0x57414C0000000000#64

/-- `Segment::new` (src/wal/segment.rs:72-101) on an empty file; errors and short counts of the first write are dropped. -/
def Segment.new (A : Accepts) (p : Policy) : Segment where
  writer := (Sink.write A ⟨[], 0⟩ (toBE walMagic)).2
  cache := match p with
    | .immediate => .none
    | .timeBased => .timeBased []
    | .numBased l => .numBased l 0 []
    | .sizeBased l => .sizeBased l 0 []
  crc := .new

/-- `<Segment as Write>::write` (src/wal/segment.rs:23-26). -/
def Segment.write (A : Accepts) (s : Segment) (bs : List Byte) : Option Nat × Segment :=
  ((s.writer.write A bs).1, { s with crc := s.crc.write ecma bs, writer := (s.writer.write A bs).2 })

/-- The loop of `flush` (src/wal/segment.rs:57-61): stops at the first error. -/
def Segment.writeContents (A : Accepts) (s : Segment) : List Entry → Option Unit × Segment
  | [] => (some (), s)
  | e :: es =>
    match s.write A e.content with
    | (none, s') => (none, s')
    | (some _, s') => s'.writeContents A es

/-- `<Segment as Write>::flush` (src/wal/segment.rs:28-64). -/
def Segment.flush (A : Accepts) (s : Segment) : Option Unit × Segment :=
  match s.cache with
  | .none => (some (), s)
  | .timeBased _ => (some (), s)
  | .numBased l _ c => Segment.writeContents A { s with cache := .numBased l 0 (List.replicate l Entry.default) } (c.map Entry.clone)
  | .sizeBased l _ c => Segment.writeContents A { s with cache := .sizeBased l 0 [] } (c.map Entry.clone)

/-- `close` (src/wal/segment.rs:104-108). -/
def Segment.close (A : Accepts) (s : Segment) : Option Unit × Segment :=
  ((s.write A (beBytes 8 s.crc.sum.toNat)).1.map fun _ => (), (s.write A (beBytes 8 s.crc.sum.toNat)).2)

/-- `write_entry` (src/wal/segment.rs:110-146); `.panic` is the index panic of `cache[*idx]`. Flush errors are dropped. -/
def Segment.writeEntry (A : Accepts) (s : Segment) (e : Entry) : Res Unit × Segment :=
  match s.cache with
  | .none =>
    match s.write A e.getBytes with
    | (none, s') => (.err .ioErr, s')
    | (some _, s') => (.ok (), (s'.flush A).2)
  | .numBased l i c =>
    if i < c.length then
      let s' := { s with cache := .numBased l (i + 1) (c.set i e) }
      if i + 1 = l then (.ok (), (s'.flush A).2) else (.ok (), s')
    else (.panic, s)
  | .timeBased c => (.ok (), { s with cache := .timeBased (c ++ [e]) })
  | .sizeBased l n c =>
    if n + e.len ≥ l then (.ok (), (Segment.flush A { s with cache := .sizeBased l n (c ++ [e]) }).2)
    else (.ok (), { s with cache := .sizeBased l (n + e.len) (c ++ [e]) })

/-- Several entries, stopping at a panic: the results and the final segment. -/
def Segment.writeAll (A : Accepts) (s : Segment) : List Entry → List (Res Unit) × Segment
  | [] => ([], s)
  | e :: es =>
    match s.writeEntry A e with
    | (.panic, s') => ([.panic], s')
    | (r, s') => (r :: (s'.writeAll A es).1, (s'.writeAll A es).2)

end Verif
