import Verif.Model.Gorilla
/-! Model of the public compaction API (src/compaction/mod.rs:30-181). -/
namespace Verif

/-- `enum CompactType` (src/compaction/mod.rs:30-34). -/
inductive CompactType | gorilla | simple | none
deriving DecidableEq, Repr

/-- `as u8` of the discriminants (src/compaction/mod.rs:31-33). -/
def CompactType.tag : CompactType → Byte
  | .gorilla => 1
  | .simple => 2
  | .none => 3

/-- `enum Compactor` (src/compaction/mod.rs:37-49). -/
inductive Compactor where
  | gorilla (c : GorillaCompactor)
  | simple
  | none (v : List Byte)
deriving DecidableEq, Repr

namespace Compactor

/-- `Compactor::new` (src/compaction/mod.rs:52-58). -/
def new : CompactType → Compactor
  | .gorilla => .gorilla GorillaCompactor.new
  | .none => .none []
  | .simple => .simple

/-- `Compactor::compact` (src/compaction/mod.rs:61-76). -/
def compact (m : Mode) (c : Compactor) (tp : TimePoint) : Option Compactor :=
  match c with
  | .gorilla g => (g.compact m tp).map .gorilla
  | .none v => some (.none (v ++ toBE tp.ts ++ toBE tp.val))
  | .simple => some .simple

/-- `Compactor::get_bytes_vec` (src/compaction/mod.rs:113-127). -/
def getBytesVec (c : Compactor) : Option (List Byte) :=
  match c with
  | .simple => Option.none
  | .gorilla g => some (g.asBytesVec ++ [CompactType.gorilla.tag])
  | .none v => some (v ++ [CompactType.none.tag])

/-- The loop of `compact_vec` (src/compaction/mod.rs:93-95). -/
def compactAll (m : Mode) : GorillaCompactor → List TimePoint → Option GorillaCompactor
  | g, [] => some g
  | g, tp :: rest => do
      let g ← g.compact m tp
      compactAll m g rest

/-- `Compactor::compact_vec` (src/compaction/mod.rs:89-109): the updated compactor and the bytes. -/
def compactVec (m : Mode) (c : Compactor) (data : List TimePoint) : Option (Compactor × List Byte) :=
  match c with
  | .simple => Option.none
  | .gorilla g => do
      let g ← compactAll m g data
      pure (.gorilla g, g.asBytesVec ++ [CompactType.gorilla.tag])
  | .none v => some (.none v, v ++ [CompactType.none.tag])

end Compactor

/-- `enum Decompactor` (src/compaction/mod.rs:130-133). -/
inductive Decompactor where
  | gorilla (d : GorillaDecompactor)
  | none (v : List Byte)
deriving DecidableEq, Repr

/-- The errors of `Decompactor::from` (src/compaction/mod.rs:136-161). -/
inductive DecompactErr where
  | typeDontMatch (expected actual : Byte)
  | internal
deriving DecidableEq, Repr

namespace Decompactor

/-- `Decompactor::from` (src/compaction/mod.rs:136-161). `pop().unwrap_or(0)` is `getLast?.getD 0`. -/
def from' (t : CompactType) (data : List Byte) : Except DecompactErr Decompactor :=
  match t with
  | .gorilla =>
    let last := data.getLast?.getD 0#8
    if last ≠ CompactType.gorilla.tag then .error (.typeDontMatch CompactType.gorilla.tag last)
    else .ok (.gorilla (GorillaDecompactor.new (Bstream.fromBytes data.dropLast)))
  | .none =>
    let last := data.getLast?.getD 0#8
    if last ≠ CompactType.none.tag then .error (.typeDontMatch CompactType.none.tag last)
    else .ok (.none data.dropLast)
  | .simple => .error .internal

/-- The loop over `_v.chunks(72)` (src/compaction/mod.rs:167-176): `size_of::<Timestamp>() * 8 + size_of::<Value>()`
is 72. `split_at(8)` panics on shorter chunks, `try_into().unwrap()` panics when the rest is not 8 bytes.
The fuel is the number of bytes (every chunk is non-empty). -/
def chunksNone : Nat → List Byte → Option (List TimePoint)
  | 0, _ => some []
  | fuel + 1, v =>
    if v = [] then some []
    else do
      let b := v.take 72
      if b.length < 8 then Option.none
      else
        let ts ← fromBE (b.take 8)
        let val ← fromBE (b.drop 8)
        let rest ← chunksNone fuel (v.drop 72)
        pure (⟨ts, val⟩ :: rest)

/-- Fuel for `collect`: more than the number of bits in the stream. -/
def fuel (d : GorillaDecompactor) : Nat := 8 * d.source.data.data.length + 9

/-- `Decompactor::decompact` (src/compaction/mod.rs:163-180); it never returns `Err`. -/
def decompact (m : Mode) (d : Decompactor) : Outcome (List TimePoint) :=
  match d with
  | .gorilla g => g.collect m (fuel g)
  | .none v => match chunksNone v.length v with
    | some l => .ok l
    | Option.none => .panic

end Decompactor

/-- Decompact bytes with the given type: `Decompactor::from(t, bytes)?.decompact()`. -/
def decompactBytes (m : Mode) (t : CompactType) (bytes : List Byte) : Except DecompactErr (Outcome (List TimePoint)) :=
  (Decompactor.from' t bytes).map (Decompactor.decompact m)

end Verif
