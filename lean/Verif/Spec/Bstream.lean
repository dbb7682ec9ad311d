import Verif.Model.Bstream
/-! Specification vocabulary for bit streams. -/
namespace Verif

/-- Stream `s` holds exactly the bits `l`: the bytes, read from the most significant bit on, are `l` followed by
`remaining` zero bits, and fewer than eight bits are unused. -/
def Rep (s : Bstream) (l : List Bool) : Prop :=
  flat s.data = l ++ List.replicate s.remaining false ∧ s.remaining < 8

/-- The writing operations of a bit stream. -/
inductive BitOp where
  /-- `write(bit)` -/
  | bit (b : Bool)
  /-- `append_bytes(bytes, 0)` -/
  | bytes (bs : List Byte)
  /-- `write_bits(v.to_be_bytes(), n)` -/
  | word (v : U64) (n : Nat)

/-- The bits an operation is meant to add. -/
def BitOp.bits : BitOp → List Bool
  | .bit b => [b]
  | .bytes bs => flat bs
  | .word v n => (bitsOf v).drop (64 - n)

/-- Widths accepted by `write_bits`. -/
def BitOp.valid : BitOp → Prop
  | .word _ n => 1 ≤ n ∧ n ≤ 64
  | _ => True

/-- Run one writing operation of the code. -/
def BitOp.run (m : Mode) (s : Bstream) : BitOp → Option Bstream
  | .bit b => s.write m b
  | .bytes bs => s.appendBytes m bs 0
  | .word v n => s.writeBits m (toBE v) n

/-- Run several. -/
def runBits (m : Mode) : Bstream → List BitOp → Option Bstream
  | s, [] => some s
  | s, o :: os => (o.run m s).bind fun s => runBits m s os

end Verif
