/-!
Basic vocabulary shared by all model files: bytes, 64-bit words, big-endian conversion,
build modes and panics.  Models Rust built-ins, not a file of /repo.
-/
namespace Verif

/-- Rust `u8`. -/
abbrev Byte := BitVec 8
/-- Bit pattern of a Rust `u64`, `i64` or `f64`.
`Timestamp = u64`, `Value = f64` (src/lib.rs:27-28), `TimeSeriesId = u64` (src/common/time_series.rs:7). -/
abbrev U64 := BitVec 64

/-- Cargo profile: `debug` has overflow checks (overflow panics), `release` wraps
(Cargo.toml has no profile section, so cargo defaults apply; docker/cd/Dockerfile:34 builds `--release`). -/
inductive Mode | debug | release
deriving DecidableEq, Repr

/-- Bits of a word, most significant first. -/
def bitsOf {w : Nat} (v : BitVec w) : List Bool := (List.range w).map v.getMsbD

/-- Bits of a byte vector, in stream order. -/
def flat (bs : List Byte) : List Bool := bs.flatMap bitsOf

/-- `n` low bytes of `x`, most significant first. -/
def beBytes : Nat → Nat → List Byte
  | 0, _ => []
  | n + 1, x => beBytes n (x / 256) ++ [BitVec.ofNat 8 (x % 256)]

/-- Number denoted by a byte vector, most significant byte first. -/
def beNat (bs : List Byte) : Nat := bs.foldl (fun acc b => 256 * acc + b.toNat) 0

/-- Rust `u64::to_be_bytes` / `i64::to_be_bytes` / `f64::to_be_bytes`. -/
def toBE (v : U64) : List Byte := beBytes 8 v.toNat

/-- Rust `u64::from_be_bytes(slice.try_into().unwrap())`: `none` is the panic of `unwrap`
when the slice does not have 8 bytes. -/
def fromBE (bs : List Byte) : Option U64 :=
  if bs.length = 8 then some (BitVec.ofNat 64 (beNat bs)) else none

/-- `u8` subtraction: panics in debug, wraps in release. -/
def u8sub (m : Mode) (a b : Nat) : Option Nat :=
  if b ≤ a then some (a - b)
  else match m with
    | .debug => none
    | .release => some (256 + a - b)

/-- `u8 << k`: panics in debug when `k ≥ 8`, masks the shift amount in release. -/
def shl8 (m : Mode) (x : Byte) (k : Nat) : Option Byte :=
  if k < 8 then some (x <<< k)
  else match m with
    | .debug => none
    | .release => some (x <<< (k % 8))

/-- `u8 >> k`: panics in debug when `k ≥ 8`, masks the shift amount in release. -/
def shr8 (m : Mode) (x : Byte) (k : Nat) : Option Byte :=
  if k < 8 then some (x >>> k)
  else match m with
    | .debug => none
    | .release => some (x >>> (k % 8))

/-- A stored sample: `TimePoint { timestamp: u64, value: f64 }` (src/common/time_point.rs:7-18);
the value is its bit pattern. -/
structure TimePoint where
  ts : U64
  val : U64
deriving DecidableEq, Repr

end Verif
