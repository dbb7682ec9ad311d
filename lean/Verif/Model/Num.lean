import Verif.Model.Basic
/-! Strings as UTF-8 byte lists; Rust integer formatting and parsing (std, not a file of /repo). -/
namespace Verif

/-- A Rust `String`: its UTF-8 bytes. -/
abbrev Str := List Byte

/-- Bytes of an ASCII literal of the source. -/
def ascii (s : List Char) : Str := s.map fun c => BitVec.ofNat 8 c.toNat

/-- Byte of a digit as `{}` / `{:x}` print it. -/
def digitByte (d : Nat) : Byte := BitVec.ofNat 8 (if d < 10 then 48 + d else 87 + d)

/-- Digits of `n`, most significant first, without leading zeros ("0" for zero). The fuel bounds the number of digits. -/
def digitsAux (radix : Nat) : Nat → Nat → List Nat
  | 0, _ => []
  | fuel + 1, n => if n < radix then [n] else digitsAux radix fuel (n / radix) ++ [n % radix]

/-- `format!("{}", n)` (radix 10) and `format!("{:x}", n)` (radix 16) of an unsigned integer. -/
def formatNat (radix n : Nat) : Str := (digitsAux radix (n + 1) n).map digitByte

/-- `(c as char).to_digit(radix)`. -/
def digitVal (radix : Nat) (b : Byte) : Option Nat :=
  let n := b.toNat
  let v := if 48 ≤ n ∧ n ≤ 57 then some (n - 48)
    else if 97 ≤ n ∧ n ≤ 122 then some (n - 87)
    else if 65 ≤ n ∧ n ≤ 90 then some (n - 55)
    else none
  v.bind fun d => if d < radix then some d else none

/-- Loop of `from_str_radix`: checked multiplication and addition. -/
def parseDigits (radix max : Nat) : Nat → Str → Option Nat
  | acc, [] => some acc
  | acc, b :: rest =>
    (digitVal radix b).bind fun d => if acc * radix + d > max then none else parseDigits radix max (acc * radix + d) rest

/-- `from_str_radix` skips one leading `+`. -/
def stripPlus : Str → Str
  | b :: rest => if b = 43#8 then rest else b :: rest
  | [] => []

/-- `uN::from_str_radix(s, radix)` with `N`-bit maximum `max`; `none` is `Err(ParseIntError)`.
A leading `+` is accepted, a leading `-` is an invalid digit, no digits is an error. -/
def parseUnsigned (radix max : Nat) (s : Str) : Option Nat :=
  if stripPlus s = [] then none else parseDigits radix max 0 (stripPlus s)

/-- `s.parse::<i32>()`: like the above, with a sign. (Negative numbers accumulate downwards: bound 2^31.) -/
def parseI32 (s : Str) : Option Int :=
  match s with
  | b :: rest =>
    if b = 45#8 then
      if rest = [] then none else (parseDigits 10 (2 ^ 31) 0 rest).map fun n : Nat => -(n : Int)
    else (parseUnsigned 10 (2 ^ 31 - 1) s).map fun n : Nat => (n : Int)
  | [] => none

/-- Stable sort: `slice::sort` / `sort_by_key`. The algorithm is irrelevant, a stable sort is unique. -/
def insertBy {α : Type} (le : α → α → Bool) (x : α) : List α → List α
  | [] => [x]
  | y :: ys => if le x y then x :: y :: ys else y :: insertBy le x ys

/-- Stable sort of a list. -/
def stableSort {α : Type} (le : α → α → Bool) : List α → List α
  | [] => []
  | x :: xs => insertBy le x (stableSort le xs)

end Verif
