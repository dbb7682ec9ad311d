import Verif.Model.Compaction
/-! Specification vocabulary for the compaction properties. Nothing here mentions the compactor. -/
namespace Verif

/-- Second differences of consecutive timestamps, modulo 2^64. -/
def secondDiffs : List U64 → List U64
  | a :: b :: c :: rest => ((c - b) - (b - a)) :: secondDiffs (b :: c :: rest)
  | _ => []

/-- Second differences over the integers, of first differences read as signed 64-bit numbers. -/
def secondDiffsInt : List U64 → List Int
  | a :: b :: c :: rest => ((c - b).toInt - (b - a).toInt) :: secondDiffsInt (b :: c :: rest)
  | _ => []

/-- XOR of neighbouring values. -/
def xors : List U64 → List U64
  | a :: b :: rest => (b ^^^ a) :: xors (b :: rest)
  | _ => []

/-- Gorilla windows (leading zeros, trailing zeros) opened by a list of value changes when the current window is `w`:
a zero change or a change whose significant bits lie inside the window opens none. -/
def openedFrom (w : Nat × Nat) : List U64 → List (Nat × Nat)
  | [] => []
  | x :: xs =>
    if x = 0#64 ∨ (w.1 ≤ lz x ∧ w.2 ≤ tz x) then openedFrom w xs
    else (lz x, tz x) :: openedFrom (lz x, tz x) xs

/-- Windows opened by the value changes of a whole stream: the first change opens one if it is not zero; if it is zero
the window is the whole word from then on. -/
def opened : List U64 → List (Nat × Nat)
  | [] => []
  | x :: xs => if x = 0#64 then openedFrom (0, 0) xs else (lz x, tz x) :: openedFrom (lz x, tz x) xs

/-- Compact points with a fresh Gorilla compactor through `compact_vec`: the bytes, `none` for a panic. -/
def gorillaBytes (m : Mode) (pts : List TimePoint) : Option (List Byte) :=
  ((Compactor.new .gorilla).compactVec m pts).map Prod.snd

/-- Compact, then decompact, in a given build mode. -/
def gorillaRoundTrip (m : Mode) (pts : List TimePoint) : Outcome (List TimePoint) :=
  match gorillaBytes m pts with
  | none => .panic
  | some bytes =>
    match decompactBytes m .gorilla bytes with
    | .ok o => o
    | .error _ => .panic

/-- Feed points one by one (`Compactor::compact`). -/
def compactEach (m : Mode) : Compactor → List TimePoint → Option Compactor
  | c, [] => some c
  | c, p :: ps => do
      let c ← c.compact m p
      compactEach m c ps

end Verif
