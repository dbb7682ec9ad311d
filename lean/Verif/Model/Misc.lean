import Verif.Model.Num
/-! Small pieces: options, time points, window overlap, id generator. -/
namespace Verif

/-! ### Options -/

/-- What `ServerOpts::get_config` can return (src/common/option.rs:57-73). -/
inductive OptRes where
  | ok (port : Int) (workers : Nat)
  | parseErr
  | optionErr
deriving DecidableEq, Repr

/-- `ServerOpts::get_config` (src/common/option.rs:57-73) on the texts of the worker and port options. The two path
options are passed through unchanged and are left out. `usize` is 64 bits. -/
def serverConfig (workerStr portStr : Str) : OptRes :=
  match parseUnsigned 10 (2 ^ 64 - 1) workerStr with
  | none => .parseErr
  | some workers =>
    match parseI32 portStr with
    | none => .parseErr
    | some port => if port > 65535 ∨ port < 1024 then .optionErr else .ok port workers

/-! ### Window overlap -/

/-- `is_duration_overlap` (src/common/utils.rs:11-18). -/
def isDurationOverlap (s1 e1 s2 e2 : U64) : Bool := !(decide (s1.toNat > e2.toNat) || decide (e1.toNat < s2.toNat))

/-! ### Floating point time points -/

/-- An `f64` up to the sign of zero: NaN, an infinity, or the rational it denotes. -/
inductive Flt where
  | nan
  | inf (neg : Bool)
  | fin (q : Rat)

/-- A rounding of exact results: monotone, and exact on 0 (IEEE 754 round-to-nearest-even satisfies this; a result too
large may round to an infinity). -/
structure Rounding where
  /-- rounding of an exact result -/
  rnd : Rat → Flt
  not_nan : ∀ q, rnd q ≠ .nan
  /-- a non-positive exact result rounds to a non-positive finite number or to minus infinity -/
  nonpos : ∀ q, q ≤ 0 → rnd q = .inf true ∨ ∃ r, rnd q = .fin r ∧ r ≤ 0

/-- `a - b` on `f64` (IEEE 754): same-sign infinities give NaN. -/
def Flt.sub (R : Rounding) : Flt → Flt → Flt
  | .nan, _ => .nan
  | _, .nan => .nan
  | .inf s, .inf t => if s = t then .nan else .inf s
  | .inf s, .fin _ => .inf s
  | .fin _, .inf t => .inf (!t)
  | .fin a, .fin b => R.rnd (a - b)

/-- `a < margin` on `f64` for a finite `margin` (comparisons with NaN are false). -/
def Flt.lt (a : Flt) (margin : Rat) : Bool :=
  match a with
  | .nan => false
  | .inf neg => neg
  | .fin q => decide (q < margin)

/-- `TimePoint::eq` (src/common/time_point.rs:22-27). `margin` is the double nearest to 1e-9 (line 5): any positive number. -/
def timePointEq (R : Rounding) (margin : Rat) (t1 : U64) (v1 : Flt) (t2 : U64) (v2 : Flt) : Bool :=
  decide (t1 = t2) && ((v1.sub R v2).lt margin || (v2.sub R v1).lt margin)

/-! ### Id generator -/

/-- One `IdGenerator::next` (src/common/mod.rs:52-54): `fetch_add(1, SeqCst)` is one atomic step that returns the old
value and wraps around. -/
def idNext (counter : U64) : U64 × U64 := (counter, counter + 1#64)

/-- A run of calls by arbitrary threads: the schedule lists which thread performs the next `fetch_add`. Returns the log
of (thread, id handed out) in the order of the atomic steps. -/
def idRun (counter : U64) : List Nat → List (Nat × U64)
  | [] => []
  | th :: rest => (th, (idNext counter).1) :: idRun (idNext counter).2 rest

end Verif
