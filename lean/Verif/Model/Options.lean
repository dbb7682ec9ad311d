import Verif.Model.Num
import Verif.Model.Life
/-! The chunk-size option, from the command line to the windows of the chunks. -/
namespace Verif

/-- The value of `--chunk_size` that `DbOpts::get_config` reads (src/common/option.rs:24-25): a `u64` number of seconds, or an error (the
binary stops with `expect("Cannot read db config")`, src/bin/monolith-server.rs:62). -/
def chunkSizeSecs (text : Str) : Option Nat := parseUnsigned 10 (2 ^ 64 - 1) text

/-- `Duration::from_secs(secs).as_millis() as Timestamp` (src/common/option.rs:30, src/db.rs:56, 61, 273): `as_millis` is a `u128`
(exact), the cast to `u64` keeps the low 64 bits. -/
def sizeMillis (secs : Nat) : U64 := BitVec.ofNat 64 (secs * 1000)

/-- `a + b` on `Timestamp` (src/db.rs:61, 273): with overflow checks (debug build) `none` is a panic; without (release build) it wraps. -/
def addTime (checked : Bool) (a b : U64) : Option U64 := if checked && decide (2 ^ 64 ≤ a.toNat + b.toNat) then none else some (a + b)

/-- The outcome of starting the server, as far as the chunk-size option is concerned. -/
inductive Start where
  /-- the option is refused -/
  | refused
  /-- `MonolithDb::new` panics -/
  | panicked
  /-- the database runs and its current chunk has this window -/
  | runs (start_ end_ : U64)
deriving DecidableEq, Repr

/-- `DbOpts::get_config`, then the window of the first chunk in `MonolithDb::new` (src/db.rs:56-63), clock reading `now`. -/
def startWith (checked : Bool) (text : Str) (now : U64) : Start :=
  match chunkSizeSecs text with
  | none => .refused
  | some secs =>
    match addTime checked now (sizeMillis secs) with
    | none => .panicked
    | some e => .runs now e

/-- The window of the chunk created by a swap (src/db.rs:97-100, 269-273) when the timer ticked at `reading`; `none`: the swapping thread
panics (and no chunk is ever created again: the receiver is gone). -/
def swapWindow (checked : Bool) (secs : Nat) (reading : U64) : Option (U64 × U64) :=
  match addTime checked reading 1#64 with
  | none => none
  | some s => (addTime checked s (sizeMillis secs)).map (s, ·)

end Verif
