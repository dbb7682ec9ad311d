import Verif.Model.Life
import Verif.Model.Proto
/-! The server process over time: requests as bytes, the swap timer, crashes by panics and restarts (src/main.rs, src/server.rs:47-180,
src/db.rs:39-318). -/
namespace Verif

/-- A running database as the server sees it (src/server.rs:133-180 calls src/db.rs:176-267). -/
def liveApi (B : BinSearch) (H : Hash) : DbApi LiveDb where
  query db q a b := db.query B H q a b
  write db ls ps := ((writeTimePoints (sledComp B) db.cur ls ps).1, { db with cur := (writeTimePoints (sledComp B) db.cur ls ps).2 })

/-- A machine with the database's directory, on which the server runs (`up`) or not. If it does not run, `db` tells what is on the disk
(its `slots`). -/
structure Host where
  up : Bool
  db : LiveDb

/-- What happens to the machine. -/
inductive HostEvent where
  /-- a request arrives -/
  | request (r : Request)
  /-- the swap timer ticks with this clock reading (src/db.rs:87-100) -/
  | tick (reading : U64)
  /-- the server, running or not, is (stopped and) started again -/
  | restart (order : List Slot → List Slot) (clock : Str → U64) (now : U64)

/-- One event and the response if there is one. Requests are served one after another, a panic ends the process (`serve`,
src/server.rs:47-63, see `Verif.serve`); the timer thread ends with the process. Simplification: requests and ticks do not overlap in
time (for that see C66, C67, C85), an end of the process loses nothing that was written (for that see C35, C36, C63). -/
def Host.step (B : BinSearch) (H : Hash) (F : Formats) (P : Paths) (base : Str) (size : U64) (h : Host) : HostEvent → Option Response × Host
  | .request r =>
    if h.up then
      match process (liveApi B H) F P h.db r with
      | (some x, db) => (some x, ⟨true, db⟩)
      | (none, db) => (none, ⟨false, db⟩)
    else (none, h)
  | .tick r =>
    if h.up then
      match h.db.step B base size (.tick r) with
      | some db => (none, ⟨true, db⟩)
      | none => (none, ⟨false, h.db⟩)
    else (none, h)
  | .restart order clock now =>
    match h.db.step B base size (.restart order clock now) with
    | some db => (none, ⟨true, db⟩)
    | none => (none, ⟨false, h.db⟩)

/-- A history: the responses and the last state. -/
def Host.run (B : BinSearch) (H : Hash) (F : Formats) (P : Paths) (base : Str) (size : U64) : Host → List HostEvent → List (Option Response) × Host
  | h, [] => ([], h)
  | h, e :: es =>
    let r := h.step B H F P base size e
    let rest := Host.run B H F P base size r.2 es
    (r.1 :: rest.1, rest.2)

/-- The server has just been started in an empty directory. -/
def Host.fresh (size now : U64) : Host := ⟨true, LiveDb.fresh size now⟩

end Verif
