import Verif.Model.ServerLife
/-! The server process over time, as in Model/ServerLife, with chunk directories that exist already. A chunk directory is named after its
window (src/chunk/dir.rs), so a new chunk that starts at the same millisecond as an older one has the same directory. The older chunk keeps
its sled trees open, read-only or not (src/db.rs:127-173, src/storage/sled_storage.rs:148-156), and sled locks its files: opening them for
writing (`Db::start_default`, src/storage/sled_storage.rs:25-29, src/indexer/sled_indexer.rs:31-35) is refused. -/
namespace Verif

/-- A chunk directory of this window exists. -/
def LiveDb.taken (db : LiveDb) (a b : U64) : Bool := db.slots.any fun s => decide (s.name = encodeChunkDir a b)

/-- One event. At a tick with a window whose directory exists, `build` fails, `swap` (src/db.rs:269-318) returns an error, which is dropped
(src/db.rs:97-100), and nothing changes (metadata.json is written again with the same contents). At a start, `MonolithDb::new`
(src/db.rs:39-103) fails. -/
def LiveDb.stepNamed (B : BinSearch) (base : Str) (size : U64) (db : LiveDb) : LifeEvent → Option LiveDb
  | .write ls ps => db.step B base size (.write ls ps)
  | .tick r => if db.taken (r + 1) (r + 1 + size) then some db else db.step B base size (.tick r)
  | .restart order clock now => if db.taken now (now + size) then none else db.step B base size (.restart order clock now)

/-- One event and the response if there is one (as `Host.step`; src/server.rs:47-63, src/db.rs:87-100, src/bin/monolith-server.rs:117-145: a
start that fails ends the process). -/
def Host.stepNamed (B : BinSearch) (H : Hash) (F : Formats) (P : Paths) (base : Str) (size : U64) (h : Host) : HostEvent → Option Response × Host
  | .request r =>
    if h.up then
      match process (liveApi B H) F P h.db r with
      | (some x, db) => (some x, ⟨true, db⟩)
      | (none, db) => (none, ⟨false, db⟩)
    else (none, h)
  | .tick r =>
    if h.up then
      match h.db.stepNamed B base size (.tick r) with
      | some db => (none, ⟨true, db⟩)
      | none => (none, ⟨false, h.db⟩)
    else (none, h)
  | .restart order clock now =>
    match h.db.stepNamed B base size (.restart order clock now) with
    | some db => (none, ⟨true, db⟩)
    | none => (none, ⟨false, h.db⟩)

/-- A history: the responses and the last state (src/server.rs:47-63). -/
def Host.runNamed (B : BinSearch) (H : Hash) (F : Formats) (P : Paths) (base : Str) (size : U64) : Host → List HostEvent → List (Option Response) × Host
  | h, [] => ([], h)
  | h, e :: es =>
    let r := h.stepNamed B H F P base size e
    let rest := Host.runNamed B H F P base size r.2 es
    (r.1 :: rest.1, rest.2)

end Verif
