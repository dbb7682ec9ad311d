import Verif.Model.Db
/-! The database with the poison state of its lock on the current chunk (src/db.rs), one call at a time. -/
namespace Verif

/-- `MonolithDb` (src/db.rs:22-32): current chunk, older chunks and whether the `RwLock` around the current chunk is
poisoned (a panic while it was write-locked). The lock around the older chunks is write-locked only for a `push`
(src/db.rs:308), which does not panic. -/
structure LockedDb (σ : Type) where
  cur : Chunk σ
  old : List (Chunk σ)
  poisoned : Bool

/-- Calls on a database. `swap` is made by the background thread (src/db.rs:97-100) with an already built chunk. -/
inductive DbCall (σ : Type) where
  | write (ls : Labels) (ps : List TimePoint)
  | writeOne (ls : Labels) (p : TimePoint)
  | query (q : Labels) (a b : U64)
  | swap (new : Chunk σ)

/-- What a call returned: of a write or swap its status, of a query the status and the series. -/
inductive DbReturn where
  | done (r : Res Unit)
  | series (r : Res (List (Labels × List TimePoint)))
deriving DecidableEq

/-- The call panicked. -/
def DbReturn.panicked : DbReturn → Bool
  | .done .panic => true
  | .series .panic => true
  | _ => false

/-- `write_time_points` (src/db.rs:176-194): `read().unwrap()` panics on a poisoned lock. A panic under the read lock does
not poison it. -/
def LockedDb.write {σ : Type} (C : Comp σ) (d : LockedDb σ) (ls : Labels) (ps : List TimePoint) : Res Unit × LockedDb σ :=
  if d.poisoned then (.panic, d)
  else ((writeTimePoints C d.cur ls ps).1, { d with cur := (writeTimePoints C d.cur ls ps).2 })

/-- `write_time_point` (src/db.rs:196-200). -/
def LockedDb.writeOne {σ : Type} (C : Comp σ) (d : LockedDb σ) (ls : Labels) (p : TimePoint) : Res Unit × LockedDb σ :=
  if d.poisoned then (.panic, d)
  else ((writeTimePoint C d.cur ls p).1, { d with cur := (writeTimePoint C d.cur ls p).2 })

/-- `query` (src/db.rs:202-267). -/
def LockedDb.query {σ : Type} (C : Comp σ) (H : Hash) (d : LockedDb σ) (q : Labels) (a b : U64) : Res (List (Labels × List TimePoint)) :=
  if d.poisoned then .panic else dbQuery H (d.cur.view C) (d.old.map (Chunk.view C)) q a b

/-- `swap` (src/db.rs:305-317): the push under the read lock, then `close` and the replacement under the write lock. A panic
in `close` leaves the current chunk in place and poisons the lock. The pushed `Arc` is the chunk that is closed. -/
def LockedDb.swap {σ : Type} (d : LockedDb σ) (new : Chunk σ) : Res Unit × LockedDb σ :=
  if d.poisoned then (.panic, d)
  else
    match d.cur.close with
    | (.panic, c) => (.panic, { d with old := d.old ++ [c], poisoned := true })
    | (r, c) => (r, { d with old := d.old ++ [c], cur := new })

/-- One call. -/
def LockedDb.call {σ : Type} (C : Comp σ) (H : Hash) (d : LockedDb σ) : DbCall σ → DbReturn × LockedDb σ
  | .write ls ps => (.done (d.write C ls ps).1, (d.write C ls ps).2)
  | .writeOne ls p => (.done (d.writeOne C ls p).1, (d.writeOne C ls p).2)
  | .query q a b => (.series (d.query C H q a b), d)
  | .swap new => (.done (d.swap new).1, (d.swap new).2)

/-- Calls one after another: what each returned, and the final state. -/
def LockedDb.calls {σ : Type} (C : Comp σ) (H : Hash) (d : LockedDb σ) : List (DbCall σ) → List DbReturn × LockedDb σ
  | [] => ([], d)
  | x :: xs => ((d.call C H x).1 :: ((d.call C H x).2.calls C H xs).1, ((d.call C H x).2.calls C H xs).2)

/-- The state after `MonolithDb::new` (src/db.rs:81-90). -/
def LockedDb.open {σ : Type} (cur : Chunk σ) (old : List (Chunk σ)) : LockedDb σ := ⟨cur, old, false⟩

end Verif
