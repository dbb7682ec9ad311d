import Verif.Model.SledFault
import Verif.Model.SwapFault
/-! Loss of power (or a crash of the operating system): what sled has not flushed can be gone. The index is flushed after each reverse
entry of a new series (src/indexer/sled_indexer.rs:143); nothing else is ever flushed by the program (src/storage/sled_storage.rs:61-78
has no flush), sled does so in the background from time to time. -/
namespace Verif

/-- The contents of one tree. -/
def SledStores.tree (s : SledStores) : TreeName → KV
  | .idx => s.idx
  | .ser => s.ser

/-- The two trees of a chunk with, for each, the contents it has had since it was last flushed (the latest included). -/
structure Volatile where
  now : SledStores
  held : TreeName → List KV

/-- Trees just read from the disk. -/
def Volatile.settled (s : SledStores) : Volatile := ⟨s, fun t => [s.tree t]⟩

/-- A change of tree `t`. -/
def Volatile.set (v : Volatile) (t : TreeName) (k x : Str) : Volatile :=
  ⟨v.now.set t k x, fun u => if u = t then v.held u ++ [(v.now.set t k x).tree u] else v.held u⟩

/-- `Tree::flush` of tree `t`. -/
def Volatile.flush (v : Volatile) (t : TreeName) : Volatile := ⟨v.now, fun u => if u = t then [v.now.tree u] else v.held u⟩

/-- What can be on the disk after the power is lost: sled promises, for each tree, a state between the last flush and the loss. The model
demands this only key by key, and for each tree separately (they are two databases in two directories, src/db.rs:78-82). A flush
by sled's background thread only restricts what is possible. -/
def Volatile.Leaves (v : Volatile) (s : SledStores) : Prop := ∀ t k, ∃ kv ∈ v.held t, s.tree t k = kv k

/-- Execution, as `TreeProg.exec`, that keeps track of what is flushed. -/
def TreeProg.execV {α : Type} : TreeProg α → List OpOutcome → Volatile → (α × List OpOutcome) × Volatile
  | .ret a, os, v => ((a, os), v)
  | .get t k next, os, v =>
    match os.headD .done with
    | .done => (next (.ok (v.now.get t k))).execV os.tail v
    | _ => (next (.err .ioErr)).execV os.tail v
  | .set t k x next, os, v =>
    match os.headD .done with
    | .done => (next (.ok ())).execV os.tail (v.set t k x)
    | .failed => (next (.err .ioErr)).execV os.tail v
    | .lost => (next (.err .ioErr)).execV os.tail (v.set t k x)
  | .flush t next, os, v =>
    match os.headD .done with
    | .done => (next (.ok ())).execV os.tail (v.flush t)
    | _ => (next (.err .ioErr)).execV os.tail v

/-- The first `n` operations of a program, after which the power is lost: the trees. -/
def TreeProg.cut {α : Type} : TreeProg α → Nat → List OpOutcome → Volatile → Volatile
  | .ret _, _, _, v => v
  | _, 0, _, v => v
  | .get t k next, n + 1, os, v =>
    match os.headD .done with
    | .done => (next (.ok (v.now.get t k))).cut n os.tail v
    | _ => (next (.err .ioErr)).cut n os.tail v
  | .set t k x next, n + 1, os, v =>
    match os.headD .done with
    | .done => (next (.ok ())).cut n os.tail (v.set t k x)
    | .failed => (next (.err .ioErr)).cut n os.tail v
    | .lost => (next (.err .ioErr)).cut n os.tail (v.set t k x)
  | .flush t next, n + 1, os, v =>
    match os.headD .done with
    | .done => (next (.ok ())).cut n os.tail (v.flush t)
    | _ => (next (.err .ioErr)).cut n os.tail v

/-- `Chunk::insert` (src/chunk/chunk.rs:110-137) on sled components, with what happens to its operations. -/
def plInsert (st : Chunk Unit × Volatile) (w : FaultyInsert) : Res Unit × (Chunk Unit × Volatile) :=
  let r := (slInsertP st.1 w.ls w.p).execV w.os st.2
  (r.1.1.1, (r.1.1.2, r.2))

/-- A new chunk. -/
def plNew (lo hi : U64) : Chunk Unit × Volatile := (Chunk.new () lo hi, .settled noStores)

/-- A sequence of inserts into a new chunk with window `(lo, hi)`. -/
def plRun (lo hi : U64) (h : List FaultyInsert) : Chunk Unit × Volatile := h.foldl (fun st w => (plInsert st w).2) (plNew lo hi)

/-- The trees when the power is lost after `n` operations of the next insert. -/
def plCut (lo hi : U64) (h : List FaultyInsert) (w : FaultyInsert) (n : Nat) : Volatile :=
  (slInsertP (plRun lo hi h).1 w.ls w.p).cut n w.os (plRun lo hi h).2

/-- The chunk as it is opened again (its trees are those that are left): the window ends at the clock reading if that is earlier, the
identifiers start again, and it is closed (src/db.rs:133-168). -/
def plReopen (lo hi : U64) : Chunk Unit := (Chunk.close (Chunk.new () lo hi)).2

end Verif
