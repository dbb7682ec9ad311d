import Verif.Spec.Life
import Verif.Model.SwapFault
/-! Independent specification for failing operations on the base directory: a tick or a start that fails is one that did not happen;
some failures damage the directory. -/
namespace Verif

/-- The creation of the chunk reports an error. -/
def DirFaults.stops (f : DirFaults) : Bool := f.mkdir || f.create || f.storage || f.indexer

/-- A directory is left behind whose `metadata.json` is missing or not complete. -/
def DirFaults.damages (f : DirFaults) : Bool := !f.mkdir && (f.create || f.contents)

/-- The chunks with what was written to them, of a database that is running or not. -/
inductive Status where
  | running (g : Gens)
  | stopped (gs : List Gen)

/-- The state of the specification: what is stored, the latest clock reading used for the start of a chunk, and whether the directory is
damaged. -/
structure Ledger where
  status : Status
  latest : U64
  damaged : Bool

/-- The effect of an event. -/
def Ledger.step (size : U64) (l : Ledger) : NodeEvent → Ledger
  | .write ls ps =>
    match l.status with
    | .running g => { l with status := .running (g.step size (.write ls ps)) }
    | .stopped _ => l
  | .tick r f =>
    match l.status with
    | .running g => ⟨.running (if f.stops then g else g.step size (.tick r)), r + 1, l.damaged || f.damages⟩
    | .stopped _ => l
  | .stop =>
    match l.status with
    | .running g => { l with status := .stopped g.all }
    | .stopped _ => l
  | .start _ clock now f =>
    match l.status with
    | .running _ => l
    | .stopped gs =>
      if l.damaged then l
      else ⟨if f.stops then .stopped gs else .running ⟨gs.map fun c => c.reopened (clock c.name), Gen.new now size⟩, now, f.damages⟩

/-- The effect of a history. -/
def Ledger.run (size : U64) (l : Ledger) (es : List NodeEvent) : Ledger := es.foldl (Ledger.step size) l

/-- A fresh database. -/
def Ledger.fresh (size now : U64) : Ledger := ⟨.running (Gens.fresh size now), now, false⟩

/-- All chunks. -/
def Status.all : Status → List Gen
  | .running g => g.all
  | .stopped gs => gs

/-- The clock goes forward, the ends of windows do not overflow, directories are listed in some order, label sets are well-formed. -/
def FairEvent (size : U64) (l : Ledger) : NodeEvent → Prop
  | .write ls _ => WFSet ls
  | .tick r _ => l.latest.toNat ≤ r.toNat ∧ r.toNat + 1 + size.toNat < 2 ^ 64
  | .stop => True
  | .start order _ now _ => (∀ s, (order s).Perm s) ∧ l.latest.toNat < now.toNat ∧ now.toNat + size.toNat < 2 ^ 64

/-- All events are fair. -/
def FairLife (size : U64) (l : Ledger) : List NodeEvent → Prop
  | [] => True
  | e :: es => FairEvent size l e ∧ FairLife size (l.step size e) es

/-- Number of points written. -/
def pointsIn : List NodeEvent → Nat
  | [] => 0
  | .write _ ps :: es => ps.length + pointsIn es
  | _ :: es => pointsIn es

/-- The failures of a history that leave no half-made directory. -/
def Harmless : List NodeEvent → Prop
  | [] => True
  | .tick _ f :: es => f.damages = false ∧ Harmless es
  | .start _ _ _ f :: es => f.damages = false ∧ Harmless es
  | _ :: es => Harmless es

end Verif
