import Verif.Model.DbConc
import Verif.Spec.Db
/-! What is asked of the calls made by concurrent threads. -/
namespace Verif

/-- The points of a call, in order. -/
def opPoints : DbOp → Inserts
  | .write ls ps => ps.map fun p => (ls, p)
  | _ => []
/-- The points of a thread's calls, in order. -/
def progPoints (ops : List DbOp) : Inserts := ops.flatMap opPoints

/-- Well-formed programs: label sets can be encoded (C14), only thread 0 swaps. -/
structure FineProgs (progs : Nat → List DbOp) : Prop where
  wf : ∀ u ls ps, DbOp.write ls ps ∈ progs u → WFSet ls
  swap : ∀ u lo hi, DbOp.swap lo hi ∈ progs u → u = 0

/-- Each series (up to the order of labels) is written by one thread, in order of time. -/
def SingleWriter (progs : Nat → List DbOp) : Prop :=
  ∀ ls, ∃ u, (∀ v ls' ps, DbOp.write ls' ps ∈ progs v → ls'.Perm ls → v = u) ∧ SIncr (pointsFor (progPoints (progs u)) ls)

/-- The label sets the programs write, as they are reported. -/
def Written (progs : Nat → List DbOp) (k : Labels) : Prop := ∃ u ls ps, DbOp.write ls ps ∈ progs u ∧ k = sortLabels ls

end Verif
