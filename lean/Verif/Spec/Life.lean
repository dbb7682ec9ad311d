import Verif.Spec.Db
import Verif.Model.Life
/-! Independent specification of the life of a database: the list of chunks ever created with what was written to them. -/
namespace Verif

/-- A chunk in the course of time: the window it was created with, the end of the window the running process uses for it, and the
accepted writes. -/
structure Gen where
  lo : U64
  hi : U64
  shown : U64
  h : Inserts

/-- A new chunk. -/
def Gen.new (lo size : U64) : Gen := ⟨lo, lo + size, lo + size, []⟩

/-- The chunks of a database in order of creation: the older ones and the current one. -/
structure Gens where
  old : List Gen
  cur : Gen

/-- All chunks. -/
def Gens.all (g : Gens) : List Gen := g.old ++ [g.cur]

/-- A chunk after a restart at which the clock reads `now`: its window ends at `now` unless it ended earlier. -/
def Gen.reopened (g : Gen) (now : U64) : Gen := { g with shown := if g.hi.toNat > now.toNat then now else g.hi }

/-- The directory name of a chunk. -/
def Gen.name (g : Gen) : Str := encodeChunkDir g.lo g.hi

/-- The effect of an event. -/
def Gens.step (size : U64) (g : Gens) : LifeEvent → Gens
  | .write ls ps => { g with cur := { g.cur with h := g.cur.h ++ (ps.filter (inside g.cur.lo g.cur.hi)).map fun p => (ls, p) } }
  | .tick r => ⟨g.all, Gen.new (r + 1) size⟩
  | .restart _ clock now => ⟨g.all.map fun c => c.reopened (clock c.name), Gen.new now size⟩

/-- The effect of a history. -/
def Gens.run (size : U64) (g : Gens) (es : List LifeEvent) : Gens := es.foldl (Gens.step size) g

/-- A fresh database. -/
def Gens.fresh (size now : U64) : Gens := ⟨[], Gen.new now size⟩

/-- What a chunk contributes to a query. -/
def Gen.answer (g : Gen) (q : Labels) (a b : U64) : List Series := Desc.answer sledAccepts ⟨g.lo, g.shown, g.h⟩ q a b

/-- The clock behaves: every chunk starts later than the one before, and the end of its window does not overflow. Directories are
listed in some order. Label sets are well-formed. -/
def GoodEvent (size : U64) (g : Gens) : LifeEvent → Prop
  | .write ls _ => WFSet ls
  | .tick r => g.cur.lo.toNat ≤ r.toNat ∧ r.toNat + 1 + size.toNat < 2 ^ 64
  | .restart order _ now => (∀ l, (order l).Perm l) ∧ g.cur.lo.toNat < now.toNat ∧ now.toNat + size.toNat < 2 ^ 64

/-- All events of a history are good. -/
def GoodLife (size : U64) (g : Gens) : List LifeEvent → Prop
  | [] => True
  | e :: es => GoodEvent size g e ∧ GoodLife size (g.step size e) es

/-- At every restart of the history no point stored so far is ahead of the clock. -/
def NoFuture (size : U64) (g : Gens) : List LifeEvent → Prop
  | [] => True
  | e :: es =>
    (match e with
      | .restart _ clock _ => ∀ c ∈ g.all, ∀ w ∈ c.h, w.2.ts.toNat ≤ (clock c.name).toNat
      | _ => True) ∧ NoFuture size (g.step size e) es

/-- The clock does not go backwards: a tick comes when the window of the current chunk has passed (the timer sleeps that long), and the
readings taken for the directories at a restart are not later than the one for the new chunk. -/
def SteadyClock (size : U64) (g : Gens) : List LifeEvent → Prop
  | [] => True
  | e :: es =>
    (match e with
      | .tick r => g.cur.hi.toNat ≤ r.toNat + 1
      | .restart _ clock now => ∀ c ∈ g.all, (clock c.name).toNat ≤ now.toNat
      | _ => True) ∧ SteadyClock size (g.step size e) es

/-- Number of points written in a history. -/
def written : List LifeEvent → Nat
  | [] => 0
  | .write _ ps :: es => ps.length + written es
  | _ :: es => written es

end Verif
