import Verif.Spec.Clock
/-! Independent specification of the server over time for reads of any range. Start and end of a range are the signed numbers of the
protocol, taken as unsigned ones (`asU64`, as the program does). -/
namespace Verif

/-- Reading the series for this range ends the process: the range is inverted, both ends lie within the span of the series, and a sample lies
strictly between them. -/
def Series.trips (a b : U64) (s : Series) : Bool :=
  match s.points.head?, s.points.getLast? with
  | some f, some l => decide (f.ts.toNat ≤ b.toNat) && decide (a.toNat ≤ l.ts.toNat) && s.points.any fun p => decide (b.toNat < p.ts.toNat) && decide (p.ts.toNat < a.toNat)
  | _, _ => false

/-- Reading these series one after another ends the process: the first one that is outside the range (which stops the reading) or ends the
process does the latter. -/
def tripsOn (a b : U64) (ss : List Series) : Bool :=
  match ss.find? fun s => outside a b s || s.trips a b with
  | some s => s.trips a b
  | none => false

/-- Querying the chunk ends the process. -/
def Gen.trips (g : Gen) (q : Labels) (a b : U64) : Bool := overlaps g.lo g.shown a b && tripsOn a b (matched sledAccepts g.h q)

/-- The query ends the process. -/
def fatal (g : Gens) (q : PQuery) : Bool :=
  g.all.any fun c => c.trips (q.matchers.map fun x => ⟨x.name, x.value⟩) (asU64 q.start_) (asU64 q.end_)

/-- What a happening does: as in C94 (`Site.goes`), but a read with a fatal query ends the process. -/
def Site.faces (size : U64) (s : Site) : Happening → Site
  | .call (.read qs) => if s.up && qs.any (fatal s.g) then { s with up := false } else s
  | e => s.goes size e

/-- The machine after a history. -/
def Site.faced (size : U64) (s : Site) (hs : List Happening) : Site := hs.foldl (Site.faces size) s

/-- The response to a happening: as in C75, but none to a read with a fatal query. -/
def Replied (sn : Snappy) (utf8 : Str → Bool) (s : Site) : Happening → Option Response → Prop
  | .call (.read qs), x => if s.up && qs.any (fatal s.g) then x = none else Answered sn utf8 s (.call (.read qs)) x
  | e, x => Answered sn utf8 s e x

/-- Assumptions on a happening: those of C94 without the one on ranges. -/
def Ranged (H : Hash) (rt : PbRt) (size : U64) (s : Site) : Happening → Prop
  | .call (.read qs) => s.up = true → qs ≠ [] ∧ (∀ c ∈ s.g.all, ∀ ls, SIncr (pointsFor c.h ls)) ∧
      ∀ q ∈ qs, (∀ x ∈ q.matchers, WFLabel ⟨x.name, x.value⟩) ∧ H.Good fun ls => ∃ c ∈ s.g.all, ∃ w ∈ c.h, sortLabels w.1 = ls
  | e => Timely H rt size s e

/-- The same for a history. -/
def RangedAll (H : Hash) (rt : PbRt) (size : U64) : Site → List Happening → Prop
  | _, [] => True
  | s, e :: es => Ranged H rt size s e ∧ RangedAll H rt size (s.faces size e) es

end Verif
