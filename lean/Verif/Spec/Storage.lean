import Verif.Model.Result
/-! Independent specification of a series store: the list of writes, oldest first. -/
namespace Verif

/-- A history of writes: series id and point, oldest first. -/
abbrev Writes := List (U64 × TimePoint)

/-- The points written to one series, in order. -/
def writesTo (h : Writes) (i : U64) : List TimePoint := (h.filter fun w => decide (w.1 = i)).map (·.2)

/-- Strictly increasing timestamps. -/
def SIncr (s : List TimePoint) : Prop := s.Pairwise fun a b => a.ts.toNat < b.ts.toNat

/-- The points with `a <= timestamp <= b`. -/
def inRange (s : List TimePoint) (a b : U64) : List TimePoint :=
  s.filter fun p => decide (a.toNat ≤ p.ts.toNat) && decide (p.ts.toNat ≤ b.toNat)

/-- What a range read of a series with points `s` returns: not found for a series without points, out of range (naming the
first and last timestamp) if all points are outside on one side, else the points in the range. -/
def specRead (s : List TimePoint) (a b : U64) : Res (List TimePoint) :=
  match s.head?, s.getLast? with
  | some f, some l =>
    if f.ts.toNat > b.toNat ∨ l.ts.toNat < a.toNat then .err (.outOfRange f.ts l.ts) else .ok (inRange s a b)
  | _, _ => .err .notFound

/-- The points kept when each point is accepted only if it is later than the last accepted one. -/
def acceptIncreasing (ps : List TimePoint) : List TimePoint :=
  ps.foldl (fun s p => match s.getLast? with
    | some l => if l.ts.toNat < p.ts.toNat then s ++ [p] else s
    | none => s ++ [p]) []

end Verif
