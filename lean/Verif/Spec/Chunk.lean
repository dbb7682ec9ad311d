import Verif.Spec.Indexer
import Verif.Spec.Storage
import Verif.Model.Chunk
/-! Independent specification of a chunk: the list of inserts, oldest first. -/
namespace Verif

/-- A history of inserts: label set and point, oldest first. -/
abbrev Inserts := List (Labels × TimePoint)

/-- The timestamp lies strictly inside the window. -/
def inside (lo hi : U64) (p : TimePoint) : Bool := decide (lo.toNat < p.ts.toNat) && decide (p.ts.toNat < hi.toNat)

/-- Two windows of times overlap: neither begins after the other ends. -/
def overlaps (lo hi a b : U64) : Bool := !(decide (b.toNat < lo.toNat) || decide (hi.toNat < a.toNat))

/-- The inserts strictly inside the window. -/
def insideOnly (lo hi : U64) (h : Inserts) : Inserts := h.filter fun w => inside lo hi w.2

/-- The label sets inserted, in order of first insertion (up to the order of labels). -/
def labelSets (h : Inserts) : List Labels :=
  h.foldl (fun c w => if c.any (fun ls => decide (ls.Perm w.1)) then c else c ++ [w.1]) []

/-- The label sets with their ids 1, 2, ... -/
def numbered (h : Inserts) : Created := (labelSets h).mapIdx fun n ls => (ls, BitVec.ofNat 64 (n + 1))

/-- The points inserted for one label set (in any order of labels), in order of insertion. -/
def pointsFor (h : Inserts) (ls : Labels) : List TimePoint := (h.filter fun w => decide (w.1.Perm ls)).map (·.2)

/-- The points a storage keeps, if it accepts a point depending on what it already has. -/
def keepBy (acc : List TimePoint → TimePoint → Bool) (ps : List TimePoint) : List TimePoint :=
  ps.foldl (fun s p => if acc s p then s ++ [p] else s) []

/-- The sled storage accepts everything. -/
def sledAccepts : List TimePoint → TimePoint → Bool := fun _ _ => true
/-- The TiKV storage accepts points later than the last one. -/
def tikvAccepts : List TimePoint → TimePoint → Bool := fun s p =>
  match s.getLast? with
  | some l => decide (l.ts.toNat < p.ts.toNat)
  | none => true

/-- The series of a chunk that have all the labels (of those known at all), with sorted labels and all their points. -/
def matched (acc : List TimePoint → TimePoint → Bool) (h : Inserts) (q : Labels) : List Series :=
  if knownLabels (numbered h) q = [] then []
  else ((numbered h).filter fun s => (knownLabels (numbered h) q).all fun l => decide (l ∈ s.1)).map fun s =>
    ⟨s.2, sortLabels s.1, keepBy acc (pointsFor h s.1)⟩

/-- The series lies entirely before `a` or entirely after `b`. -/
def outside (a b : U64) (s : Series) : Bool :=
  match s.points.head?, s.points.getLast? with
  | some f, some l => decide (f.ts.toNat > b.toNat) || decide (l.ts.toNat < a.toNat)
  | _, _ => true

/-- The error naming the first and last timestamp of a series. -/
def spanError (s : Series) : MErr :=
  match s.points.head?, s.points.getLast? with
  | some f, some l => .outOfRange f.ts l.ts
  | _, _ => .notFound

/-- The series with points in `[a, b]`, each restricted to those points. -/
def restrict (a b : U64) (ss : List Series) : List Series :=
  (ss.map fun s => { s with points := inRange s.points a b }).filter fun s => decide (s.points ≠ [])

/-- What a chunk query does with the matching series: if one of them lies outside the range, the error of the first such
series; else the restricted series. -/
def specQuery (a b : U64) (ss : List Series) : Res (List Series) :=
  match ss.find? (outside a b) with
  | some s => .err (spanError s)
  | none => .ok (restrict a b ss)

/-- `x` is one of the series of the history, with its points between `a` and `b`. -/
def reportedBy (h : Inserts) (a b : U64) (x : Series) : Prop :=
  ∃ s ∈ numbered h, x = ⟨s.2, sortLabels s.1, inRange (pointsFor h s.1) a b⟩

end Verif
