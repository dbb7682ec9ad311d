import Verif.Spec.Chunk
/-! Independent specification of database queries and writes. -/
namespace Verif

/-- The results the chunks give, oldest chunk first. -/
abbrev ChunkResults := List (List Series)

/-- All series with exactly these labels, in chunk order. -/
def seriesWith (rs : ChunkResults) (ls : Labels) : List Series := rs.flatMap fun r => r.filter fun s => decide (s.labels = ls)

/-- The points reported for a label set: the concatenation in chunk order. -/
def mergedPoints (rs : ChunkResults) (ls : Labels) : List TimePoint := (seriesWith rs ls).flatMap (·.points)

/-- `r` is the merge of the chunk results: one entry for each label set some chunk reports, with the concatenation of its
points in chunk order; nothing else. The order of entries is not specified. -/
structure IsMerge (rs : ChunkResults) (r : List (Labels × List TimePoint)) : Prop where
  once : (r.map (·.1)).Nodup
  entries : ∀ ls ps, (ls, ps) ∈ r ↔ seriesWith rs ls ≠ [] ∧ ps = mergedPoints rs ls

/-- No chunk reports a label set twice. -/
def DistinctPerChunk (rs : ChunkResults) : Prop := ∀ r ∈ rs, (r.map (·.labels)).Nodup

/-- `a` is a proper prefix of `b` (as lists of labels). -/
def ProperPrefix (a b : Labels) : Prop := a <+: b ∧ a ≠ b

/-- The value of a chunk query if it succeeds. -/
def okSeries (r : Res (List Series)) : List Series :=
  match r with
  | .ok ss => ss
  | _ => []

/-- The points of a batch that are not dropped: inside the closed window and not at time 0. -/
def keptPoints (lo hi : U64) (ps : List TimePoint) : List TimePoint :=
  ps.filter fun p => decide (lo.toNat ≤ p.ts.toNat ∧ p.ts.toNat ≤ hi.toNat ∧ p.ts.toNat ≠ 0)

/-- A chunk as the client sees it: its window and the inserts it accepted. -/
structure Desc where
  lo : U64
  hi : U64
  h : Inserts

/-- What a chunk contributes to a query over `[a, b]`: nothing if its window does not overlap the range or its query fails
(C30), else its matching series restricted to the range. -/
def Desc.answer (acc : List TimePoint → TimePoint → Bool) (d : Desc) (q : Labels) (a b : U64) : List Series :=
  if overlaps d.lo d.hi a b then okSeries (specQuery a b (matched acc d.h q)) else []

end Verif
