import Verif.Model.Label
import Verif.Model.Chunk
/-! The comparison operators and hashes that the public types declare (`Eq`, `Ord`, `Hash`). -/
namespace Verif

/-- `String::cmp`. -/
def strCmp (a b : Str) : Ordering := if strLe a b then if strLe b a then .eq else .lt else .gt

/-- `Ord for Label` (src/common/label.rs:46-50); `PartialOrd` (lines 52-56) agrees. -/
def labelCmp (a b : Label) : Ordering := strCmp a.key b.key

/-- `PartialEq for Label` (src/common/label.rs:60-64). -/
def labelEq (a b : Label) : Bool := decide (a.key = b.key) && decide (a.value = b.value)

/-- What `String::hash` feeds to the hasher: the bytes and 0xff. -/
def strHashBytes (s : Str) : Str := s ++ [0xFF#8]

/-- `#[derive(Hash)]` of `Label` (src/common/label.rs:6-10): the fields in order. -/
def labelHashBytes (l : Label) : Str := strHashBytes l.key ++ strHashBytes l.value

/-- `Hash for Labels` (src/common/label.rs:89-95): the labels in order, without their number. -/
def labelsHashBytes (ls : Labels) : Str := ls.flatMap labelHashBytes

/-- `Ord for TimePoint` (src/common/time_point.rs:29-33); `PartialOrd` (lines 35-39) agrees. Only the timestamp takes part. -/
def timePointCmp (t1 t2 : U64) : Ordering := compare t1.toNat t2.toNat

/-- `PartialEq for Chunk` (src/chunk/chunk.rs:178-186): the windows. -/
def chunkEq {σ τ : Type} (c : Chunk σ) (d : Chunk τ) : Bool := decide (c.start_ = d.start_) && decide (c.end_ = d.end_)

/-- `Ord for Chunk` (src/chunk/chunk.rs:196-215): the starts. -/
def chunkCmp {σ τ : Type} (c : Chunk σ) (d : Chunk τ) : Ordering := compare c.start_.toNat d.start_.toNat

end Verif
