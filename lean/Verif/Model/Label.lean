import Verif.Model.Num
import Verif.Model.Result
/-! Labels (src/common/label.rs) and their string codec (src/indexer/sled_indexer.rs:254-330). -/
namespace Verif

/-- `Label` (src/common/label.rs:6-10). -/
structure Label where
  key : Str
  value : Str
deriving DecidableEq, Repr

/-- `Labels` (src/common/label.rs:84-85). -/
abbrev Labels := List Label

/-- `String::cmp`: byte-wise lexicographic order, `a <= b`. -/
def strLe : Str → Str → Bool
  | [], _ => true
  | _ :: _, [] => false
  | a :: as, b :: bs => if a = b then strLe as bs else decide (a.toNat < b.toNat)

/-- `Labels::sort` (src/common/label.rs:141-143): stable sort, labels are ordered by key only (lines 46-50). -/
def sortLabels (ls : Labels) : Labels := stableSort (fun a b => strLe a.key b.key) ls

/-- `Labels::eq` (src/common/label.rs:99-108): loop over the indices of `self`; `other.0.get(i).unwrap()` panics (`none`)
when `other` is shorter. -/
def labelsEq : Labels → Labels → Option Bool
  | [], _ => some true
  | _ :: _, [] => none
  | a :: as, b :: bs => if a = b then labelsEq as bs else some false

/-! ### Codec -/

/-- ',' -/
def comma : Byte := 44#8
/-- '=' -/
def equals : Byte := 61#8

/-- `_encode_label` (src/indexer/sled_indexer.rs:257-259). -/
def encodePair (l : Label) : Str := l.key ++ equals :: l.value

/-- `encode_label` (src/indexer/sled_indexer.rs:261-268): prefix "LR". -/
def encodeLabel (l : Label) : Str := [76#8, 82#8] ++ encodePair l

/-- `encode_labels` (src/indexer/sled_indexer.rs:275-289): sort, join every pair followed by ',' and pop the last
character (a no-op on the empty string), optional prefix "L". -/
def encodeLabels (ls : Labels) (withPrefix : Bool) : Str :=
  let body := ((sortLabels ls).foldl (fun res l => res ++ (encodePair l ++ [comma])) []).dropLast
  if withPrefix then 76#8 :: body else body

/-- `str::split(",")`: the pieces between separators, at least one. -/
def splitComma : Str → List Str
  | [] => [[]]
  | b :: rest =>
    if b = comma then [] :: splitComma rest
    else match splitComma rest with
      | [] => [[b]]
      | p :: ps => (b :: p) :: ps

/-- `find("=")`, `split_at`, `remove(0)` (src/indexer/sled_indexer.rs:305-313): split at the first '='. -/
def splitEquals : Str → Option Label
  | [] => none
  | b :: rest =>
    if b = equals then some ⟨[], rest⟩
    else (splitEquals rest).map fun l => ⟨b :: l.key, l.value⟩

/-- `decode_labels(s, false)` (src/indexer/sled_indexer.rs:295-318). The `is_key` variant is `decodeLabelsKey`. -/
def decodeLabels (s : Str) : Res Labels :=
  Res.mapM (fun p => Res.ofErr .internal (splitEquals p)) (splitComma s)

/-- `decode_labels(s, true)` (src/indexer/sled_indexer.rs:295-318): drops the prefix first; `replace_range(..1, "")` panics on the empty
string (the prefix is ASCII; a longer first character is not considered). -/
def decodeLabelsKey (s : Str) : Res Labels :=
  match s with
  | [] => .panic
  | _ :: rest => decodeLabels rest

/-- `encode_time_series_id` (src/indexer/sled_indexer.rs:320-322): prefix "I". -/
def encodeId (id : U64) : Str := 73#8 :: formatNat 10 id.toNat

/-- `decode_time_series_id` (src/indexer/sled_indexer.rs:325-329) of a string whose first character is ASCII;
`replace_range(..1, "")` panics on the empty string. -/
def decodeId (s : Str) : Res U64 :=
  match s with
  | [] => .panic
  | _ :: rest => (Res.ofErr .parseErr (parseUnsigned 10 (2 ^ 64 - 1) rest)).bind fun n => .ok (BitVec.ofNat 64 n)

end Verif
