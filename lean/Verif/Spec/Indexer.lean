import Verif.Model.Label
/-! Independent specification of an index: the list of created series, oldest first. -/
namespace Verif

/-- The series created so far, in creation order: label set and id. -/
abbrev Created := List (Labels × U64)

/-- A label whose name contains neither '=' nor ',' and whose value contains no ','. (Prometheus label names satisfy the
first part; the second part is a real restriction.) -/
def WFLabel (l : Label) : Prop := (∀ b ∈ l.key, b ≠ equals ∧ b ≠ comma) ∧ ∀ b ∈ l.value, b ≠ comma

/-- Names pairwise different. -/
def DistinctNames (ls : Labels) : Prop := (ls.map (·.key)).Nodup

/-- A well-formed label set: not empty, distinct names, well-formed labels, and not a single label whose name starts with
the letter R (82). -/
structure WFSet (ls : Labels) : Prop where
  nonempty : ls ≠ []
  distinct : DistinctNames ls
  wf : ∀ l ∈ ls, WFLabel l
  noR : ∀ k v, ls ≠ [⟨82#8 :: k, v⟩]

/-- The id of the series with exactly these labels (in any order). -/
def specByLabels (c : Created) (ls : Labels) : Option U64 := (c.find? fun s => decide (s.1.Perm ls)).map (·.2)

/-- The ids of the series that have all of the labels, in creation order. -/
def specHavingAll (c : Created) (ls : Labels) : List U64 := (c.filter fun s => ls.all fun l => decide (l ∈ s.1)).map (·.2)

/-- The requested labels that at least one series has. -/
def knownLabels (c : Created) (ls : Labels) : Labels := ls.filter fun l => c.any fun s => decide (l ∈ s.1)

/-- What containment lookup returns: the series having every *known* requested label; nothing if none is known. -/
def specContains (c : Created) (ls : Labels) : List U64 :=
  if knownLabels c ls = [] then [] else specHavingAll c (knownLabels c ls)

/-- What metadata lookup returns: the same series with their labels sorted by name. -/
def specMetadata (c : Created) (ls : Labels) : List (U64 × Labels) :=
  if knownLabels c ls = [] then []
  else (c.filter fun s => (knownLabels c ls).all fun l => decide (l ∈ s.1)).map fun s => (s.2, sortLabels s.1)

/-- A history of index creations in which every label set is well-formed and new, and ids increase. -/
structure FreshHistory (c : Created) : Prop where
  wf : ∀ s ∈ c, WFSet s.1
  fresh : c.Pairwise fun s t => ¬ s.1.Perm t.1
  ids : c.Pairwise fun s t => s.2.toNat < t.2.toNat

/-- The creations of a history that a duplicate-rejecting index accepts. -/
def accepted (hist : Created) : Created :=
  hist.foldl (fun c s => if c.any (fun t => decide (t.1.Perm s.1)) then c else c ++ [s]) []

end Verif
