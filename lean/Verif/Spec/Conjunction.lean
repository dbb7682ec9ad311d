import Verif.Spec.Unordered
/-! Independent specification for queries with several labels. -/
namespace Verif

/-- The chunk has accepted a sample of a series with this label. -/
def Gen.Knows (c : Gen) (l : Label) : Prop := ∃ w ∈ c.h, l ∈ w.1

/-- The labels a query asks for. -/
def asked (q : PQuery) : Labels := q.matchers.map fun x => ⟨x.name, x.value⟩

end Verif
