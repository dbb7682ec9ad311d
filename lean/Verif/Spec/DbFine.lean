import Verif.Model.DbFine
import Verif.Spec.DbConc
/-! What disturbs a query among concurrent calls. -/
namespace Verif

/-- Of the inserts `begun` into a chunk with window `(lo, hi)`, one that is not among the first ones, `before`, makes a new series that has
one of the labels `q`. -/
def NewSeries (lo hi : U64) (before begun : Inserts) (q : Labels) : Prop :=
  ∃ g w, before <+: g ∧ g ++ [w] <+: begun ∧ inside lo hi w.2 = true ∧ (∃ l ∈ q, l ∈ w.1) ∧ ∀ v ∈ insideOnly lo hi g, ¬ v.1.Perm w.1

end Verif
