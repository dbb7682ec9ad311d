import Verif.Spec.Chunk
/-! What a query may return while other threads insert. -/
namespace Verif

/-- The answer `ss` to a query for the labels `q` and the range `[a, b]`, on a chunk with window `(lo, hi)`, which began when the inserts
`before` were complete and ended when `after` were complete. -/
structure Snapshots (lo hi : U64) (before after : Inserts) (q : Labels) (a b : U64) (ss : List Series) : Prop where
  /-- Each series is as it was at one moment between the beginning and the end: its points in the range are those of the inserts complete
  at that moment. -/
  moment : ∀ x ∈ ss, ∃ g, before <+: g ∧ g <+: after ∧ (∃ w ∈ insideOnly lo hi g, w.1.Perm x.labels) ∧
    x.points = inRange (pointsFor (insideOnly lo hi g) x.labels) a b ∧ x.points ≠ []
  /-- It is named by the labels of such an insert, in order of their names. -/
  named : ∀ x ∈ ss, ∃ w ∈ insideOnly lo hi after, x.labels = sortLabels w.1
  /-- It has one of the labels asked for, -/
  matching : ∀ x ∈ ss, ∃ l ∈ q, l ∈ x.labels
  /-- and all that some series had at the beginning. -/
  matchingKnown : ∀ x ∈ ss, ∀ l ∈ q, (∃ w ∈ insideOnly lo hi before, l ∈ w.1) → l ∈ x.labels
  /-- Every series that has all the labels, and had points in the range at the beginning, is there, -/
  complete : ∀ ls, (∀ l ∈ q, l ∈ ls) → inRange (pointsFor (insideOnly lo hi before) ls) a b ≠ [] → q ≠ [] → ∃ x ∈ ss, x.labels.Perm ls
  /-- and none twice. -/
  once : ss.Pairwise fun x y => ¬ x.labels.Perm y.labels

/-- Why such a query may fail: the range does not touch the window; a series with one of the labels was, at some moment, entirely before or
after the range; or an insert that makes a new series was under way. -/
def MayFail (lo hi : U64) (before after begun : Inserts) (q : Labels) (a b : U64) (e : MErr) : Prop :=
  (overlaps lo hi a b = false ∧ e = .outOfRange lo hi) ∨
  (∃ g, before <+: g ∧ g <+: after ∧ ∃ w ∈ insideOnly lo hi g, (∃ l ∈ q, l ∈ w.1) ∧ ∃ f l,
    (pointsFor (insideOnly lo hi g) w.1).head? = some f ∧ (pointsFor (insideOnly lo hi g) w.1).getLast? = some l ∧
    (b.toNat < f.ts.toNat ∨ l.ts.toNat < a.toNat) ∧ e = .outOfRange f.ts l.ts) ∨
  (e = .notFound ∧ ∃ g w, before <+: g ∧ g ++ [w] <+: begun ∧ inside lo hi w.2 = true ∧ (∃ l ∈ q, l ∈ w.1) ∧
    ∀ v ∈ insideOnly lo hi g, ¬ v.1.Perm w.1)

end Verif
