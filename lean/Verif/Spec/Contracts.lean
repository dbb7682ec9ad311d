import Verif.Model.Basic
/-! What the Rust traits `Eq`, `Ord`, `Hash` promise. `none` is a panic. -/
namespace Verif

/-- `Eq`: comparing never panics and is an equivalence relation, on the values `K`. -/
structure EqLaw {α : Type} (eq : α → α → Option Bool) (K : α → Prop) : Prop where
  total : ∀ a b, K a → K b → eq a b ≠ none
  refl : ∀ a, K a → eq a a = some true
  symm : ∀ a b, K a → K b → eq a b = some true → eq b a = some true
  trans : ∀ a b c, K a → K b → K c → eq a b = some true → eq b c = some true → eq a c = some true

/-- `Ord`: a total order (up to "equal"), on the values `K`. -/
structure OrdLaw {α : Type} (cmp : α → α → Ordering) (K : α → Prop) : Prop where
  swap : ∀ a b, K a → K b → cmp b a = (cmp a b).swap
  trans_lt : ∀ a b c, K a → K b → K c → cmp a b = .lt → cmp b c = .lt → cmp a c = .lt
  trans_eq : ∀ a b c, K a → K b → K c → cmp a b = .eq → cmp a c = cmp b c

/-- `Ord` next to `Eq`: "equal" means the same in both. -/
def OrdEqLaw {α : Type} (cmp : α → α → Ordering) (eq : α → α → Option Bool) (K : α → Prop) : Prop :=
  ∀ a b, K a → K b → (cmp a b = .eq ↔ eq a b = some true)

/-- `Hash` next to `Eq`: equal values feed the same bytes to the hasher. -/
def HashLaw {α β : Type} (hash : α → β) (eq : α → α → Option Bool) (K : α → Prop) : Prop :=
  ∀ a b, K a → K b → eq a b = some true → hash a = hash b

end Verif
