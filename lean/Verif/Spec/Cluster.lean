import Verif.Spec.ServerConc
import Verif.Model.Cluster
/-! What is asked of servers that share a cluster. -/
namespace Verif

/-- The turns of server number `n`. -/
def FleetOp.turnOf (n : Nat) : FleetOp → Option Nat
  | .turn m t => if m = n then some t else none
  | .other _ _ => none

/-- The schedule of server number `n`. -/
def turnsOf (n : Nat) (ops : List FleetOp) : List Nat := ops.filterMap (FleetOp.turnOf n)

/-- There are `N` servers; chunk number `i` of server `n`: the first, and one for each swap. -/
def Owns (ms : Nat → Member) (N n i : Nat) : Prop := n < N ∧ i ≤ (ms n).ticks.length

/-- Identifiers as `init_component` makes them (C46): those of indexers have 32 bytes and are all different; nothing is stored under them at the beginning, and
no other client touches a key that starts with one of them. Those of storages are empty. -/
structure Apart (ms : Nat → Member) (N : Nat) (kv : KV) (ops : List FleetOp) : Prop where
  len : ∀ n i, Owns ms N n i → ((ms n).ids i).1.length = 32
  distinct : ∀ n i n' i', Owns ms N n i → Owns ms N n' i' → ((ms n).ids i).1 = ((ms n').ids i').1 → n = n' ∧ i = i'
  storage : ∀ n i, Owns ms N n i → ((ms n).ids i).2 = []
  clean : ∀ n i k, Owns ms N n i → kv (((ms n).ids i).1 ++ k) = none
  others : ∀ k v, FleetOp.other k v ∈ ops → ∀ n i, Owns ms N n i → ¬ ((ms n).ids i).1 <+: k
  turns : ∀ n t, FleetOp.turn n t ∈ ops → n < N

end Verif
