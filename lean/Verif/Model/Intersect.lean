import Verif.Model.Basic
/-! Id intersection (src/common/mod.rs:26-44, src/common/utils.rs:56-128). -/
namespace Verif

/-- The `while` loop of `order_intersect` (src/common/mod.rs:31-41) on the unread parts of both lists; every iteration
consumes at least one element, so the sum of the lengths is enough fuel. -/
def orderIntersectLoop : Nat → List U64 → List U64 → List U64
  | fuel + 1, a :: as, b :: bs =>
    if a = b then a :: orderIntersectLoop fuel as bs
    else if b.toNat < a.toNat then orderIntersectLoop fuel (a :: as) bs
    else orderIntersectLoop fuel as (b :: bs)
  | _, _, _ => []

/-- `Vec<TimeSeriesId>::order_intersect` (src/common/mod.rs:26-44). -/
def orderIntersect (a b : List U64) : List U64 := orderIntersectLoop (a.length + b.length) a b

/-- The gather loop (src/common/utils.rs:108-124). `polls` says for each iteration whether the message of worker 1 and
of worker 2 has arrived when its channel is polled (`try_recv`); a channel is not polled again after its message was
taken. `v1`, `v2` are the worker results. `none`: still waiting when the list of polls ends. -/
def gather (v1 v2 : List U64) : List (Bool × Bool) → Bool → Bool → List (List U64) → Option (List (List U64))
  | [], _, _, _ => none
  | (p1, p2) :: rest, f1, f2, acc =>
    let (f1, acc) := if f1 = false ∧ p1 = true then (true, acc ++ [v1]) else (f1, acc)
    let (f2, acc) := if f2 = false ∧ p2 = true then (true, acc ++ [v2]) else (f2, acc)
    if f1 = true ∧ f2 = true then some acc else gather v1 v2 rest f1 f2 acc

/-- A schedule: what every gather loop of the recursion sees. A loop is identified by its position in the call tree
(0: first half, 1: second half, 2: the recursive call on the two results, 3: the call of the odd case). -/
abbrev Schedule := List Nat → List (Bool × Bool)

/-- `intersect_time_series_id_vec` (src/common/utils.rs:56-128) under a schedule. The workers never fail (their channel
always delivers), so the `Err` paths of `gather_res` are unreachable. The recursion depth is below the number of lists.
`none`: some gather loop is still waiting. -/
def intersectFuel (σ : Schedule) : Nat → List Nat → List (List U64) → Option (List U64)
  | 0, _, _ => none
  | fuel + 1, path, ts =>
    if ts.length = 0 then some []
    else if ts.length = 1 then ts.head?
    else if ts.length = 2 then some (orderIntersect (ts[0]?.getD []) (ts[1]?.getD []))
    else if ts.length % 2 ≠ 0 then do
      let last ← ts.getLast?
      let r ← intersectFuel σ fuel (path ++ [3]) ts.dropLast
      pure (orderIntersect r last)
    else do
      let r1 ← intersectFuel σ fuel (path ++ [0]) (ts.take (ts.length / 2))
      let r2 ← intersectFuel σ fuel (path ++ [1]) (ts.drop (ts.length / 2))
      let next ← gather r1 r2 (σ path) false false []
      intersectFuel σ fuel (path ++ [2]) next

/-- `intersect_time_series_id_vec` with enough fuel. -/
def intersectIds (σ : Schedule) (ts : List (List U64)) : Option (List U64) := intersectFuel σ (ts.length + 1) [] ts

end Verif
