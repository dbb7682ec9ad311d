import Verif.Spec.DbConc
import Verif.Model.DbFine
import Verif.Model.Kit
/-! What a client of the running server sees: requests are handled one at a time (src/server.rs:56-60: `install` waits for the request it is
given), while the timer thread swaps chunks (src/db.rs:86-103). -/
namespace Verif

/-- The database as a client knows it: the older chunks, oldest first, and the current one; each with its window and the points it holds. -/
structure SeqDb where
  old : List Desc
  cur : Desc

/-- All chunks, oldest first. -/
def SeqDb.all (G : SeqDb) : List Desc := G.old ++ [G.cur]

/-- A call as a whole: a batch puts its points strictly inside the window into the current chunk, a swap begins a new one. -/
def SeqDb.after (G : SeqDb) : DbOp → SeqDb
  | .write ls ps => { G with cur := { G.cur with h := G.cur.h ++ (ps.filter (inside G.cur.lo G.cur.hi)).map fun p => (ls, p) } }
  | .query _ _ _ => G
  | .swap lo hi => ⟨G.old ++ [G.cur], ⟨lo, hi, []⟩⟩

/-- Calls one after the other. -/
def SeqDb.run (G : SeqDb) (ops : List DbOp) : SeqDb := ops.foldl SeqDb.after G

/-- A new database. -/
def SeqDb.fresh (lo hi : U64) : SeqDb := ⟨[], ⟨lo, hi, []⟩⟩

/-- A call of the timer thread. -/
def DbOp.isSwap : DbOp → Bool
  | .swap _ _ => true
  | _ => false

/-- The result of a call that finds the database in the state `G`, when `begun` swaps have begun before the call returns. A query is answered
with the merge of what the chunks hold; only if a swap that is not yet in `G` (one per older chunk is) has begun may the points of the current
chunk come twice. -/
def Fits (G : SeqDb) (begun : Nat) : Out → Prop
  | .wrote _ ps r lo hi => lo = G.cur.lo ∧ hi = G.cur.hi ∧ (r = .ok () ∨ r = .err .internal) ∧
    (r = .err .internal ↔ ∃ p ∈ ps, p.ts ≠ 0#64 ∧ lo.toNat ≤ p.ts.toNat ∧ p.ts.toNat ≤ hi.toNat ∧ (p.ts = lo ∨ p.ts = hi))
  | .answered q a b r => (∀ l ∈ q, WFLabel l) → a.toNat ≤ b.toNat → ∃ v, r = .ok v ∧
    (IsMerge (G.all.map fun d => d.answer sledAccepts q a b) v ∨
      G.old.length < begun ∧ IsMerge ((G.all ++ [G.cur]).map fun d => d.answer sledAccepts q a b) v)
  | .swapped lo hi => True

/-- What older chunks of earlier runs contribute to a query, oldest first. -/
abbrev Past := List (Labels → U64 → U64 → List Series)

/-- As `Fits`, for a database opened on older chunks. `G` are the chunks made since. -/
def FitsOn (past : Past) (G : SeqDb) (begun : Nat) : Out → Prop
  | .answered q a b r => (∀ l ∈ q, WFLabel l) → a.toNat ≤ b.toNat → ∃ v, r = .ok v ∧
    (IsMerge ((past.map fun f => f q a b) ++ G.all.map fun d => d.answer sledAccepts q a b) v ∨
      G.old.length < begun ∧ IsMerge ((past.map fun f => f q a b) ++ (G.all ++ [G.cur]).map fun d => d.answer sledAccepts q a b) v)
  | o => Fits G begun o

/-- The older chunk `s` contributes `f` to every query (with encodable labels and a range that is not inverted), and only label sets in `K`. -/
structure Frozen (B : Kit) (K : Labels → Prop) (s : SChunk) (f : Labels → U64 → U64 → List Series) : Prop where
  quiet : s.poisoned = false
  safe : ∀ q : Labels, (∀ l ∈ q, WFLabel l) → ∀ a b : U64, a.toNat ≤ b.toNat → s.query (kitComp B) q a b ≠ .panic
  gives : ∀ q : Labels, (∀ l ∈ q, WFLabel l) → ∀ a b : U64, a.toNat ≤ b.toNat → okSeries (s.query (kitComp B) q a b) = f q a b
  out : ∀ q : Labels, (∀ l ∈ q, WFLabel l) → ∀ a b : U64, a.toNat ≤ b.toNat → s.isWithRange a b = false → f q a b = []
  once : ∀ q : Labels, (∀ l ∈ q, WFLabel l) → ∀ a b : U64, a.toNat ≤ b.toNat → ((f q a b).map (·.labels)).Nodup
  known : ∀ q : Labels, (∀ l ∈ q, WFLabel l) → ∀ a b : U64, a.toNat ≤ b.toNat → ∀ x ∈ f q a b, K x.labels

/-- The calls of the threads of the running server: thread 0 makes the swaps of the timer (src/db.rs:86-103), with the windows they get; thread 1
makes the calls of the requests, one after the other (src/server.rs:56-60); there are no others. -/
def deployed (client : List DbOp) (ticks : List (U64 × U64)) : Nat → List DbOp
  | 0 => ticks.map fun w => .swap w.1 w.2
  | 1 => client
  | _ => []

/-- The swaps that have begun. -/
def FConf.begun (c : FConf) : Nat := (c.threads 0).done.length + (c.threads 0).now.toList.length

/-- What is asked of the requests: label sets that can be encoded (C14), the points of each series in order of time, and no call that only the timer makes. -/
structure FineClient (client : List DbOp) : Prop where
  wf : ∀ ls ps, DbOp.write ls ps ∈ client → WFSet ls
  incr : ∀ ls, SIncr (pointsFor (progPoints client) ls)
  noSwap : ∀ op ∈ client, op.isSwap = false

end Verif
