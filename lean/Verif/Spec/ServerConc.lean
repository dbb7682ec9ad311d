import Verif.Spec.Deployed
import Verif.Spec.ServerLife
import Verif.Model.ServerConc
/-! What the clients of a running server see while the timer thread swaps chunks. -/
namespace Verif

/-- What a request asks of the database, in order. -/
def Call.ops : Call → List DbOp
  | .write m => m.map fun s => .write s.labels (s.samples.map Sample.point)
  | .read qs => qs.map fun q => .query (q.matchers.map fun x => ⟨x.name, x.value⟩) (asU64 q.start_) (asU64 q.end_)
  | _ => []

/-- A sample exactly on the start or the end of the window of the current chunk (and not at time 0). -/
def SeqDb.refuses (G : SeqDb) (s : PSeries) : Prop :=
  ∃ x ∈ s.samples, (x.point.ts = G.cur.lo ∨ x.point.ts = G.cur.hi) ∧ x.point.ts ≠ 0#64 ∧ G.cur.lo.toNat ≤ G.cur.hi.toNat

/-- The result of a query on the database `G`, in wire form; if a swap that is not yet in `G` has begun the points of the current chunk may come
twice (C43). -/
def SeqDb.Answers (G : SeqDb) (begun : Nat) (q : PQuery) (r : List PSeries) : Prop :=
  ∃ es, (IsMerge (G.all.map fun d => d.answer sledAccepts (q.matchers.map fun x => ⟨x.name, x.value⟩) (asU64 q.start_) (asU64 q.end_)) es ∨
      G.old.length < begun ∧
        IsMerge ((G.all ++ [G.cur]).map fun d => d.answer sledAccepts (q.matchers.map fun x => ⟨x.name, x.value⟩) (asU64 q.start_) (asU64 q.end_)) es) ∧
    r = es.map fun e => ⟨e.1, e.2.map asReported⟩

/-- A request is handled: it makes a call on each of the databases `Gs`, in order.
A write makes calls for its series until one is refused; the response is 500 if one is, else 200. A read makes a call for each query; if the queries are
well-formed with ranges that are not inverted, the response is 200 with the results. The others make no call. -/
def Handled (sn : Snappy) (rt : PbRt) (begun : Nat) (Gs : List SeqDb) : Call → Option Response → Prop
  | .write m, x =>
    Gs.length ≤ m.length ∧ (∀ (i : Nat) (G : SeqDb) (s : PSeries), i + 1 < Gs.length → Gs[i]? = some G → m[i]? = some s → ¬ G.refuses s) ∧
    (x = some ⟨200, []⟩ ∧ Gs.length = m.length ∧ (∀ (i : Nat) (G : SeqDb) (s : PSeries), Gs[i]? = some G → m[i]? = some s → ¬ G.refuses s) ∨
      x = some ⟨500, []⟩ ∧ ∃ (i : Nat) (G : SeqDb) (s : PSeries), Gs.length = i + 1 ∧ Gs[i]? = some G ∧ m[i]? = some s ∧ G.refuses s)
  | .read qs, x => (∀ q ∈ qs, (∀ y ∈ q.matchers, WFLabel ⟨y.name, y.value⟩) ∧ (asU64 q.start_).toNat ≤ (asU64 q.end_).toNat) →
    ∃ body out, x = some ⟨200, body⟩ ∧ sn.decompress body = some out ∧ ∃ rs : List (List PSeries), Gs.length = qs.length ∧ rs.length = qs.length ∧
      (∀ (i : Nat) (G : SeqDb) (q : PQuery) (r : List PSeries), Gs[i]? = some G → qs[i]? = some q → rs[i]? = some r → G.Answers begun q r) ∧ (out.length < 2 ^ 32 → ∀ m, IsResponse rt.utf8 m out ↔ m = rs)
  | .badRead, x => Gs = [] ∧ x = some ⟨500, []⟩
  | .other, x => Gs = [] ∧ x = some ⟨404, []⟩
  | .garbage, x => Gs = [] ∧ x = none

/-- As `SeqDb.Answers`, for a database opened on older chunks that contribute `past`. -/
def SeqDb.AnswersOn (past : Past) (G : SeqDb) (begun : Nat) (q : PQuery) (r : List PSeries) : Prop :=
  ∃ es, (IsMerge ((past.map fun f => f (q.matchers.map fun x => ⟨x.name, x.value⟩) (asU64 q.start_) (asU64 q.end_)) ++
        G.all.map fun d => d.answer sledAccepts (q.matchers.map fun x => ⟨x.name, x.value⟩) (asU64 q.start_) (asU64 q.end_)) es ∨
      G.old.length < begun ∧
        IsMerge ((past.map fun f => f (q.matchers.map fun x => ⟨x.name, x.value⟩) (asU64 q.start_) (asU64 q.end_)) ++
          (G.all ++ [G.cur]).map fun d => d.answer sledAccepts (q.matchers.map fun x => ⟨x.name, x.value⟩) (asU64 q.start_) (asU64 q.end_)) es) ∧
    r = es.map fun e => ⟨e.1, e.2.map asReported⟩

/-- As `Handled`, for a database opened on older chunks that contribute `past`. -/
def HandledOn (sn : Snappy) (rt : PbRt) (past : Past) (begun : Nat) (Gs : List SeqDb) : Call → Option Response → Prop
  | .read qs, x => (∀ q ∈ qs, (∀ y ∈ q.matchers, WFLabel ⟨y.name, y.value⟩) ∧ (asU64 q.start_).toNat ≤ (asU64 q.end_).toNat) →
    ∃ body out, x = some ⟨200, body⟩ ∧ sn.decompress body = some out ∧ ∃ rs : List (List PSeries), Gs.length = qs.length ∧ rs.length = qs.length ∧
      (∀ (i : Nat) (G : SeqDb) (q : PQuery) (r : List PSeries), Gs[i]? = some G → qs[i]? = some q → rs[i]? = some r → G.AnswersOn past begun q r) ∧
      (out.length < 2 ^ 32 → ∀ m, IsResponse rt.utf8 m out ↔ m = rs)
  | k, x => Handled sn rt begun Gs k x

/-- What the request that is being handled asks of the database; nothing if none is being handled. The requests say `calls`. -/
def SrvConf.handling (c : SrvConf) (calls : List Call) : List DbOp :=
  if c.now.isSome then ((calls[c.sent.length]?).map Call.ops).getD [] else []

/-- What is asked of the requests together: label sets that can be encoded, the points of each series in order of time; reads have a query; a decoder
that rejects what is not valid, if there are requests that are not (see C71). -/
structure FineCalls (rt : PbRt) (calls : List Call) : Prop where
  client : FineClient (calls.flatMap Call.ops)
  queries : Call.read [] ∉ calls
  strict : Call.badRead ∈ calls → rt.Strict

end Verif
