import Verif.Model.Server
import Verif.Model.DbFine
/-! The HTTP server (src/server.rs) at work on the shared database, at the granularity of single store operations: the timer thread swaps chunks
while a request is handled. -/
namespace Verif

/-- What a request does: calls of the database, each chosen from the results of those before. -/
inductive Calls (α : Type) where
  | done (a : α)
  | call (op : DbOp) (k : Out → Calls α)

/-- `MonolithServer::query` (src/server.rs:133-169) and the response (src/server.rs:90-107): `acc` are the results so far. An error gives an empty result,
a panic of the database is not caught. -/
def readCalls (F : Formats) (acc : List (List PSeries)) : List PQuery → Calls (Option Response)
  | [] => .done (some ⟨200, F.respond acc⟩)
  | q :: qs => .call (.query (q.matchers.map ofMatcher) (asU64 q.start_) (asU64 q.end_)) fun
    | .answered _ _ _ (.ok r) => readCalls F (acc ++ [r.map toSeries]) qs
    | .answered _ _ _ (.err _) => readCalls F (acc ++ [[]]) qs
    | _ => .done none

/-- `MonolithServer::write` (src/server.rs:171-180) and the response (src/server.rs:114-122). -/
def writeCalls : List PSeries → Calls (Option Response)
  | [] => .done (some ⟨200, []⟩)
  | s :: ss => .call (.write (ofSeries s).1 (ofSeries s).2) fun
    | .wrote _ _ (.ok ()) _ _ => writeCalls ss
    | .wrote _ _ (.err _) _ _ => .done (some ⟨500, []⟩)
    | _ => .done none

/-- `_process` (src/server.rs:65-131), see `process`. -/
def requestCalls (F : Formats) (P : Paths) (r : Request) : Calls (Option Response) :=
  match r.body with
  | none => .done none
  | some body =>
    match F.decompress body with
    | none => .done none
    | some content =>
      if r.url = P.read then
        match F.parseRead content with
        | none => .done (some ⟨500, []⟩)
        | some req => if req.sizeZero then .done (some ⟨500, []⟩) else readCalls F [] req.queries
      else if r.url = P.write then writeCalls (F.parseWrite content)
      else .done (some ⟨404, []⟩)

/-- Thread 1 is given these calls to make. -/
def FConf.withTodo (c : FConf) (todo : List DbOp) : FConf := c.setThread 1 { c.threads 1 with todo := todo }

/-- The server process: the database, with the timer as thread 0 and the thread that handles requests as thread 1; what is left of the request that is
being handled; the requests to come; the responses sent. (Of the worker threads, src/server.rs:51-54, one is used at a time, because `install` waits for
the closure it is given, src/server.rs:59; the calls they make are those of one thread.) -/
structure SrvConf where
  db : FConf
  now : Option (Calls (Option Response))
  queue : List Request
  sent : List (Option Response)

/-- The database call of the request being handled has returned: its result is used. -/
def SrvConf.resume (c : SrvConf) : SrvConf :=
  match (c.db.threads 1).now, c.now, (c.db.threads 1).done.getLast? with
  | none, some (.call _ k), some o => { c with now := some (k o) }
  | _, _, _ => c

/-- One step of the thread that handles requests (src/server.rs:56-60): it goes on inside the database, makes the next database call, sends the response,
or takes the next request. -/
def SrvConf.work (B : Kit) (H : Hash) (F : Formats) (P : Paths) (c : SrvConf) : SrvConf :=
  match (c.db.threads 1).now with
  | some _ => ({ c with db := c.db.step B H 1 } : SrvConf).resume
  | none =>
    match c.now with
    | some (.call op _) => { c with db := (c.db.withTodo [op]).step B H 1 }
    | some (.done x) => { c with now := none, sent := c.sent ++ [x] }
    | none =>
      match c.queue with
      | [] => c
      | r :: rs => { c with now := some (requestCalls F P r), queue := rs }

/-- One step: of the timer thread (0), of the thread that handles requests (1). After a panic in a request (a response `none`) the process has ended. -/
def SrvConf.step (B : Kit) (H : Hash) (F : Formats) (P : Paths) (c : SrvConf) (t : Nat) : SrvConf :=
  if none ∈ c.sent then c
  else match t with
    | 0 => { c with db := c.db.step B H 0 }
    | 1 => c.work B H F P
    | _ => c

/-- Any schedule. -/
def SrvConf.run (B : Kit) (H : Hash) (F : Formats) (P : Paths) (c : SrvConf) (sched : List Nat) : SrvConf := sched.foldl (fun c t => c.step B H F P t) c

/-- A server started on the older chunks `A` it finds (src/db.rs:58-84; see `readExistingChunks`); the first chunk has window `[lo, hi]`; the chunks made by
the swaps have the windows `ticks` (src/db.rs:86-103); the requests that will come. -/
def SrvConf.startOn (A : List SChunk) (lo hi : U64) (ticks : List (U64 × U64)) (reqs : List Request) : SrvConf :=
  ⟨FConf.startOn A lo hi fun u => if u = 0 then ticks.map fun w => .swap w.1 w.2 else [], none, reqs, []⟩

/-- A server started with an empty directory; the first chunk has window `[lo, hi]`; the chunks made by the swaps have the windows `ticks`
(src/db.rs:86-103); the requests that will come. -/
def SrvConf.start (lo hi : U64) (ticks : List (U64 × U64)) (reqs : List Request) : SrvConf :=
  ⟨FConf.start lo hi fun u => if u = 0 then ticks.map fun w => .swap w.1 w.2 else [], none, reqs, []⟩

/-- One step under a policy about readers and waiting writers (see `FConf.stepUnder`): a thread that is held back does nothing. -/
def SrvConf.stepUnder (W : FPolicy) (B : Kit) (H : Hash) (F : Formats) (P : Paths) (c : SrvConf) (t : Nat) : SrvConf :=
  if W c.db t then c else c.step B H F P t

/-- Any schedule under a policy. -/
def SrvConf.runUnder (W : FPolicy) (B : Kit) (H : Hash) (F : Formats) (P : Paths) (c : SrvConf) (sched : List Nat) : SrvConf :=
  sched.foldl (fun c t => c.stepUnder W B H F P t) c

end Verif
