import Verif.Model.Basic
/-! Interleaving semantics: processes made of elementary store operations, a mutex, crashes. Models Rust threads and
`RwLock` (not a file of /repo). -/
namespace Verif

/-- A process: a sequence of elementary operations on a shared store. `act upd next` applies `upd` to the store in one
atomic step and continues with `next` of the store *before* the step (a read is `act id`). -/
inductive Proc (σ α : Type) where
  | ret (a : α)
  | act (upd : σ → σ) (next : σ → Proc σ α)

/-- Uninterrupted execution. -/
def Proc.run {σ α : Type} : Proc σ α → σ → α × σ
  | .ret a, s => (a, s)
  | .act u k, s => (k s).run (u s)

/-- The store after the first `n` elementary operations (all of them if there are fewer): what is left by a crash. -/
def Proc.upTo {σ α : Type} : Nat → Proc σ α → σ → σ
  | 0, _, s => s
  | _ + 1, .ret _, s => s
  | n + 1, .act u k, s => Proc.upTo n (k s) (u s)

/-- Sequential composition. -/
def Proc.bind {σ α β : Type} : Proc σ α → (α → Proc σ β) → Proc σ β
  | .ret a, f => f a
  | .act u k, f => .act u fun s => (k s).bind f

/-- One read. -/
def Proc.get {σ α β : Type} (f : σ → α) (k : α → Proc σ β) : Proc σ β := .act id fun s => k (f s)
/-- One update. -/
def Proc.put {σ β : Type} (u : σ → σ) (k : Proc σ β) : Proc σ β := .act u fun _ => k

/-! ### Threads that run operations under an exclusive lock -/

/-- State of a system of threads `0, 1, ...` that execute operations `ω` one after another, each under the write lock. -/
structure Sys (σ ω α : Type) where
  store : σ
  /-- operations each thread has not started yet -/
  todo : Nat → List ω
  /-- the thread holding the lock, its operation and what remains of it -/
  lock : Option (Nat × ω × Proc σ α)
  /-- finished operations with their results, in order of completion -/
  finished : List (Nat × ω × α)

/-- One step of thread `t`: take the lock, perform one elementary operation, or release the lock; a thread that cannot
proceed does nothing. -/
def Sys.step {σ ω α : Type} (prog : ω → Proc σ α) (S : Sys σ ω α) (t : Nat) : Sys σ ω α :=
  match S.lock with
  | none =>
    match S.todo t with
    | [] => S
    | o :: os => { S with todo := fun u => if u = t then os else S.todo u, lock := some (t, o, prog o) }
  | some (h, o, pr) =>
    if h = t then
      match pr with
      | .ret a => { S with lock := none, finished := S.finished ++ [(t, o, a)] }
      | .act u k => { S with store := u S.store, lock := some (t, o, k S.store) }
    else S

/-- Execution under a schedule: which thread is given the next step. -/
def Sys.exec {σ ω α : Type} (prog : ω → Proc σ α) (S : Sys σ ω α) (sched : List Nat) : Sys σ ω α := sched.foldl (Sys.step prog) S

/-- The initial state. -/
def Sys.init {σ ω α : Type} (s : σ) (todo : Nat → List ω) : Sys σ ω α := ⟨s, todo, none, []⟩

/-! ### A reader that runs concurrently with a writer, without lock -/

/-- Steps of a reader `q` and a writer `w` on one store, in the order given by the schedule (`true`: writer). Returns what
is left of both and the store. -/
def interleave {σ α β : Type} : List Bool → Proc σ β → Proc σ α → σ → Proc σ β × Proc σ α × σ
  | [], q, w, s => (q, w, s)
  | true :: rest, q, .ret a, s => interleave rest q (.ret a) s
  | true :: rest, q, .act u k, s => interleave rest q (k s) (u s)
  | false :: rest, .ret b, w, s => interleave rest (.ret b) w s
  | false :: rest, .act u k, w, s => interleave rest (k s) w (u s)

end Verif
