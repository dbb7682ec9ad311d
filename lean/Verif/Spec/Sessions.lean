import Verif.Spec.ServerConc
import Verif.Model.Sessions
/-! What is asked of the lives of a server and their requests. -/
namespace Verif

/-- The requests of life number `n` say `calls[n]`; each life's requests are fine (see `FineCalls`) and it makes less than 2^64 - 2 steps; directories are
listed in some order; no two chunks have the same window. -/
structure FineLives (sn : Snappy) (rt : PbRt) (P : Paths) (ss : List Session) (calls : List (List Call)) : Prop where
  means : List.Forall₂ (fun s cs => List.Forall₂ (Says sn rt.utf8 P) s.reqs cs) ss calls
  fine : ∀ cs ∈ calls, FineCalls rt cs
  order : ∀ s ∈ ss, ∀ l, (s.order l).Perm l
  steps : ∀ s ∈ ss, s.sched.length + 1 < 2 ^ 64 - 1
  windows : (ss.flatMap fun s => (s.now, s.now + s.size) :: s.ticks).Nodup

/-- Sent in a write request, number `i` of life number `n`, that the server took up in that life: a series with these labels and this sample. -/
def SentIn (ends : Nat → Option SrvConf) (calls : List (List Call)) (n i : Nat) (ser : PSeries) (x : Sample) : Prop :=
  ∃ c cs m, ends n = some c ∧ (i < c.sent.length ∨ i = c.sent.length ∧ c.now.isSome = true) ∧ calls[n]? = some cs ∧ cs[i]? = some (.write m) ∧ ser ∈ m ∧ x ∈ ser.samples

/-- What the lives before number `n` have stored, chunk by chunk, oldest first: in each life that came up, what the calls that took effect have put into the
chunks. `L i` are the calls of life number `i`, in the order in which they took effect. -/
def storedBefore (ends : Nat → Option SrvConf) (ss : List Session) (L : Nat → List DbOp) : Nat → List Desc
  | 0 => []
  | n + 1 => storedBefore ends ss L n ++ match ends n, ss[n]? with
    | some _, some s => ((SeqDb.fresh s.now (s.now + s.size)).run (L n)).all
    | _, _ => []

/-- No life before number `n` was killed while it handled a write request. -/
def NotTorn (ends : Nat → Option SrvConf) (calls : List (List Call)) (n : Nat) : Prop :=
  ∀ n' < n, ∀ c cs, ends n' = some c → calls[n']? = some cs → c.now.isSome = true → ∀ m, cs[c.sent.length]? ≠ some (.write m)

/-- The clock goes forward: every chunk starts later than the ones before, in all lives, and nothing is sent in a life that is later than the clock at the start
of a later life. -/
structure FineClocks (ss : List Session) (calls : List (List Call)) : Prop where
  starts : (ss.flatMap fun s => s.now :: s.ticks.map (·.1)).Pairwise fun a b => a.toNat < b.toNat
  samples : ∀ (n' n : Nat) (s : Session) (cs : List Call), n' < n → ss[n]? = some s → calls[n']? = some cs → ∀ m, Call.write m ∈ cs → ∀ ser ∈ m,
    ∀ x ∈ ser.samples, ∀ name, x.point.ts.toNat ≤ (s.clock name).toNat

end Verif
