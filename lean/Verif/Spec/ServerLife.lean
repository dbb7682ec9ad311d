import Verif.Spec.Life
import Verif.Spec.Proto
import Verif.Model.ServerLife
import Verif.Lemmas.Db
import Verif.Lemmas.ProtoSound
/-! Independent specification of the server over time: what requests say, what they do, how they are answered. -/
namespace Verif

/-- What a request says. -/
inductive Call where
  /-- write these series -/
  | write (m : List PSeries)
  /-- answer these queries -/
  | read (qs : List PQuery)
  /-- a read request that is not an encoding of anything -/
  | badRead
  /-- a request for another path -/
  | other
  /-- a body that cannot be read or is not Snappy data -/
  | garbage

/-- The request says this: the body is compressed, and for the two known paths the content is a valid encoding (any valid encoding)
of the message. -/
def Says (sn : Snappy) (utf8 : Str → Bool) (P : Paths) (r : Request) : Call → Prop
  | .write m => r.url = P.write ∧ ∃ body bytes, r.body = some body ∧ sn.decompress body = some bytes ∧ IsWrite utf8 m bytes
  | .read qs => r.url = P.read ∧ ∃ body bytes, r.body = some body ∧ sn.decompress body = some bytes ∧ IsRead utf8 qs bytes
  | .badRead => r.url = P.read ∧ ∃ body bytes, r.body = some body ∧ sn.decompress body = some bytes ∧ ∀ qs, ¬ IsRead utf8 qs bytes
  | .other => r.url ≠ P.read ∧ r.url ≠ P.write ∧ ∃ body bytes, r.body = some body ∧ sn.decompress body = some bytes
  | .garbage => ∀ body, r.body = some body → sn.decompress body = none

/-- What happens to the machine, as the operator and the clients see it. -/
inductive Happening where
  | call (c : Call)
  | tick (reading : U64)
  | restart (order : List Slot → List Slot) (clock : Str → U64) (now : U64)

/-- The event is this happening. -/
def Means (sn : Snappy) (utf8 : Str → Bool) (P : Paths) : HostEvent → Happening → Prop
  | .request r, .call c => Says sn utf8 P r c
  | .tick r, .tick r' => r = r'
  | .restart o c n, .restart o' c' n' => o = o' ∧ c = c' ∧ n = n'
  | _, _ => False

/-- The machine: whether the server runs, and the chunks ever created with the samples they accepted. -/
structure Site where
  up : Bool
  g : Gens

/-- A point a sample stands for. -/
def Sample.point (x : Sample) : TimePoint := ⟨BitVec.ofInt 64 x.timestamp, x.value⟩

/-- A sample exactly on the start or the end of the current window (and not at time 0) makes its request fail. -/
def Refused (c : Gen) (s : PSeries) : Prop :=
  ∃ x ∈ s.samples, (x.point.ts = c.lo ∨ x.point.ts = c.hi) ∧ x.point.ts ≠ 0#64 ∧ c.lo.toNat ≤ c.hi.toNat

instance (c : Gen) (s : PSeries) : Decidable (Refused c s) := by unfold Refused; infer_instance

/-- The series of a request that are written: up to and including the first refused one. -/
def takeUntilRefused (c : Gen) : List PSeries → List PSeries
  | [] => []
  | s :: ss => if Refused c s then [s] else s :: takeUntilRefused c ss

/-- The points of these series, in order, that lie strictly inside the current window. -/
def newPoints (c : Gen) (m : List PSeries) : Inserts :=
  m.flatMap fun s => ((s.samples.map Sample.point).filter (inside c.lo c.hi)).map fun p => (s.labels, p)

/-- What a happening does. -/
def Site.next (size : U64) (s : Site) : Happening → Site
  | .call c =>
    if s.up then
      match c with
      | .write m => { s with g := { s.g with cur := { s.g.cur with h := s.g.cur.h ++ newPoints s.g.cur (takeUntilRefused s.g.cur m) } } }
      | .garbage => { s with up := false }
      | _ => s
    else s
  | .tick r => if s.up then { s with g := s.g.step size (.tick r) } else s
  | .restart order clock now => ⟨true, s.g.step size (.restart order clock now)⟩

/-- The machine after a history. -/
def Site.after (size : U64) (s : Site) (hs : List Happening) : Site := hs.foldl (Site.next size) s

/-- A new machine. -/
def Site.fresh (size now : U64) : Site := ⟨true, Gens.fresh size now⟩

/-- A sample as the client of a read gets it: protobuf drops the sign of a zero (C60). -/
def asReported (p : TimePoint) : Sample := ⟨if p.val = 0x8000000000000000#64 then 0#64 else p.val, p.ts.toInt⟩

/-- The result of a query: the merge of what the chunks contribute, in wire form. -/
def IsResult (g : Gens) (q : PQuery) (r : List PSeries) : Prop :=
  ∃ es, IsMerge (g.all.map fun c => c.answer (q.matchers.map fun x => ⟨x.name, x.value⟩) (asU64 q.start_) (asU64 q.end_)) es ∧
    r = es.map fun e => ⟨e.1, e.2.map asReported⟩

/-- The response to a happening. The last case of a read: the length fields of the protocol have 32 bits. -/
def Answered (sn : Snappy) (utf8 : Str → Bool) (s : Site) : Happening → Option Response → Prop
  | .call c, x =>
    if s.up then
      match c with
      | .write m => x = some ⟨if ∃ ser ∈ m, Refused s.g.cur ser then 500 else 200, []⟩
      | .read qs => ∃ body out, x = some ⟨200, body⟩ ∧ sn.decompress body = some out ∧
          ∃ rs : List (List PSeries), List.Forall₂ (IsResult s.g) qs rs ∧ (out.length < 2 ^ 32 → ∀ m, IsResponse utf8 m out ↔ m = rs)
      | .badRead => x = some ⟨500, []⟩
      | .other => x = some ⟨404, []⟩
      | .garbage => x = none
    else x = none
  | _, x => x = none

/-- Assumptions on a happening: well-formed label sets; at a read, queries with well-formed labels and a range that is not inverted, at
least one; the points of each series in each chunk were written in order of time; the hash map used for merging does not confuse label
sets; a clock that goes forward. A server that does not run gets no requirements. -/
def Proper (H : Hash) (rt : PbRt) (size : U64) (s : Site) : Happening → Prop
  | .call c => s.up = true →
      match c with
      | .write m => ∀ ser ∈ m, WFSet ser.labels
      | .read qs => qs ≠ [] ∧ (∀ c ∈ s.g.all, ∀ ls, SIncr (pointsFor c.h ls)) ∧
          ∀ q ∈ qs, (∀ x ∈ q.matchers, WFLabel ⟨x.name, x.value⟩) ∧ (asU64 q.start_).toNat ≤ (asU64 q.end_).toNat ∧
            H.Good fun ls => ∃ c ∈ s.g.all, ∃ w ∈ c.h, sortLabels w.1 = ls
      | .badRead => rt.Strict
      | _ => True
  | .tick r => s.up = true → GoodEvent size s.g (.tick r)
  | .restart order clock now => GoodEvent size s.g (.restart order clock now)

/-- The same for a history. -/
def ProperAll (H : Hash) (rt : PbRt) (size : U64) : Site → List Happening → Prop
  | _, [] => True
  | s, e :: es => Proper H rt size s e ∧ ProperAll H rt size (s.next size e) es

/-- Number of samples sent. -/
def sent : List Happening → Nat
  | [] => 0
  | .call (.write m) :: hs => (m.map fun s => s.samples.length).sum + sent hs
  | _ :: hs => sent hs

end Verif
