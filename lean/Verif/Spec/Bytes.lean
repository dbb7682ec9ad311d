import Verif.Model.Named
/-! Independent specification for requests of any bytes. -/
namespace Verif

/-- The request is decent: its body can be read and is Snappy data, and if it goes to the read path and the protobuf library can read it, no
query in it has its start after its end (as unsigned numbers). -/
def Decent (sn : Snappy) (rt : PbRt) (P : Paths) (r : Request) : Prop :=
  ∃ body bytes, r.body = some body ∧ sn.decompress body = some bytes ∧
    (r.url = P.read → ∀ req, (pbFormats sn rt).parseRead bytes = some req → ∀ q ∈ req.queries, (asU64 q.start_).toNat ≤ (asU64 q.end_).toNat)

/-- The time at which a chunk starts because of this event, if one does. -/
def HostEvent.begins : HostEvent → List U64
  | .request _ => []
  | .tick r => [r + 1]
  | .restart _ _ now => [now]

/-- Directories are listed in some order. -/
def HostEvent.lists : HostEvent → Prop
  | .restart order _ _ => ∀ l, (order l).Perm l
  | _ => True

end Verif
