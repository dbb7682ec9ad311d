import Verif.Spec.Bytes
import Verif.Spec.Values
/-! Independent specification of where a sample may come from, when requests are any bytes. -/
namespace Verif

/-- The numbers of the sample are in these bytes, as protobuf writes them, or are the default 0. -/
def FoundIn (bytes : Str) (x : Sample) : Prop :=
  (x.timestamp = 0 ∨ ∃ v p, IsVarint v p ∧ p <:+: bytes ∧ x.timestamp = signed v) ∧
  (x.value = 0#64 ∨ ∃ p, p.length = 8 ∧ p <:+: bytes ∧ x.value = BitVec.ofNat 64 (littleEndian p))

/-- The request sent this point: it goes to the write path; its body can be read and is Snappy data; time and value are found in the bytes; and
if these are a write request (in any encoding), then the point is a sample of it. -/
def SentBy (sn : Snappy) (rt : PbRt) (P : Paths) (r : Request) (p : TimePoint) : Prop :=
  r.url = P.write ∧ ∃ body bytes, r.body = some body ∧ sn.decompress body = some bytes ∧ p.ts ≠ 0#64 ∧
    ∃ x : Sample, x.point = p ∧ FoundIn bytes x ∧ ∀ m, IsWrite rt.utf8 m bytes → ∃ ser ∈ m, x ∈ ser.samples

/-- Skipping a group never makes up bytes. -/
def PbRt.Forward (rt : PbRt) : Prop := ∀ s r, rt.skipGroup s = some r → r <:+ s

end Verif
