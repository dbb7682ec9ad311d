import Verif.Spec.Unordered
import Verif.Spec.Clock
/-! Independent specification for samples in any order and any number of times while the clock jumps. -/
namespace Verif

/-- The assumptions: on requests those of C92 (nothing on the order of samples), on the clock those of C94. -/
def AnyTime (H : Hash) (rt : PbRt) (size : U64) (s : Site) : Happening → Prop
  | .call c => ProperAny H rt size s (.call c)
  | e => Timely H rt size s e

/-- The same for a history. -/
def AnyTimeAll (H : Hash) (rt : PbRt) (size : U64) : Site → List Happening → Prop
  | _, [] => True
  | s, e :: es => AnyTime H rt size s e ∧ AnyTimeAll H rt size (s.goes size e) es

/-- The samples a happening brings: of a write to a running server those of its series, up to and including the first one with a sample
outside the current window, that lie strictly inside it. -/
def Site.brings (s : Site) : Happening → Inserts
  | .call (.write m) => if s.up then newPoints s.g.cur (takeUntilRefused s.g.cur m) else []
  | _ => []

/-- The samples accepted in a history, in the order of arrival. -/
def Site.accepts (size : U64) : Site → List Happening → Inserts
  | _, [] => []
  | s, e :: es => s.brings e ++ Site.accepts size (s.goes size e) es

end Verif
