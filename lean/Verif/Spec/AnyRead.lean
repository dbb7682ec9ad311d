import Verif.Spec.AnyTime
/-! Independent specification for any reads whatsoever: the machine as its clients see it. What a read does is not predicted; a read that gets
no answer has ended the process. -/
namespace Verif

/-- What is known after a happening and the response to it: as in C94 (`Site.goes`), but a read without response has ended the process. -/
def Site.sees (size : U64) (s : Site) : Happening → Option Response → Site
  | .call (.read _), x => if x = none then { s with up := false } else s
  | .call .badRead, x => if x = none then { s with up := false } else s
  | e, _ => s.goes size e

/-- The machine after a history with its responses. -/
def Site.seen (size : U64) : Site → List Happening → List (Option Response) → Site
  | s, e :: es, x :: xs => Site.seen size (s.sees size e x) es xs
  | s, _, _ => s

/-- The samples accepted in a history with its responses, in the order of arrival. -/
def Site.took (size : U64) : Site → List Happening → List (Option Response) → Inserts
  | s, e :: es, x :: xs => s.brings e ++ Site.took size (s.sees size e x) es xs
  | _, _, _ => []

/-- Assumptions on a happening: those of C94, and none on reads, whether their bodies are well-formed or not. -/
def AnyRead (H : Hash) (rt : PbRt) (size : U64) (s : Site) : Happening → Prop
  | .call (.read _) => True
  | .call .badRead => True
  | e => Timely H rt size s e

/-- The same for a history with its responses. -/
def AnyReadAll (H : Hash) (rt : PbRt) (size : U64) : Site → List Happening → List (Option Response) → Prop
  | s, e :: es, x :: xs => AnyRead H rt size s e ∧ AnyReadAll H rt size (s.sees size e x) es xs
  | _, _, _ => True

end Verif
