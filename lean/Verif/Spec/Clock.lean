import Verif.Spec.ServerLife
/-! Independent specification of the server over time for a clock that may jump in any direction. -/
namespace Verif

/-- Chunks in order of the start of their windows. -/
def byStart (gs : List Gen) : List Gen := stableSort (fun a b => decide (a.lo.toNat ≤ b.lo.toNat)) gs

/-- What a happening does, whatever the clock reads: as in C75 (`Site.next`), but a restart lists the older chunks in order of their start,
which is not the order of creation if the clock was set back. -/
def Site.goes (size : U64) (s : Site) : Happening → Site
  | .restart order clock now => ⟨true, ⟨byStart (s.next size (.restart order clock now)).g.old, Gen.new now size⟩⟩
  | e => s.next size e

/-- The machine after a history. -/
def Site.went (size : U64) (s : Site) (hs : List Happening) : Site := hs.foldl (Site.goes size) s

/-- Assumptions on a happening: those of C75 on requests; of the clock only that the window of a new chunk ends before 2^64 and that no
older chunk starts at the same millisecond (it would have the same directory); directories are listed in some order. -/
def Timely (H : Hash) (rt : PbRt) (size : U64) (s : Site) : Happening → Prop
  | .call c => Proper H rt size s (.call c)
  | .tick r => s.up = true → r.toNat + 1 + size.toNat < 2 ^ 64 ∧ ∀ c ∈ s.g.all, c.lo ≠ r + 1
  | .restart order _ now => (∀ l, (order l).Perm l) ∧ now.toNat + size.toNat < 2 ^ 64 ∧ ∀ c ∈ s.g.all, c.lo ≠ now

/-- The same for a history. -/
def TimelyAll (H : Hash) (rt : PbRt) (size : U64) : Site → List Happening → Prop
  | _, [] => True
  | s, e :: es => Timely H rt size s e ∧ TimelyAll H rt size (s.goes size e) es

/-- At a restart nothing stored is ahead of the clock. -/
def NoneAhead (s : Site) : Happening → Prop
  | .restart _ clock _ => ∀ c ∈ s.g.all, ∀ w ∈ c.h, w.2.ts.toNat ≤ (clock c.name).toNat
  | _ => True

end Verif
