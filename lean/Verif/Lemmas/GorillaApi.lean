import Verif.Lemmas.GorillaPanic
/-! The compaction API in terms of the lemmas about streams. -/
namespace Verif
open List GorillaDecompactor

theorem compactEach_gorilla (m : Mode) (ps : List TimePoint) (c : GorillaCompactor) :
    compactEach m (.gorilla c) ps = (Compactor.compactAll m c ps).map .gorilla := by
  induction ps generalizing c with
  | nil => rfl
  | cons p ps ih =>
    simp only [compactEach, Compactor.compactAll, Compactor.compact, Option.bind_eq_bind]
    cases c.compact m p with
    | none => rfl
    | some c' => simpa using ih c'

theorem compactAll_append (m : Mode) (a b : List TimePoint) (c : GorillaCompactor) :
    Compactor.compactAll m c (a ++ b) = (Compactor.compactAll m c a).bind (fun c => Compactor.compactAll m c b) := by
  induction a generalizing c with
  | nil => rfl
  | cons p ps ih =>
    simp only [cons_append, Compactor.compactAll, Option.bind_eq_bind]
    cases c.compact m p with
    | none => rfl
    | some c' => simpa using ih c'

theorem allGood_append {a b : List TimePoint} {c : GorillaCompactor} (h : allGood c (a ++ b)) : allGood c a := by
  induction a generalizing c with
  | nil => trivial
  | cons p ps ih => exact ⟨h.1, ih h.2⟩

/-- Decoding the bytes of a well-formed stream. -/
theorem decompactBytes_rep (m : Mode) {s : Bstream} {l} (hs : Rep s l) :
    decompactBytes m .gorilla (s.asBytesVec ++ [CompactType.gorilla.tag]) =
      .ok (collect m (Decompactor.fuel (GorillaDecompactor.new s)) (GorillaDecompactor.new s)) := by
  simp only [decompactBytes, Decompactor.from', List.getLast?_append, List.getLast?_singleton, Option.getD_some,
    Option.some_or, ne_eq, not_true_eq_false, if_false, List.dropLast_concat, fromBytes_asBytes hs.2]
  rfl

/-- Bytes of a fresh compactor. -/
theorem gorillaBytes_ok (m : Mode) (ps : List TimePoint) (h : noPanicAll m GorillaCompactor.new ps) :
    ∃ s, Rep s (encAll GorillaCompactor.new ps) ∧
      gorillaBytes m ps = some (s.asBytesVec ++ [CompactType.gorilla.tag]) ∧
      Compactor.compactAll m GorillaCompactor.new ps = some { updAll GorillaCompactor.new ps with bstream := s } := by
  obtain ⟨s, h1, h2⟩ := compactAll_ok m ps cinv_new h
  refine ⟨s, by simpa using h2, ?_, h1⟩
  simp [gorillaBytes, Compactor.new, Compactor.compactVec, h1, GorillaCompactor.asBytesVec]

theorem toInt_sub_of_le {a b : U64} (h : b.toNat ≤ a.toNat) (ha : a.toNat < 2 ^ 63) :
    (a - b).toInt = (a.toNat : Int) - b.toNat ∧ (a - b).toNat = a.toNat - b.toNat := by
  have e : (a - b).toNat = a.toNat - b.toNat := BitVec.toNat_sub_of_le h
  refine ⟨?_, e⟩
  rw [BitVec.toInt_eq_toNat_cond, e]
  split <;> omega

/-- The decoder's additions succeed in debug mode on what a debug compactor accepts, below 2^63. -/
theorem addsOk_debug (ps : List TimePoint) {c : GorillaCompactor} (hb : ∀ p ∈ ps, p.ts.toNat < 2 ^ 63)
    (hc : c.t.toNat < 2 ^ 63) (hp : noPanicAll .debug c ps) : addsOkAll .debug c ps := by
  induction ps generalizing c with
  | nil => trivial
  | cons p ps ih =>
    obtain ⟨h1, h2⟩ := hp
    have hpb := hb p (by simp)
    refine ⟨?_, ih (fun q hq => hb q (by simp [hq])) (by simpa [updPoint] using hpb) h2⟩
    rcases h1 with h1 | h1 | ⟨h1, h3⟩
    · exact Or.inl h1
    · exact Or.inr (Or.inl h1)
    · obtain ⟨e1, e2⟩ := toInt_sub_of_le h1 hpb
      have ect : c.t.toInt = c.t.toNat := by rw [BitVec.toInt_eq_toNat_cond]; split <;> omega
      by_cases hl0 : c.len = 0
      · exact Or.inr (Or.inl hl0)
      by_cases hl1 : c.len = 1
      · refine Or.inr (Or.inr (Or.inl ⟨hl1, ?_⟩))
        simp only [i64add]
        rw [if_pos (by rw [e1, ect]; omega), sub_add_self]
      · have h3 := h3.resolve_left hl1
        refine Or.inr (Or.inr (Or.inr ⟨by omega, Or.inr ?_, ?_⟩))
        · simp only [i64add]
          have e3 : ((p.ts - c.t) - c.d).toInt = (p.ts - c.t).toInt - c.d.toInt := by
            rw [BitVec.toInt_sub]
            apply Int.bmod_eq_of_le <;> omega
          rw [if_pos (by rw [e3, e1]; omega), sub_add_self]
        · simp only [u64add]
          rw [if_pos (by rw [e2]; omega), add_sub_self]

theorem fuel_collect (m : Mode) (s : Bstream) :
    collect m (Decompactor.fuel (GorillaDecompactor.new s)) (GorillaDecompactor.new s) ≠ .outOfFuel ∧
    ∀ k, collect m (Decompactor.fuel (GorillaDecompactor.new s) + k) (GorillaDecompactor.new s) =
      collect m (Decompactor.fuel (GorillaDecompactor.new s)) (GorillaDecompactor.new s) :=
  collect_fuel m _ _ (by simp [Decompactor.fuel, GorillaDecompactor.new]) (by simp [Decompactor.fuel])

theorem winOk_new (s : Bstream) : WinOk (GorillaDecompactor.new s) :=
  ⟨by simp [GorillaDecompactor.new], 64, 64, rfl, rfl, by decide⟩

/-- Release outcome by the declared number of unused bits. -/
theorem release_panic_iff (s : Bstream) (hr : s.remaining ≤ 255) :
    collect .release (Decompactor.fuel (GorillaDecompactor.new s)) (GorillaDecompactor.new s) = .panic ↔
      8 * s.data.length < s.remaining := by
  by_cases hok : s.Ok
  · have := collect_safe (Decompactor.fuel (GorillaDecompactor.new s)) (dc := GorillaDecompactor.new s) hok (winOk_new s)
    unfold Bstream.Ok at hok
    constructor
    · exact fun h => absurd h this
    · intro h; omega
  · have h1 := collect_bad (Decompactor.fuel (GorillaDecompactor.new s)) (dc := GorillaDecompactor.new s) ⟨hok, hr⟩
      (by simp [GorillaDecompactor.new])
    have h2 := (fuel_collect .release s).1
    unfold Bstream.Ok at hok
    constructor
    · intro _; omega
    · intro _
      cases h : collect .release (Decompactor.fuel (GorillaDecompactor.new s)) (GorillaDecompactor.new s) with
      | ok l => exact absurd h (h1 l)
      | panic => rfl
      | outOfFuel => exact absurd h h2

/-! ### The uncompressed compactor -/

theorem compactEach_none (m : Mode) (ps : List TimePoint) (v : List Byte) :
    compactEach m (.none v) ps = some (.none (v ++ ps.flatMap fun p => toBE p.ts ++ toBE p.val)) := by
  induction ps generalizing v with
  | nil => simp [compactEach]
  | cons p ps ih =>
    simp only [compactEach, Compactor.compact, Option.bind_eq_bind, Option.bind_some, ih]
    simp

end Verif
