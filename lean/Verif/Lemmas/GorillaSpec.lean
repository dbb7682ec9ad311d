import Verif.Lemmas.GorillaRound
import Verif.Spec.Gorilla
/-! The survival condition in terms of the specification. -/
namespace Verif
open List

theorem goodX_fits {len : Nat} (hlen : 2 ≤ len) (w : Nat × Nat) (x : U64) :
    fits len w x ↔ (w.1 ≤ lz x ∧ w.2 ≤ tz x) := by
  unfold fits
  constructor
  · exact fun h => ⟨h.2.1, h.2.2⟩
  · exact fun h => ⟨by omega, h.1, h.2⟩

theorem allGood_two (a b : U64) (ps : List TimePoint) {c : GorillaCompactor} (hlen : 2 ≤ c.len)
    (ht : c.t = b) (hd : c.d = b - a) :
    allGood c ps ↔ (∀ d ∈ secondDiffs (a :: b :: ps.map (·.ts)), goodT d) ∧
      ∀ w ∈ openedFrom (c.leading, c.tailing) (xors (c.v :: ps.map (·.val))), w.1 < 32 ∧ w.1 + w.2 ≠ 0 := by
  induction ps generalizing a b c with
  | nil => simp [allGood, secondDiffs, xors, openedFrom]
  | cons p ps ih =>
    have h0 : ¬ c.len = 0 := by omega
    have h1 : ¬ c.len = 1 := by omega
    have ih' := ih b p.ts (c := updPoint c p c.bstream) (by simp [updPoint]; omega) rfl (by simp [updPoint, h0, ht])
    simp only [allGood, ih']
    simp only [List.map_cons, secondDiffs, xors, List.mem_cons, forall_eq_or_imp]
    have hdod : (p.ts - c.t) - c.d = (p.ts - b) - (b - a) := by rw [ht, hd]
    have hv : (updPoint c p c.bstream).v = p.val := rfl
    have hgp : goodPoint c p ↔ goodT ((p.ts - b) - (b - a)) ∧ goodX c.len (c.leading, c.tailing) (p.val ^^^ c.v) := by
      simp only [goodPoint, h0, h1, false_or, hdod]
    rw [hgp, hv]
    by_cases hx : p.val ^^^ c.v = 0#64 ∨ fits c.len (c.leading, c.tailing) (p.val ^^^ c.v)
    · have hx' : p.val ^^^ c.v = 0#64 ∨ (c.leading ≤ lz (p.val ^^^ c.v) ∧ c.tailing ≤ tz (p.val ^^^ c.v)) := by
        rw [goodX_fits hlen] at hx; exact hx
      have hgx : goodX c.len (c.leading, c.tailing) (p.val ^^^ c.v) := by
        rcases hx with h | h
        · exact Or.inl h
        · exact Or.inr (Or.inl h)
      have hw : ((updPoint c p c.bstream).leading, (updPoint c p c.bstream).tailing) = (c.leading, c.tailing) := by
        simp only [updPoint, h0, if_false, winX, if_pos hx]
      rw [hw]
      simp only [openedFrom, if_pos hx', hgx, and_true]
      tauto
    · have hx' : ¬ (p.val ^^^ c.v = 0#64 ∨ (c.leading ≤ lz (p.val ^^^ c.v) ∧ c.tailing ≤ tz (p.val ^^^ c.v))) := by
        rw [goodX_fits hlen] at hx; exact hx
      have hgx : goodX c.len (c.leading, c.tailing) (p.val ^^^ c.v) ↔
          (lz (p.val ^^^ c.v) < 32 ∧ lz (p.val ^^^ c.v) + tz (p.val ^^^ c.v) ≠ 0) := by
        unfold goodX
        constructor
        · rintro (h | h | h)
          · exact absurd (Or.inl h) hx
          · exact absurd (Or.inr h) hx
          · exact h
        · exact fun h => Or.inr (Or.inr h)
      have hw : ((updPoint c p c.bstream).leading, (updPoint c p c.bstream).tailing) =
          (lz (p.val ^^^ c.v), tz (p.val ^^^ c.v)) := by
        simp only [updPoint, h0, winX, if_neg hx, if_false]
      rw [hw]
      simp only [openedFrom, if_neg hx', hgx, List.mem_cons, forall_eq_or_imp]
      exact and_and_and_comm

theorem allGood_spec (ps : List TimePoint) :
    allGood GorillaCompactor.new ps ↔ (∀ d ∈ secondDiffs (ps.map (·.ts)), goodT d) ∧
      ∀ w ∈ opened (xors (ps.map (·.val))), w.1 < 32 ∧ w.1 + w.2 ≠ 0 := by
  cases ps with
  | nil => simp [allGood, secondDiffs, xors, opened]
  | cons p0 ps =>
    cases ps with
    | nil => simp [allGood, secondDiffs, xors, opened, goodPoint, GorillaCompactor.new]
    | cons p1 ps =>
      simp only [allGood]
      generalize hc1 : updPoint GorillaCompactor.new p0 GorillaCompactor.new.bstream = c1
      have l1 : c1.len = 1 := by rw [← hc1]; rfl
      have t1 : c1.t = p0.ts := by rw [← hc1]; rfl
      have v1 : c1.v = p0.val := by rw [← hc1]; rfl
      have w1 : c1.leading = 0 ∧ c1.tailing = 0 := by rw [← hc1]; exact ⟨rfl, rfl⟩
      have hg0 : goodPoint GorillaCompactor.new p0 := Or.inl rfl
      have h2 := allGood_two p0.ts p1.ts ps (c := updPoint c1 p1 c1.bstream) (by simp [updPoint, l1]) rfl
        (by simp [updPoint, l1, t1])
      rw [h2]
      have hv : (updPoint c1 p1 c1.bstream).v = p1.val := rfl
      rw [hv]
      have hg1 : goodPoint c1 p1 ↔ goodX 1 (0, 0) (p1.val ^^^ p0.val) := by
        simp [goodPoint, l1, v1, w1]
      have hnf : ¬ fits 1 (0, 0) (p1.val ^^^ p0.val) := by simp [fits]
      rw [hg1]
      simp only [List.map_cons, xors, opened]
      by_cases hx : p1.val ^^^ p0.val = 0#64
      · have hw : ((updPoint c1 p1 c1.bstream).leading, (updPoint c1 p1 c1.bstream).tailing) = (0, 0) := by
          have hnf' : (p1.val ^^^ p0.val = 0#64 ∨ fits 1 (0, 0) (p1.val ^^^ p0.val)) := Or.inl hx
          simp only [updPoint, l1, winX, v1, w1, if_pos hnf']
          simp
        rw [hw, if_pos hx]
        simp [goodX, hx, hg0]
      · have hw : ((updPoint c1 p1 c1.bstream).leading, (updPoint c1 p1 c1.bstream).tailing) =
            (lz (p1.val ^^^ p0.val), tz (p1.val ^^^ p0.val)) := by
          have hnf' : ¬ (p1.val ^^^ p0.val = 0#64 ∨ fits 1 (0, 0) (p1.val ^^^ p0.val)) := by tauto
          simp only [updPoint, l1, winX, v1, w1, if_neg hnf']
          simp
        rw [hw, if_neg hx]
        simp only [goodX, hx, hnf, false_or, List.mem_cons, forall_eq_or_imp, hg0, true_and]
        exact and_left_comm

theorem sub_range (x y : U64) :
    ((-2 ^ 63 ≤ x.toInt - y.toInt ∧ x.toInt - y.toInt < 2 ^ 63) ∧ inR (x - y) 16 = true) ↔
      (-32767 ≤ x.toInt - y.toInt ∧ x.toInt - y.toInt ≤ 32768) := by
  simp only [inR, decide_eq_true_eq, BitVec.toInt_sub, Int.bmod_def]
  generalize x.toInt - y.toInt = z
  norm_num
  constructor
  · rintro ⟨h3, h4⟩
    split at h4 <;> omega
  · intro h3
    refine ⟨by omega, ?_⟩
    split <;> omega

/-- Conditions for a panic-free debug run, in terms of the specification. -/
theorem noPanic_two (a b : U64) (ps : List TimePoint) {c : GorillaCompactor} (hlen : 2 ≤ c.len)
    (ht : c.t = b) (hd : c.d = b - a) :
    noPanicAll .debug c ps ↔ (∀ xy ∈ (b :: ps.map (·.ts)).zip (ps.map (·.ts)), xy.1.toNat ≤ xy.2.toNat) ∧
      ∀ x ∈ secondDiffsInt (a :: b :: ps.map (·.ts)), -32767 ≤ x ∧ x ≤ 32768 := by
  induction ps generalizing a b c with
  | nil => simp [noPanicAll, secondDiffsInt]
  | cons p ps ih =>
    have h0 : ¬ c.len = 0 := by omega
    have h1 : ¬ c.len = 1 := by omega
    have ih' := ih b p.ts (c := updPoint c p c.bstream) (by simp [updPoint]; omega) rfl (by simp [updPoint, h0, ht])
    simp only [noPanicAll, ih']
    simp only [List.map_cons, secondDiffsInt, List.mem_cons, forall_eq_or_imp, List.zip_cons_cons]
    have hgp : noPanic .debug c p ↔ (b.toNat ≤ p.ts.toNat ∧ (-32767 ≤ (p.ts - b).toInt - (b - a).toInt ∧ (p.ts - b).toInt - (b - a).toInt ≤ 32768)) := by
      simp only [noPanic, h0, h1, ht, hd, false_or, reduceCtorEq]
      rw [sub_range (p.ts - b) (b - a)]
    rw [hgp]
    tauto

theorem noPanic_spec (ps : List TimePoint) :
    noPanicAll .debug GorillaCompactor.new ps ↔
      (∀ xy ∈ (ps.map (·.ts)).zip (ps.map (·.ts)).tail, xy.1.toNat ≤ xy.2.toNat) ∧
      ∀ x ∈ secondDiffsInt (ps.map (·.ts)), -32767 ≤ x ∧ x ≤ 32768 := by
  cases ps with
  | nil => simp [noPanicAll, secondDiffsInt]
  | cons p0 ps =>
    cases ps with
    | nil => simp [noPanicAll, secondDiffsInt, noPanic, GorillaCompactor.new]
    | cons p1 ps =>
      simp only [noPanicAll]
      generalize hc1 : updPoint GorillaCompactor.new p0 GorillaCompactor.new.bstream = c1
      have l1 : c1.len = 1 := by rw [← hc1]; rfl
      have t1 : c1.t = p0.ts := by rw [← hc1]; rfl
      have hg0 : noPanic .debug GorillaCompactor.new p0 := Or.inr (Or.inl rfl)
      have h2 := noPanic_two p0.ts p1.ts ps (c := updPoint c1 p1 c1.bstream) (by simp [updPoint, l1]) rfl
        (by simp [updPoint, l1, t1])
      rw [h2]
      have hg1 : noPanic .debug c1 p1 ↔ p0.ts.toNat ≤ p1.ts.toNat := by
        simp [noPanic, l1, t1]
      rw [hg1]
      simp only [List.map_cons, List.tail_cons, List.zip_cons_cons, List.mem_cons, forall_eq_or_imp]
      tauto

/-- A debug build panics on a point outside the condition. -/
theorem compact_panic {c : GorillaCompactor} {l} (hinv : CInv c l) (p : TimePoint) (h : ¬ noPanic .debug c p) :
    c.compact .debug p = none := by
  have h0 : ¬ c.len = 0 := fun h0 => h (Or.inr (Or.inl h0))
  by_cases ht : c.t.toNat ≤ p.ts.toNat
  · have h1 : ¬ c.len = 1 := fun h1 => h (Or.inr (Or.inr ⟨ht, Or.inl h1⟩))
    have hs : u64sub .debug p.ts c.t = some (p.ts - c.t) := by simp [u64sub, ht]
    by_cases hd : -2 ^ 63 ≤ (p.ts - c.t).toInt - c.d.toInt ∧ (p.ts - c.t).toInt - c.d.toInt < 2 ^ 63
    · have hi : i64sub .debug (p.ts - c.t) c.d = some ((p.ts - c.t) - c.d) := by simp only [i64sub, if_pos hd]
      have h16 : ¬ inR ((p.ts - c.t) - c.d) 16 = true := fun h16 => h (Or.inr (Or.inr ⟨ht, Or.inr ⟨hd, h16⟩⟩))
      have h8 : ¬ inR ((p.ts - c.t) - c.d) 8 = true := fun h8 => h16 (inR_8_16 h8)
      have hz : ¬ (p.ts - c.t) - c.d = 0#64 := by
        intro hz
        apply h16
        rw [hz]; decide
      have hcd : GorillaCompactor.compactDod .debug c.bstream ((p.ts - c.t) - c.d) = none := by
        simp only [GorillaCompactor.compactDod, hz, if_false, inBitRange_8, inBitRange_16, inBitRange_32_debug,
          Option.bind_eq_bind, Option.bind_some, h8, h16, Option.bind_none]
        rfl
      simp only [GorillaCompactor.compact, GorillaCompactor.compactBody, h0, h1, if_false, hs, hi, hcd,
        Option.bind_eq_bind, Option.bind_some, Option.bind_none]
    · have hi : i64sub .debug (p.ts - c.t) c.d = none := by simp only [i64sub, if_neg hd]
      simp only [GorillaCompactor.compact, GorillaCompactor.compactBody, h0, h1, if_false, hs, hi,
        Option.bind_eq_bind, Option.bind_some, Option.bind_none]
  · have hs : u64sub .debug p.ts c.t = none := by simp [u64sub, ht]
    simp only [GorillaCompactor.compact, GorillaCompactor.compactBody, h0, if_false, hs,
      Option.bind_eq_bind, Option.bind_none]
    split <;> rfl

theorem compactAll_panic (ps : List TimePoint) {c : GorillaCompactor} {l} (hinv : CInv c l)
    (h : ¬ noPanicAll .debug c ps) : Compactor.compactAll .debug c ps = none := by
  induction ps generalizing c l with
  | nil => exact absurd trivial h
  | cons p ps ih =>
    by_cases hp : noPanic .debug c p
    · obtain ⟨s1, h1, h2⟩ := compact_ok .debug hinv p hp
      have hn : ¬ noPanicAll .debug (updPoint c p s1) ps := by
        intro hc
        exact h ⟨hp, (noPanicAll_stream .debug ps (updPoint c p c.bstream) s1).mp hc⟩
      simp only [Compactor.compactAll, h1, Option.bind_eq_bind, Option.bind_some, ih (hinv.upd p h2) hn]
    · simp only [Compactor.compactAll, compact_panic hinv p hp, Option.bind_eq_bind, Option.bind_none]

end Verif
