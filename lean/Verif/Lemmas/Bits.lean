import Verif.Model.Basic
import Mathlib.Tactic.Ring
/-! Facts about bit lists, bytes and words used by the proofs. -/
namespace Verif

@[simp] theorem bitsOf_length {w} (v : BitVec w) : (bitsOf v).length = w := by simp [bitsOf]

theorem bitsOf_getElem {w} (v : BitVec w) (i : Nat) (h : i < (bitsOf v).length) :
    (bitsOf v)[i] = v.getMsbD i := by simp [bitsOf]

theorem bitsOf_inj {w} {a b : BitVec w} (h : bitsOf a = bitsOf b) : a = b := by
  apply BitVec.eq_of_getMsbD_eq
  intro i hi
  have ha := bitsOf_getElem a i (by simpa using hi)
  have hb := bitsOf_getElem b i (by simpa using hi)
  rw [← ha, ← hb]
  simp [h]

theorem bitsOf_or {w} (a b : BitVec w) : bitsOf (a ||| b) = List.zipWith (· || ·) (bitsOf a) (bitsOf b) := by
  apply List.ext_getElem
  · simp
  · intro i h1 h2
    simp [bitsOf]

theorem bitsOf_and {w} (a b : BitVec w) : bitsOf (a &&& b) = List.zipWith (· && ·) (bitsOf a) (bitsOf b) := by
  apply List.ext_getElem
  · simp
  · intro i h1 h2
    simp [bitsOf]

theorem bitsOf_xor {w} (a b : BitVec w) : bitsOf (a ^^^ b) = List.zipWith (· ^^ ·) (bitsOf a) (bitsOf b) := by
  apply List.ext_getElem
  · simp
  · intro i h1 h2
    simp [bitsOf]

theorem bitsOf_shl {w} (a : BitVec w) (k : Nat) (hk : k ≤ w) :
    bitsOf (a <<< k) = (bitsOf a).drop k ++ List.replicate k false := by
  apply List.ext_getElem
  · simp; omega
  · intro i h1 h2
    simp only [bitsOf_length] at h1
    rw [bitsOf_getElem, List.getElem_append]
    simp only [BitVec.getMsbD_shiftLeft, List.length_drop, bitsOf_length]
    split
    · simp [bitsOf, Nat.add_comm]
    · simp
      apply BitVec.getMsbD_of_ge; omega

theorem bitsOf_shr {w} (a : BitVec w) (k : Nat) (hk : k ≤ w) :
    bitsOf (a >>> k) = List.replicate k false ++ (bitsOf a).take (w - k) := by
  apply List.ext_getElem
  · simp; omega
  · intro i h1 h2
    simp only [bitsOf_length] at h1
    rw [bitsOf_getElem, List.getElem_append]
    simp only [BitVec.getMsbD_ushiftRight, List.length_replicate]
    split
    · rename_i h; simp [h]
    · rename_i h; simp [bitsOf, h1]; omega

theorem bitsOf_zero {w} : bitsOf (0#w) = List.replicate w false := by
  apply List.ext_getElem
  · simp
  · intro i h1 h2; simp [bitsOf]

@[simp] theorem flat_nil : flat [] = [] := rfl
@[simp] theorem flat_cons (b : Byte) (bs) : flat (b :: bs) = bitsOf b ++ flat bs := rfl
@[simp] theorem flat_append (a b : List Byte) : flat (a ++ b) = flat a ++ flat b := by
  simp [flat]
@[simp] theorem flat_length (a : List Byte) : (flat a).length = 8 * a.length := by
  induction a with
  | nil => rfl
  | cons b bs ih => simp [ih]; omega

theorem flat_inj {a b : List Byte} (h : flat a = flat b) : a = b := by
  induction a generalizing b with
  | nil =>
    cases b with
    | nil => rfl
    | cons c cs => have := congrArg List.length h; simp at this; omega
  | cons x xs ih =>
    cases b with
    | nil => have := congrArg List.length h; simp at this
    | cons c cs =>
      simp only [flat_cons] at h
      obtain ⟨h1, h2⟩ := List.append_inj h (by simp)
      rw [bitsOf_inj h1, ih h2]

/-- Number denoted by a bit list, most significant first. -/
def natOf (l : List Bool) : Nat := l.foldl (fun acc b => 2 * acc + b.toNat) 0

theorem natOf_foldl (l : List Bool) (a : Nat) :
    l.foldl (fun acc b => 2 * acc + b.toNat) a = a * 2 ^ l.length + natOf l := by
  induction l generalizing a with
  | nil => simp [natOf]
  | cons b bs ih =>
    simp only [List.foldl_cons, List.length_cons, natOf]
    rw [ih, ih (2 * 0 + b.toNat)]
    ring

@[simp] theorem natOf_nil : natOf [] = 0 := rfl
theorem natOf_append (a b : List Bool) : natOf (a ++ b) = natOf a * 2 ^ b.length + natOf b := by
  rw [natOf, List.foldl_append, natOf_foldl]; rfl
theorem natOf_cons (a : Bool) (b : List Bool) : natOf (a :: b) = a.toNat * 2 ^ b.length + natOf b := by
  rw [natOf, List.foldl_cons, natOf_foldl]; simp
theorem natOf_replicate_false (n) : natOf (List.replicate n false) = 0 := by
  induction n with
  | zero => rfl
  | succ n ih => simp [List.replicate_succ, natOf_cons, ih]

theorem natOf_lt (l : List Bool) : natOf l < 2 ^ l.length := by
  induction l with
  | nil => simp
  | cons b bs ih =>
    rw [natOf_cons, List.length_cons, Nat.pow_succ]
    cases b <;> simp <;> omega

theorem natOf_inj {a b : List Bool} (hl : a.length = b.length) (h : natOf a = natOf b) : a = b := by
  induction a generalizing b with
  | nil => cases b with
    | nil => rfl
    | cons => simp at hl
  | cons x xs ih => cases b with
    | nil => simp at hl
    | cons y ys =>
      simp only [List.length_cons, Nat.add_right_cancel_iff] at hl
      rw [natOf_cons, natOf_cons, hl] at h
      have h1 := natOf_lt xs
      have h2 := natOf_lt ys
      rw [hl] at h1
      have hxy : x = y := by cases x <;> cases y <;> simp at h ⊢ <;> omega
      subst hxy
      rw [ih hl (by omega)]

theorem natOf_take_range {w} (v : BitVec w) (k : Nat) (hk : k ≤ w) :
    natOf ((bitsOf v).take k) = v.toNat / 2 ^ (w - k) := by
  induction k with
  | zero => simp; exact (Nat.div_eq_of_lt v.isLt).symm
  | succ k ih =>
    have hlt : k < (bitsOf v).length := by simp; omega
    rw [List.take_succ_eq_append_getElem hlt, natOf_append, ih (by omega)]
    simp only [bitsOf_getElem, List.length_singleton]
    have e : w - k = (w - (k+1)) + 1 := by omega
    rw [e, Nat.pow_succ, ← Nat.div_div_eq_div_mul]
    have hb : natOf [v.getMsbD k] = v.toNat / 2 ^ (w - (k+1)) % 2 := by
      rw [natOf_cons]
      simp only [List.length_nil, Nat.pow_zero, Nat.mul_one, natOf_nil, Nat.add_zero]
      rw [BitVec.getMsbD]
      simp only [show k < w by omega, decide_true, Bool.true_and]
      rw [BitVec.getLsbD, Nat.testBit_eq_decide_div_mod_eq, show w - 1 - k = w - (k+1) by omega]
      rcases Nat.mod_two_eq_zero_or_one (v.toNat / 2 ^ (w - (k+1))) with h | h <;> simp [h]
    rw [hb]
    omega

@[simp] theorem natOf_bitsOf {w} (v : BitVec w) : natOf (bitsOf v) = v.toNat := by
  have := natOf_take_range v w (Nat.le_refl _)
  simpa [List.take_of_length_le] using this

theorem bitsOf_ofNat_natOf {w} (l : List Bool) (h : l.length = w) : bitsOf (BitVec.ofNat w (natOf l)) = l := by
  apply natOf_inj
  · simp [h]
  · rw [natOf_bitsOf, BitVec.toNat_ofNat, Nat.mod_eq_of_lt]
    rw [← h]; exact natOf_lt l

theorem beNat_foldl (bs : List Byte) (a : Nat) :
    bs.foldl (fun acc b => 256 * acc + b.toNat) a = a * 2 ^ (8 * bs.length) + natOf (flat bs) := by
  induction bs generalizing a with
  | nil => simp
  | cons b bs ih =>
    rw [List.foldl_cons, ih, flat_cons, natOf_append, natOf_bitsOf, flat_length, List.length_cons]
    rw [show 8 * (bs.length + 1) = 8 * bs.length + 8 by ring, Nat.pow_add]
    ring

theorem beNat_eq (bs : List Byte) : beNat bs = natOf (flat bs) := by
  rw [beNat, beNat_foldl]; simp

theorem beBytes_length (n x) : (beBytes n x).length = n := by
  induction n generalizing x with
  | zero => rfl
  | succ n ih => simp [beBytes, ih]

theorem natOf_flat_beBytes (n x : Nat) : natOf (flat (beBytes n x)) = x % 2 ^ (8 * n) := by
  induction n generalizing x with
  | zero => simp [beBytes, Nat.mod_one]
  | succ n ih =>
    simp only [beBytes, flat_append, natOf_append, ih, flat_cons, flat_nil, List.append_nil,
      bitsOf_length, natOf_bitsOf, BitVec.toNat_ofNat]
    have h2 : 2 ^ (8 * (n+1)) = 256 * 2 ^ (8 * n) := by
      rw [show 8 * (n+1) = 8 * n + 8 by ring, Nat.pow_add]; ring
    rw [h2, Nat.mod_mul]
    simp; ring

@[simp] theorem toBE_length (v : U64) : (toBE v).length = 8 := beBytes_length _ _

@[simp] theorem flat_toBE (v : U64) : flat (toBE v) = bitsOf v := by
  apply natOf_inj
  · simp
  · rw [toBE, natOf_flat_beBytes, natOf_bitsOf, Nat.mod_eq_of_lt]
    have := v.isLt; omega

theorem fromBE_eq_some {bs : List Byte} (h : bs.length = 8) :
    ∃ v, fromBE bs = some v ∧ bitsOf v = flat bs := by
  refine ⟨BitVec.ofNat 64 (beNat bs), by simp [fromBE, h], ?_⟩
  rw [beNat_eq, bitsOf_ofNat_natOf]
  simp [h]

@[simp] theorem fromBE_toBE (v : U64) : fromBE (toBE v) = some v := by
  obtain ⟨w, h1, h2⟩ := fromBE_eq_some (toBE_length v)
  rw [h1]; congr 1; apply bitsOf_inj; simp [h2]

theorem toBE_inj {a b : U64} (h : toBE a = toBE b) : a = b := by
  have := congrArg fromBE h
  simpa using this

end Verif
