import Verif.Lemmas.Num
import Verif.Model.ChunkDir
namespace Verif
open List

theorem encode_toNat (s e : U64) :
    ((((0 : BitVec 128) ||| s.zeroExtend 128) <<< 64) ||| e.zeroExtend 128).toNat = s.toNat * 2 ^ 64 + e.toNat := by
  have hs := s.isLt
  have he := e.isLt
  simp only [BitVec.toNat_or, BitVec.toNat_shiftLeft, BitVec.truncate_eq_setWidth, BitVec.toNat_setWidth]
  rw [Nat.mod_eq_of_lt (by omega : s.toNat < 2 ^ 128), Nat.mod_eq_of_lt (by omega : e.toNat < 2 ^ 128)]
  have e0 : (0 : BitVec 128).toNat ||| s.toNat = s.toNat := by simp
  rw [e0, Nat.shiftLeft_eq, Nat.mod_eq_of_lt (by omega), ← Nat.shiftLeft_eq, ← Nat.shiftLeft_add_eq_or_of_lt (by omega)]

theorem encodeChunkDir_eq (s e : U64) : encodeChunkDir s e = formatNat 16 (s.toNat * 2 ^ 64 + e.toNat) := by
  rw [encodeChunkDir, encode_toNat]

theorem decode_parts (n : Nat) (h : n < 2 ^ 128) :
    let decimal : BitVec 128 := BitVec.ofNat 128 n
    let u64max : BitVec 128 := BitVec.ofNat 128 (2 ^ 64 - 1)
    (decimal &&& u64max).truncate 64 = BitVec.ofNat 64 n ∧
    ((decimal &&& (BitVec.ofNat 128 (2 ^ 128 - 1) - u64max)) >>> 64).truncate 64 = BitVec.ofNat 64 (n / 2 ^ 64) := by
  intro decimal u64max
  constructor
  · apply BitVec.eq_of_toNat_eq
    simp only [decimal, u64max, BitVec.truncate_eq_setWidth, BitVec.toNat_setWidth, BitVec.toNat_and, BitVec.toNat_ofNat]
    rw [Nat.mod_eq_of_lt h, Nat.mod_eq_of_lt (by decide : 2 ^ 64 - 1 < 2 ^ 128), Nat.and_two_pow_sub_one_eq_mod]
    omega
  · apply BitVec.eq_of_getLsbD_eq
    intro i hi
    have hM : ∀ i : Fin 64, (BitVec.ofNat 128 (2 ^ 128 - 1) - u64max).getLsbD (64 + i.val) = true := by
      decide
    have := hM ⟨i, hi⟩
    simp only at this
    simp only [BitVec.truncate_eq_setWidth, BitVec.getLsbD_setWidth, BitVec.getLsbD_ushiftRight, BitVec.getLsbD_and,
      this, decimal, BitVec.getLsbD_ofNat, Nat.testBit_div_two_pow, hi, decide_true, Bool.true_and, Bool.and_true]
    rw [Nat.add_comm i 64]
    have : 64 + i < 128 := by omega
    simp [this]

theorem decodeChunkDir_eq (name : Str) :
    decodeChunkDir name = (parseUnsigned 16 (2 ^ 128 - 1) name).map fun n =>
      (BitVec.ofNat 64 (n / 2 ^ 64), BitVec.ofNat 64 n) := by
  unfold decodeChunkDir
  cases h : parseUnsigned 16 (2 ^ 128 - 1) name with
  | none => rfl
  | some n =>
    have key : ∀ (s : Str) (acc : Nat), acc ≤ 2 ^ 128 - 1 → ∀ n, parseDigits 16 (2 ^ 128 - 1) acc s = some n → n ≤ 2 ^ 128 - 1 := by
      intro s
      induction s with
      | nil => intro acc ha n h; simp [parseDigits] at h; omega
      | cons b s ih =>
        intro acc ha n h
        rw [parseDigits] at h
        cases hd : digitVal 16 b with
        | none => simp [hd] at h
        | some d =>
          simp only [hd, Option.bind_some] at h
          split at h
          · cases h
          · exact ih _ (by omega) n h
    have hn : n ≤ 2 ^ 128 - 1 := by
      unfold parseUnsigned at h
      split at h
      · cases h
      · exact key _ 0 (by omega) n h
    have := decode_parts n (by omega)
    simp only at this
    simp only [Option.map_some]
    rw [this.1, this.2]

theorem decode_encode (s e : U64) : decodeChunkDir (encodeChunkDir s e) = some (s, e) := by
  have hs := s.isLt
  have he := e.isLt
  rw [decodeChunkDir_eq, encodeChunkDir_eq, parse_format (by omega) (by omega) (by omega)]
  simp only [Option.map_some, Option.some.injEq, Prod.mk.injEq]
  constructor
  · apply BitVec.eq_of_toNat_eq
    rw [BitVec.toNat_ofNat]; omega
  · apply BitVec.eq_of_toNat_eq
    rw [BitVec.toNat_ofNat]; omega

/-! ### Characters versus bytes -/

/-- No continuation byte at the front. -/
def startOk (s : Str) : Prop := startsCont s = false

theorem chars_eq_nil {s : Str} : chars s = [] ↔ s = [] := by
  cases s with
  | nil => simp [chars]
  | cons b s =>
    simp only [chars]
    cases chars s with
    | nil => simp [joinChar]
    | cons g gs => simp only [joinChar]; split <;> simp

theorem joinChar_flatten (b : Byte) (c : Bool) (l : List Str) : (joinChar b c l).flatten = b :: l.flatten := by
  cases l with
  | nil => rfl
  | cons g gs => simp only [joinChar]; split <;> simp

theorem chars_flatten (s : Str) : (chars s).flatten = s := by
  induction s with
  | nil => rfl
  | cons b s ih => rw [chars, joinChar_flatten, ih]

theorem chars_cons_noncont (b : Byte) {s : Str} (h : startOk s) : chars (b :: s) = [b] :: chars s := by
  rw [chars, show startsCont s = false from h]
  cases chars s <;> rfl

theorem chars_append (a : Str) {b : Str} (hb : startOk b) : chars (a ++ b) = chars a ++ chars b := by
  induction a with
  | nil => rfl
  | cons x a ih =>
    cases a with
    | nil =>
      show chars (x :: b) = _
      rw [chars_cons_noncont x hb]; rfl
    | cons y a =>
      rw [cons_append, chars, ih, show chars (x :: y :: a) = joinChar x (startsCont (y :: a)) (chars (y :: a)) from rfl]
      have hs : startsCont (y :: a ++ b) = startsCont (y :: a) := rfl
      rw [hs]
      cases h : chars (y :: a) with
      | nil => exact absurd (chars_eq_nil.mp h) (by simp)
      | cons g gs =>
        simp only [joinChar, cons_append]
        split <;> rfl

theorem chars_length_cons (s : Str) (b : Byte) : (chars (b :: s)).length + s.countP isCont = s.length + 1 := by
  induction s generalizing b with
  | nil => rfl
  | cons c s ih =>
    have := ih c
    rw [chars]
    cases hc : chars (c :: s) with
    | nil => exact absurd (chars_eq_nil.mp hc) (by simp)
    | cons g gs =>
      rw [hc] at this
      simp only [joinChar, startsCont, countP_cons, length_cons] at this ⊢
      by_cases hcc : isCont c = true
      · simp [hcc]; omega
      · simp [hcc]; omega

theorem chars_length (s : Str) (h : startOk s) : (chars s).length + s.countP isCont = s.length := by
  cases s with
  | nil => rfl
  | cons b s =>
    have hb : isCont b = false := h
    have := chars_length_cons s b
    rw [countP_cons, hb, length_cons]
    simp; omega

theorem startOk_of_all {s : Str} (h : ∀ b ∈ s, isCont b = false) : startOk s := by
  cases s with
  | nil => rfl
  | cons b s => exact h b (by simp)

theorem chars_ascii {s : Str} (h : ∀ b ∈ s, isCont b = false) : chars s = s.map fun b => [b] := by
  induction s with
  | nil => rfl
  | cons b s ih =>
    have h' : ∀ b ∈ s, isCont b = false := fun c hc => h c (by simp [hc])
    rw [chars_cons_noncont b (startOk_of_all h'), ih h']
    rfl

theorem rfindSlash_eq (base name : Str) (h : ∀ b ∈ name, b ≠ 47#8) :
    rfindSlash (base ++ 47#8 :: name) = some base.length := by
  have : (base ++ 47#8 :: name).reverse.findIdx? (· = 47#8) = some name.length := by
    rw [List.findIdx?_eq_some_iff_getElem]
    refine ⟨by simp, ?_, ?_⟩
    · simp [List.getElem_append]
    · intro j hj
      have : j < name.reverse.length := by simpa using hj
      simp only [reverse_append, reverse_cons, append_assoc, List.getElem_append, this, dite_true]
      have := h (name.reverse[j]) (by
        have := List.getElem_mem this
        simpa using this)
      simpa using this
  unfold rfindSlash
  rw [this]
  simp

/-- The computed directory name: as many characters are lost as the base path has continuation bytes. -/
theorem dirNameOf_eq (base name : Str) (hb : startOk base) (hn : startOk name) (h : ∀ b ∈ name, b ≠ 47#8) :
    dirNameOf (base ++ 47#8 :: name) = some ((chars name).drop (base.countP isCont)).flatten := by
  unfold dirNameOf
  rw [rfindSlash_eq base name h]
  simp only [Option.map_some, Option.some.injEq]
  have h47 : startOk (47#8 :: name) := by show isCont 47#8 = false; decide
  have e1 : chars (base ++ 47#8 :: name) = chars base ++ [47#8] :: chars name := by
    rw [chars_append base h47, chars_cons_noncont 47#8 hn]
  have l1 := chars_length base hb
  have l2 := chars_length name hn
  rw [e1, show base.length + 1 = (chars base).length + (1 + base.countP isCont) by omega, ← List.drop_drop]
  rw [List.drop_left, ← List.drop_drop]
  simp only [drop_succ_cons, drop_zero]
  rw [List.take_of_length_le]
  simp
  omega

end Verif
