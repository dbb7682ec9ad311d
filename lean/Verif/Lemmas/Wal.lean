import Verif.Model.Wal
import Verif.Spec.Wal
import Verif.Lemmas.Bits
import Mathlib.Tactic.Common
/-! Lemmas for the write-ahead log: CRC and format. -/
namespace Verif

/-! ### CRC -/

theorem crcBit_getLsbD {w : Nat} (poly v : BitVec w) (i : Nat) :
    (crcBit poly v).getLsbD i = (v.getLsbD (i + 1) ^^ (v.getLsbD 0 && poly.getLsbD i)) := by
  unfold crcBit
  split
  · rename_i h
    rw [BitVec.getLsbD_xor, BitVec.getLsbD_ushiftRight, h, Nat.add_comm]; simp
  · rename_i h
    rw [BitVec.getLsbD_ushiftRight, Nat.add_comm]; simp [h]

theorem crcBit_xor {w : Nat} (poly u v : BitVec w) : crcBit poly (u ^^^ v) = crcBit poly u ^^^ crcBit poly v := by
  apply BitVec.eq_of_getLsbD_eq
  intro i hi
  simp only [crcBit_getLsbD, BitVec.getLsbD_xor]
  cases u.getLsbD (i+1) <;> cases v.getLsbD (i+1) <;> cases u.getLsbD 0 <;> cases v.getLsbD 0 <;> cases poly.getLsbD i <;> rfl

theorem crcBits_xor {w : Nat} (poly : BitVec w) (n : Nat) (u v : BitVec w) : crcBits poly n (u ^^^ v) = crcBits poly n u ^^^ crcBits poly n v := by
  induction n generalizing u v with
  | zero => rfl
  | succ n ih => rw [crcBits, crcBits, crcBits, crcBit_xor, ih]

theorem crcBit_inj {w : Nat} {poly : BitVec (w + 1)} (hp : poly.getLsbD w = true) {u v : BitVec (w + 1)} (h : crcBit poly u = crcBit poly v) : u = v := by
  have hg : ∀ i, (crcBit poly u).getLsbD i = (crcBit poly v).getLsbD i := fun i => by rw [h]
  simp only [crcBit_getLsbD] at hg
  have h0 : u.getLsbD 0 = v.getLsbD 0 := by
    have := hg w
    rw [hp, BitVec.getLsbD_of_ge u (w+1) (Nat.le_refl _), BitVec.getLsbD_of_ge v (w+1) (Nat.le_refl _)] at this
    simpa using this
  apply BitVec.eq_of_getLsbD_eq
  intro i hi
  cases i with
  | zero => exact h0
  | succ i =>
    have := hg i
    rw [h0] at this
    simpa using this

theorem crcBits_inj {w : Nat} {poly : BitVec (w + 1)} (hp : poly.getLsbD w = true) (n : Nat) {u v : BitVec (w + 1)}
    (h : crcBits poly n u = crcBits poly n v) : u = v := by
  induction n generalizing u v with
  | zero => exact h
  | succ n ih => exact crcBit_inj hp (ih h)

theorem crcBits_shift {w : Nat} (poly : BitVec w) (n : Nat) (v : BitVec w) (hn : ∀ i, w ≤ i + n → v.getLsbD i = false) :
    crcBits poly n (v <<< n) = v := by
  induction n generalizing v with
  | zero => simp [crcBits]
  | succ n ih =>
    rw [crcBits]
    have : crcBit poly (v <<< (n + 1)) = v <<< n := by
      apply BitVec.eq_of_getLsbD_eq
      intro i hi
      rw [crcBit_getLsbD]
      simp only [BitVec.getLsbD_shiftLeft]
      have e0 : (decide (0 < n + 1)) = true := by simp
      rw [e0]
      by_cases h1 : i < n
      · simp [h1]
      · have e : i + 1 - (n + 1) = i - n := by omega
        rw [e]
        have e2 : decide (i + 1 < n + 1) = decide (i < n) := by simp
        rw [e2]
        by_cases h2 : i + 1 < w
        · simp [h1, h2, hi]
        · have := hn (i - n) (by omega)
          simp [this]
    rw [this]
    exact ih v fun i hi => hn i (by omega)

theorem split_low {w : Nat} (u : BitVec w) : u = (u.setWidth 8).setWidth w ^^^ ((u >>> 8) <<< 8) := by
  apply BitVec.eq_of_getLsbD_eq
  intro i hi
  simp only [BitVec.getLsbD_xor, BitVec.getLsbD_setWidth, BitVec.getLsbD_shiftLeft, BitVec.getLsbD_ushiftRight]
  by_cases h : i < 8
  · simp [h, hi]
  · have : 8 + (i - 8) = i := by omega
    simp [h, hi, this]

theorem crcByte_eq {w : Nat} (poly : BitVec w) (v : BitVec w) (b : Byte) : crcByte poly v b = crcBits poly 8 (v ^^^ b.setWidth w) := by
  rw [split_low (v ^^^ b.setWidth w), crcBits_xor]
  have e2 : (v ^^^ b.setWidth w) >>> 8 = v >>> 8 := by
    apply BitVec.eq_of_getLsbD_eq
    intro i hi
    simp only [BitVec.getLsbD_ushiftRight, BitVec.getLsbD_xor, BitVec.getLsbD_setWidth]
    simp
  rw [e2, crcBits_shift]
  · unfold crcByte crcTable
    congr 1
    congr 1
    apply BitVec.eq_of_getLsbD_eq
    intro i hi
    simp only [BitVec.getLsbD_xor, BitVec.getLsbD_setWidth]
    by_cases h8 : i < 8
    · simp [hi, h8]
    · have := BitVec.getLsbD_of_ge b i (by omega)
      simp [hi, h8, this]
  · intro i hi
    rw [BitVec.getLsbD_ushiftRight]
    exact BitVec.getLsbD_of_ge _ _ (by omega)

theorem crcByte_inj_state {w : Nat} {poly : BitVec (w + 1)} (hp : poly.getLsbD w = true) {u v : BitVec (w + 1)} {b : Byte}
    (h : crcByte poly u b = crcByte poly v b) : u = v := by
  rw [crcByte_eq, crcByte_eq] at h
  have := crcBits_inj hp 8 h
  have e : (u ^^^ b.setWidth (w+1)) ^^^ b.setWidth (w+1) = (v ^^^ b.setWidth (w+1)) ^^^ b.setWidth (w+1) := by rw [this]
  simpa [BitVec.xor_assoc] using e

theorem crcFold_inj_state {w : Nat} {poly : BitVec (w + 1)} (hp : poly.getLsbD w = true) (bs : List Byte) {u v : BitVec (w + 1)}
    (h : bs.foldl (crcByte poly) u = bs.foldl (crcByte poly) v) : u = v := by
  induction bs generalizing u v with
  | nil => exact h
  | cons b bs ih => exact crcByte_inj_state hp (ih h)

theorem crcByte_inj_byte {w : Nat} (hw : 7 ≤ w) {poly : BitVec (w + 1)} (hp : poly.getLsbD w = true) {v : BitVec (w + 1)} {b c : Byte}
    (h : crcByte poly v b = crcByte poly v c) : b = c := by
  rw [crcByte_eq, crcByte_eq] at h
  have := crcBits_inj hp 8 h
  have e : v ^^^ (v ^^^ b.setWidth (w+1)) = v ^^^ (v ^^^ c.setWidth (w+1)) := by rw [this]
  simp only [← BitVec.xor_assoc, BitVec.xor_self, BitVec.zero_xor] at e
  apply BitVec.eq_of_getLsbD_eq
  intro i hi
  have e' : (b.setWidth (w+1)).getLsbD i = (c.setWidth (w+1)).getLsbD i := by rw [e]
  simp only [BitVec.getLsbD_setWidth] at e'
  have : i < w + 1 := by omega
  simpa [this] using e'

theorem crcUpdate_append {w : Nat} (poly v : BitVec w) (a b : List Byte) : crcUpdate poly v (a ++ b) = crcUpdate poly (crcUpdate poly v a) b := by
  unfold crcUpdate
  rw [List.foldl_append, BitVec.not_not]

theorem crcUpdate_nil {w : Nat} (poly v : BitVec w) : crcUpdate poly v [] = v := by
  unfold crcUpdate; simp

/-! ### Numbers -/

theorem beNat_beBytes (n x : Nat) (h : x < 256 ^ n) : beNat (beBytes n x) = x := by
  rw [beNat_eq, natOf_flat_beBytes, Nat.mod_eq_of_lt]
  rw [Nat.pow_mul]; exact h

/-! ### Format -/

/-- The bytes of a record. -/
def recordBytes (crc : List Byte → BitVec 32) (r : Record) : List Byte :=
  toBE r.seqId ++ [r.type] ++ beBytes 2 r.content.length ++ r.content ++ beBytes 4 (crc r.content).toNat

theorem recordBytes_length (crc : List Byte → BitVec 32) (r : Record) : (recordBytes crc r).length = 15 + r.content.length := by
  simp only [recordBytes, List.length_append, toBE_length, beBytes_length, List.length_cons, List.length_nil]; omega

theorem readRecord_bytes (crc : List Byte → BitVec 32) (r : Record) (hl : r.content.length < 65536) (rest : List Byte) :
    readRecord crc (recordBytes crc r ++ rest) = some (r, rest) := by
  have hlen := recordBytes_length crc r
  unfold readRecord
  rw [if_neg (by simp only [List.length_append]; omega)]
  have d9 : (recordBytes crc r ++ rest).drop 9 = beBytes 2 r.content.length ++ (r.content ++ (beBytes 4 (crc r.content).toNat ++ rest)) := by
    have : recordBytes crc r ++ rest = (toBE r.seqId ++ [r.type]) ++ (beBytes 2 r.content.length ++ (r.content ++ (beBytes 4 (crc r.content).toNat ++ rest))) := by
      simp [recordBytes]
    rw [this, List.drop_left' (by simp)]
  have hn : beNat (((recordBytes crc r ++ rest).drop 9).take 2) = r.content.length := by
    rw [d9, List.take_left' (beBytes_length _ _), beNat_beBytes _ _ (by simpa using hl)]
  simp only [hn]
  rw [if_neg (by simp only [List.length_append]; omega)]
  have d11 : (recordBytes crc r ++ rest).drop 11 = r.content ++ (beBytes 4 (crc r.content).toNat ++ rest) := by
    have : (recordBytes crc r ++ rest).drop 11 = ((recordBytes crc r ++ rest).drop 9).drop 2 := by rw [List.drop_drop]
    rw [this, d9, List.drop_left' (beBytes_length _ _)]
  have dc : (recordBytes crc r ++ rest).drop (11 + r.content.length) = beBytes 4 (crc r.content).toNat ++ rest := by
    rw [← List.drop_drop, d11, List.drop_left' rfl]
  have dr : (recordBytes crc r ++ rest).drop (11 + r.content.length + 4) = rest := by
    rw [← List.drop_drop, dc, List.drop_left' (beBytes_length _ _)]
  rw [d11, dc, dr, List.take_left' rfl, List.take_left' (beBytes_length _ _), beNat_beBytes _ _ (by have := (crc r.content).isLt; norm_num; omega)]
  rw [if_pos rfl]
  have t8 : (recordBytes crc r ++ rest).take 8 = toBE r.seqId := by
    have : recordBytes crc r ++ rest = toBE r.seqId ++ ([r.type] ++ (beBytes 2 r.content.length ++ (r.content ++ (beBytes 4 (crc r.content).toNat ++ rest)))) := by
      simp [recordBytes]
    rw [this, List.take_left' (by simp)]
  have d8 : (recordBytes crc r ++ rest).drop 8 = r.type :: (beBytes 2 r.content.length ++ (r.content ++ (beBytes 4 (crc r.content).toNat ++ rest))) := by
    have : recordBytes crc r ++ rest = toBE r.seqId ++ (r.type :: (beBytes 2 r.content.length ++ (r.content ++ (beBytes 4 (crc r.content).toNat ++ rest)))) := by
      simp [recordBytes]
    rw [this, List.drop_left' (by simp)]
  rw [t8, d8]
  have : BitVec.ofNat 64 (beNat (toBE r.seqId)) = r.seqId := by
    unfold toBE
    rw [beNat_beBytes _ _ (by have := r.seqId.isLt; norm_num; omega)]; simp
  rw [this]; rfl

/-- A proper prefix of a record cannot be read. -/
theorem readRecord_torn (crc : List Byte → BitVec 32) (r : Record) (hl : r.content.length < 65536) (k : Nat) (hk : k < (recordBytes crc r).length) :
    readRecord crc ((recordBytes crc r).take k) = none := by
  rw [recordBytes_length] at hk
  have hlen : ((recordBytes crc r).take k).length = k := by rw [List.length_take, recordBytes_length]; omega
  unfold readRecord
  by_cases h11 : k < 11
  · rw [if_pos (by omega)]
  · rw [if_neg (by omega)]
    have hn : beNat ((((recordBytes crc r).take k).drop 9).take 2) = r.content.length := by
      have e : (((recordBytes crc r).take k).drop 9).take 2 = ((recordBytes crc r).drop 9).take 2 := by
        rw [List.drop_take, List.take_take]; congr 1; omega
      have d9 : (recordBytes crc r).drop 9 = beBytes 2 r.content.length ++ (r.content ++ beBytes 4 (crc r.content).toNat) := by
        have : recordBytes crc r = (toBE r.seqId ++ [r.type]) ++ (beBytes 2 r.content.length ++ (r.content ++ beBytes 4 (crc r.content).toNat)) := by
          simp [recordBytes]
        rw [this, List.drop_left' (by simp)]
      rw [e, d9, List.take_left' (beBytes_length _ _), beNat_beBytes _ _ (by simpa using hl)]
    simp only [hn]
    rw [if_pos (by omega)]

theorem readRecord_nil (crc : List Byte → BitVec 32) : readRecord crc [] = none := rfl

theorem readRecord_rest {crc : List Byte → BitVec 32} {bs rest : List Byte} {r : Record} (h : readRecord crc bs = some (r, rest)) :
    rest.length + 15 ≤ bs.length := by
  unfold readRecord at h
  split at h
  · cases h
  · simp only [] at h
    split at h
    · cases h
    · split at h
      · simp only [Option.some.injEq, Prod.mk.injEq] at h
        rw [← h.2, List.length_drop]; omega
      · cases h

theorem readLogN_fuel (crc : List Byte → BitVec 32) (n m : Nat) (bs : List Byte) (hn : bs.length ≤ n) (hm : bs.length ≤ m) :
    readLogN crc n bs = readLogN crc m bs := by
  induction n generalizing m bs with
  | zero =>
    have : bs = [] := List.length_eq_zero_iff.mp (by omega)
    subst this
    cases m with
    | zero => rfl
    | succ m => rfl
  | succ n ih =>
    cases m with
    | zero =>
      have : bs = [] := List.length_eq_zero_iff.mp (by omega)
      subst this
      rfl
    | succ m =>
      rw [readLogN, readLogN]
      rcases h : readRecord crc bs with _ | ⟨r, rest⟩
      · rfl
      · have := readRecord_rest h
        simp only []
        rw [ih m rest (by omega) (by omega)]

/-- Reading any prefix of a log: the records wholly contained in it. -/
theorem readLogN_take (crc : List Byte → BitVec 32) (rs : List Record) (hl : ∀ r ∈ rs, r.content.length < 65536) (k n : Nat)
    (hn : rs.length ≤ n) :
    ∃ m, readLogN crc n ((rs.flatMap (recordBytes crc)).take k) = rs.take m ∧
      ((rs.take m).flatMap (recordBytes crc)).length ≤ k ∧
      ∀ j, ((rs.take j).flatMap (recordBytes crc)).length ≤ k → (rs.take j).length ≤ m := by
  induction rs generalizing k n with
  | nil =>
    refine ⟨0, ?_, by simp, by simp⟩
    cases n with
    | zero => rfl
    | succ n => simp [readLogN, readRecord_nil]
  | cons r rs ih =>
    have hr := hl r (by simp)
    cases n with
    | zero => simp at hn
    | succ n =>
      by_cases hk : k < (recordBytes crc r).length
      · refine ⟨0, ?_, by simp, ?_⟩
        · rw [List.flatMap_cons, List.take_append_of_le_length (Nat.le_of_lt hk), readLogN, readRecord_torn crc r hr k hk]; simp
        · intro j hj
          cases j with
          | zero => simp
          | succ j => rw [List.take_succ_cons, List.flatMap_cons, List.length_append] at hj; omega
      · obtain ⟨m, h1, h2, h3⟩ := ih (fun x hx => hl x (by simp [hx])) (k - (recordBytes crc r).length) n (by simpa using hn)
        refine ⟨m + 1, ?_, ?_, ?_⟩
        · rw [List.flatMap_cons, List.take_append, List.take_of_length_le (Nat.le_of_not_lt hk), readLogN, readRecord_bytes crc r hr]
          simp only []
          rw [h1]; rfl
        · rw [List.take_succ_cons, List.flatMap_cons, List.length_append]; omega
        · intro j hj
          cases j with
          | zero => simp
          | succ j =>
            rw [List.take_succ_cons, List.flatMap_cons, List.length_append] at hj
            have := h3 j (by omega)
            rw [List.take_succ_cons, List.length_cons]; omega

theorem readLog_take (crc : List Byte → BitVec 32) (rs : List Record) (hl : ∀ r ∈ rs, r.content.length < 65536) (k : Nat) :
    ∃ m, readLog crc ((rs.flatMap (recordBytes crc)).take k) = rs.take m ∧
      ((rs.take m).flatMap (recordBytes crc)).length ≤ k ∧
      ∀ j, ((rs.take j).flatMap (recordBytes crc)).length ≤ k → (rs.take j).length ≤ m := by
  obtain ⟨m, h1, h2⟩ := readLogN_take crc rs hl k (max rs.length ((rs.flatMap (recordBytes crc)).take k).length) (Nat.le_max_left _ _)
  refine ⟨m, ?_, h2⟩
  rw [← h1]
  exact readLogN_fuel crc _ _ _ (Nat.le_refl _) (Nat.le_max_right _ _)

theorem readLog_all (crc : List Byte → BitVec 32) (rs : List Record) (hl : ∀ r ∈ rs, r.content.length < 65536) :
    readLog crc (rs.flatMap (recordBytes crc)) = rs := by
  obtain ⟨m, h1, -, h3⟩ := readLog_take crc rs hl (rs.flatMap (recordBytes crc)).length
  rw [List.take_length] at h1
  rw [h1]
  have := h3 rs.length (by rw [List.take_length])
  rw [List.take_length] at this
  exact List.take_of_length_le this

end Verif
