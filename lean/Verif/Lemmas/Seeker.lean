import Verif.Lemmas.Bstream
/-! Reading bits back. -/
namespace Verif
open List

/-- The bits a stream holds. -/
def Bstream.bitsIn (s : Bstream) : List Bool := (flat s.data).take (8 * s.data.length - s.remaining)

theorem Rep.bitsIn {s l} (h : Rep s l) : s.bitsIn = l := by
  have := h.len
  rw [Bstream.bitsIn, h.1, List.take_append_of_le_length (by omega), List.take_of_length_le (by omega)]

/-- The counter of free bits does not exceed the number of bits. -/
def Bstream.Ok (s : Bstream) : Prop := s.remaining ≤ 8 * s.data.length

theorem Rep.ok {s l} (h : Rep s l) : s.Ok := by
  have := h.len; unfold Bstream.Ok; omega

theorem bitsIn_length {s : Bstream} : s.bitsIn.length = 8 * s.data.length - s.remaining := by
  simp [Bstream.bitsIn]

theorem bitlen_ok (m : Mode) {s : Bstream} (h : s.Ok) : s.bitlen m = some s.bitsIn.length := by
  unfold Bstream.Ok at h
  simp only [Bstream.bitlen, bitsIn_length]
  rw [if_pos (by omega)]
  congr 1; omega

theorem mask_shift (x : Byte) (k : Nat) : (x &&& (0xff#8 >>> k)) <<< k = x <<< k := by
  apply BitVec.eq_of_getLsbD_eq
  intro i hi
  simp only [BitVec.getLsbD_shiftLeft, BitVec.getLsbD_and, BitVec.getLsbD_ushiftRight, hi]
  by_cases h1 : i < k
  · simp [h1]
  · have : (255#8).getLsbD (k + (i - k)) = true := by
      have h8 : ∀ j : Fin 8, (255#8).getLsbD j.val = true := by decide
      exact h8 ⟨k + (i - k), by omega⟩
    simp [h1, this]

theorem readLoop_ok (s : Bstream) {ld : Nat} (hld : ld < 8) (k pos : Nat) (hk : pos + k ≤ s.data.length) :
    ∃ vals, Seeker.readLoop s ld pos k = some vals ∧ vals.length = k ∧
      flat vals = ((flat s.data).drop (8 * pos + ld) ++ replicate ld false).take (8 * k) := by
  induction k generalizing pos with
  | zero => exact ⟨[], rfl, rfl, by simp⟩
  | succ k ih =>
    obtain ⟨vals, h1, h2, h3⟩ := ih (pos + 1) (by omega)
    have hp : pos < s.data.length := by omega
    -- the byte that the loop computes
    have hbyte : ∀ b2 : Byte, bitsOf (((s.data[pos] &&& (0xff#8 >>> ld)) <<< ld) |||
        (if 8 - ld < 8 then b2 >>> (8 - ld) else 0#8)) = (bitsOf s.data[pos]).drop ld ++ (bitsOf b2).take ld := by
      intro b2
      rw [mask_shift]
      by_cases h0 : ld = 0
      · subst h0
        simp
      · rw [if_pos (by omega), bits_pair _ _ (by omega)]
    have hdrop : (flat s.data).drop (8 * pos) = bitsOf s.data[pos] ++ (flat s.data).drop (8 * (pos + 1)) := by
      rw [← flat_drop, ← flat_drop, List.drop_eq_getElem_cons hp, flat_cons]
    have hd2 : (flat s.data).drop (8 * pos + ld) = (bitsOf s.data[pos]).drop ld ++ (flat s.data).drop (8 * (pos + 1)) := by
      rw [← List.drop_drop, hdrop, List.drop_append_of_le_length (by simp; omega)]
    refine ⟨(((s.data[pos] &&& (0xff#8 >>> ld)) <<< ld) |||
        (if 8 - ld < 8 then ((s.data[pos+1]?).getD 0#8) >>> (8 - ld) else 0#8)) :: vals, ?_, by simp [h2], ?_⟩
    · simp only [Seeker.readLoop, Bstream.readByte, List.getElem?_eq_getElem hp, h1]
      rfl
    · rw [flat_cons, h3, hbyte]
      -- the tail of the stream after this byte
      have key : ∃ T, (flat s.data).drop (8 * (pos + 1)) ++ replicate ld false =
          (bitsOf ((s.data[pos+1]?).getD 0#8)).take ld ++ T ∧
          T.take (8 * k) = ((flat s.data).drop (8 * (pos + 1) + ld) ++ replicate ld false).take (8 * k) := by
        by_cases hp1 : pos + 1 < s.data.length
        · refine ⟨(flat s.data).drop (8 * (pos + 1) + ld) ++ replicate ld false, ?_, rfl⟩
          rw [List.getElem?_eq_getElem hp1]
          have e : (flat s.data).drop (8 * (pos + 1)) = bitsOf s.data[pos+1] ++ (flat s.data).drop (8 * (pos + 2)) := by
            rw [← flat_drop, ← flat_drop, List.drop_eq_getElem_cons hp1, flat_cons]
          rw [← List.drop_drop, e, List.drop_append_of_le_length (by simp; omega)]
          simp only [Option.getD_some, append_assoc]
          rw [← append_assoc (take _ _), List.take_append_drop]
        · have hk0 : k = 0 := by omega
          subst hk0
          refine ⟨[], ?_, by simp⟩
          rw [List.drop_of_length_le (by simp; omega), List.getElem?_eq_none (by omega)]
          simp only [Option.getD_none, bitsOf_zero, List.take_replicate, nil_append, append_nil]
          congr 1; omega
      obtain ⟨T, hT1, hT2⟩ := key
      have hl8 : (drop ld (bitsOf s.data[pos]) ++ take ld (bitsOf ((s.data[pos+1]?).getD 0#8))).length = 8 := by
        simp; omega
      rw [hd2, append_assoc (drop ld (bitsOf s.data[pos])) (drop _ (flat s.data)), hT1, ← append_assoc, ← hT2]
      generalize drop ld (bitsOf s.data[pos]) ++ take ld (bitsOf ((s.data[pos+1]?).getD 0#8)) = X at *
      rw [List.take_append (l₁ := X), List.take_of_length_le (l := X) (by omega), hl8]
      rfl

/-- `read_next_n_bit` past the end reads nothing. -/
theorem read_past (m : Mode) {sk : Seeker} (hok : sk.data.Ok) (buf : List Byte) (n : Nat)
    (h : sk.cursor > sk.data.bitsIn.length) : sk.readNextNBit m buf n = some (buf, 0, sk) := by
  simp [Seeker.readNextNBit, bitlen_ok m hok, h]

theorem mask_bits (x : Byte) {j : Nat} (h : j ≤ 8) :
    bitsOf ((0xff#8 <<< (8 - j)) &&& x) = (bitsOf x).take j ++ replicate (8 - j) false := by
  rw [bitsOf_and, bitsOf_shl _ _ (by omega)]
  apply List.ext_getElem
  · simp; omega
  · intro i h1 h2
    have hi : i < 8 := by simp at h2; omega
    have hff : ∀ q (hq : q < (bitsOf (0xff#8)).length), (bitsOf (0xff#8))[q] = true := by decide
    rw [List.getElem_zipWith, List.getElem_append, List.getElem_append]
    simp only [List.length_drop, bitsOf_length, List.length_take]
    by_cases hj : i < j
    · rw [dif_pos (by omega), dif_pos (by omega), List.getElem_drop, hff]
      simp
    · rw [dif_neg (by omega), dif_neg (by omega)]
      simp

/-- `read_next_n_bit` returns the next bits, at most as many as there are. -/
theorem read_ok (m : Mode) {sk : Seeker} (hok : sk.data.Ok) (buf : List Byte) (n : Nat)
    (hn : n ≤ 8 * buf.length) (hc : sk.cursor ≤ sk.data.bitsIn.length) :
    ∃ vals n', n' = min n (sk.data.bitsIn.length - sk.cursor) ∧
      sk.readNextNBit m buf n = some (vals ++ buf.drop ((n' + 7) / 8), n', { sk with cursor := sk.cursor + n' }) ∧
      vals.length = (n' + 7) / 8 ∧
      flat vals = (sk.data.bitsIn.drop sk.cursor).take n' ++ replicate (8 * ((n' + 7) / 8) - n') false := by
  have hlen := bitsIn_length (s := sk.data)
  unfold Bstream.Ok at hok
  generalize hn' : min n (sk.data.bitsIn.length - sk.cursor) = n'
  have hk : sk.cursor / 8 + (n' + 7) / 8 ≤ sk.data.data.length := by omega
  obtain ⟨vals, h1, h2, h3⟩ := readLoop_ok sk.data (ld := sk.cursor % 8) (Nat.mod_lt _ (by omega)) ((n' + 7) / 8) (sk.cursor / 8) hk
  rw [show 8 * (sk.cursor / 8) + sk.cursor % 8 = sk.cursor by omega] at h3
  have hsel : (if sk.cursor + n > sk.data.bitsIn.length then sk.data.bitsIn.length - sk.cursor else n) = n' := by
    split <;> omega
  have hkb : ¬ ((n' + 7) / 8 > buf.length) := by omega
  refine ⟨(match vals.getLast? with
      | none => vals
      | some x => vals.dropLast ++ [(if n' % 8 ≠ 0 then 0xff#8 <<< (8 - n' % 8) else 0xff#8) &&& x]), n', rfl, ?_, ?_, ?_⟩
  · simp only [Seeker.readNextNBit, bitlen_ok m (show sk.data.Ok from hok)]
    simp only [hsel, h1, Option.bind_eq_bind, Option.bind_some, hkb, if_false, show ¬ (sk.cursor > sk.data.bitsIn.length) by omega]
    rfl
  · cases hg : vals.getLast? with
    | none => simpa using h2
    | some x =>
      have : vals ≠ [] := by intro h0; simp [h0] at hg
      have : 0 < vals.length := List.length_pos_iff.mpr this
      simp; omega
  · cases hg : vals.getLast? with
    | none =>
      have : vals = [] := by simpa using hg
      subst this
      have hn0 : n' = 0 := by simp at h2; omega
      simp [hn0]
    | some x =>
      have hne : vals ≠ [] := by intro h0; simp [h0] at hg
      have hx : vals.getLast hne = x := by
        rw [List.getLast?_eq_some_getLast hne] at hg; simpa using hg
      have hpos : 0 < vals.length := List.length_pos_iff.mpr hne
      have hv : vals = vals.dropLast ++ [x] := by rw [← hx, List.dropLast_concat_getLast]
      have hj : ∃ j, j ≤ 8 ∧ 8 * ((n' + 7) / 8) - n' = 8 - j ∧
          (if n' % 8 ≠ 0 then 0xff#8 <<< (8 - n' % 8) else 0xff#8) = (0xff#8 <<< (8 - j)) ∧
          n' = 8 * vals.dropLast.length + j := by
        by_cases h0 : n' % 8 = 0
        · exact ⟨8, by omega, by omega, by simp [h0], by simp; omega⟩
        · exact ⟨n' % 8, by omega, by omega, by simp [h0], by simp; omega⟩
      obtain ⟨j, hj8, hj1, hj2, hj3⟩ := hj
      simp only [flat_append, flat_cons, flat_nil, append_nil]
      rw [hj2, mask_bits _ hj8, hj1, ← append_assoc]
      congr 1
      have e1 : flat vals.dropLast ++ take j (bitsOf x) = (flat vals).take n' := by
        conv => rhs; rw [hv, flat_append]
        rw [List.take_append, List.take_of_length_le (l := flat vals.dropLast) (by simp at hj3 ⊢; omega), hj3]
        simp
      rw [e1, h3, List.take_take, show min n' (8 * ((n' + 7) / 8)) = n' by omega]
      rw [Bstream.bitsIn, List.drop_take, List.take_take, List.take_append_of_le_length]
      · congr 1; omega
      · simp; omega

/-- Reading into a zeroed buffer. -/
theorem read_zeros (m : Mode) {sk : Seeker} (hok : sk.data.Ok) (B : Nat) (n : Nat)
    (hn : n ≤ 8 * B) (hc : sk.cursor ≤ sk.data.bitsIn.length) :
    ∃ buf n', n' = min n (sk.data.bitsIn.length - sk.cursor) ∧
      sk.readNextNBit m (replicate B 0#8) n = some (buf, n', { sk with cursor := sk.cursor + n' }) ∧
      buf.length = B ∧ flat buf = (sk.data.bitsIn.drop sk.cursor).take n' ++ replicate (8 * B - n') false := by
  obtain ⟨vals, n', h1, h2, h3, h4⟩ := read_ok m hok (replicate B 0#8) n (by simpa using hn) hc
  have hz : ∀ q, flat (replicate q (0#8)) = replicate (8 * q) false := by
    intro q
    induction q with
    | zero => rfl
    | succ q ih =>
      rw [replicate_succ, flat_cons, ih, bitsOf_zero, List.replicate_append_replicate]; congr 1; omega
  refine ⟨_, n', h1, h2, ?_, ?_⟩
  · simp [h3]; omega
  · simp only [flat_append, h4, List.drop_replicate, hz, append_assoc, List.replicate_append_replicate]
    congr 2; omega

end Verif
