import Verif.Lemmas.Bits
import Verif.Spec.Bstream
/-! The bit stream model as a list of bits. -/
namespace Verif
open List

theorem Rep.len {s l} (h : Rep s l) : 8 * s.data.length = l.length + s.remaining := by
  have := congrArg List.length h.1
  simpa using this

theorem rep_new : Rep Bstream.new [] := by simp [Rep, Bstream.new]

theorem bitlen_rep (m : Mode) {s l} (h : Rep s l) : s.bitlen m = some l.length := by
  have := h.len
  simp only [Bstream.bitlen]
  rw [if_pos (by omega)]
  congr 1; omega

/-- Last byte of a partially filled stream. -/
theorem Rep.split {s l} (h : Rep s l) (hr : s.remaining ≠ 0) :
    ∃ init y A, s.data = init ++ [y] ∧ bitsOf y = A ++ replicate s.remaining false ∧ l = flat init ++ A ∧
      A.length = 8 - s.remaining := by
  have hlen := h.len
  have hne : s.data ≠ [] := by
    intro h0; simp [h0] at hlen; omega
  have h1 : s.data = s.data.dropLast ++ [s.data.getLast hne] := (List.dropLast_concat_getLast hne).symm
  obtain ⟨h2, h3⟩ := h
  rw [h1] at h2
  simp only [flat_append, flat_cons, flat_nil, List.append_nil] at h2
  have hdl : 8 * s.data.dropLast.length = 8 * s.data.length - 8 := by simp; omega
  have hll : 8 * s.data.dropLast.length ≤ l.length := by rw [hdl]; omega
  refine ⟨s.data.dropLast, s.data.getLast hne, l.drop (8 * s.data.dropLast.length), h1, ?_, ?_, ?_⟩
  · have := congrArg (List.drop (8 * s.data.dropLast.length)) h2
    rw [List.drop_left' (by simp)] at this
    rw [this, List.drop_append_of_le_length hll]
  · have := congrArg (List.take (8 * s.data.dropLast.length)) h2
    rw [List.take_left' (by simp)] at this
    rw [List.take_append_of_le_length hll] at this
    rw [this, List.take_append_drop]
  · simp only [List.length_drop, hdl]; omega

theorem orLast_append (init : List Byte) (y x : Byte) :
    Bstream.orLast (init ++ [y]) x = some (init ++ [y ||| x]) := by
  simp [Bstream.orLast]

theorem zipWith_or_zeros_right (a : List Bool) (n : Nat) (h : a.length = n) :
    zipWith (· || ·) a (replicate n false) = a := by
  subst h
  induction a with
  | nil => rfl
  | cons x xs ih => simp [replicate_succ] at *; exact ih

theorem zipWith_or_zeros_left (a : List Bool) (n : Nat) (h : a.length = n) :
    zipWith (· || ·) (replicate n false) a = a := by
  subst h
  induction a with
  | nil => rfl
  | cons x xs ih => simp [replicate_succ] at *; exact ih

theorem shl8_ok (m : Mode) (x : Byte) {k : Nat} (h : k < 8) : shl8 m x k = some (x <<< k) := by
  simp [shl8, h]
theorem shr8_ok (m : Mode) (x : Byte) {k : Nat} (h : k < 8) : shr8 m x k = some (x >>> k) := by
  simp [shr8, h]
theorem u8sub_ok (m : Mode) {a b : Nat} (h : b ≤ a) : u8sub m a b = some (a - b) := by
  simp [u8sub, h]

/-- OR of a byte with `r` free low bits with another byte shifted into them. -/
theorem bits_or_shift {y b : Byte} {A : List Bool} {r : Nat} (hy : bitsOf y = A ++ replicate r false)
    (hA : A.length = 8 - r) (hr : r < 8) :
    bitsOf (y ||| b >>> (8 - r)) = A ++ (bitsOf b).take r := by
  rw [bitsOf_or, hy, bitsOf_shr _ _ (by omega), show 8 - (8 - r) = r by omega]
  rw [zipWith_append (by simp [hA])]
  rw [zipWith_or_zeros_right _ _ hA, zipWith_or_zeros_left _ _ (by simp; omega)]

theorem bits_pair (a b : Byte) {r : Nat} (hr : r ≤ 8) :
    bitsOf (a <<< r ||| b >>> (8 - r)) = (bitsOf a).drop r ++ (bitsOf b).take r := by
  rw [bitsOf_or, bitsOf_shl _ _ (by omega), bitsOf_shr _ _ (by omega), show 8 - (8 - r) = r by omega]
  rw [zipWith_append (by simp)]
  rw [zipWith_or_zeros_right _ _ (by simp), zipWith_or_zeros_left _ _ (by simp; omega)]

theorem shiftPairs_ok (m : Mode) {r : Nat} (h0 : r ≠ 0) (hr : r < 8) (bs : List Byte) (hne : bs ≠ []) :
    ∃ p, Bstream.shiftPairs m r bs = some p ∧
      flat p ++ bitsOf ((bs.getLast hne) <<< r) = (flat bs).drop r ++ replicate r false := by
  induction bs with
  | nil => exact absurd rfl hne
  | cons a tl ih =>
    cases tl with
    | nil => exact ⟨[], rfl, by simp [bitsOf_shl _ _ (Nat.le_of_lt hr)]⟩
    | cons b rest =>
      obtain ⟨p, h1, h2⟩ := ih (by simp)
      refine ⟨(a <<< r ||| b >>> (8 - r)) :: p, ?_, ?_⟩
      · simp [Bstream.shiftPairs, shl8_ok m _ hr, u8sub_ok m (Nat.le_of_lt hr), shr8_ok m _ (show 8 - r < 8 by omega), h1]
      · rw [List.getLast_cons (by simp), flat_cons, List.append_assoc, h2, bits_pair _ _ (Nat.le_of_lt hr)]
        simp only [flat_cons]
        rw [List.drop_append_of_le_length (l₁ := bitsOf a) (by simp; omega),
          List.drop_append_of_le_length (l₁ := bitsOf b) (by simp; omega)]
        simp only [List.append_assoc]
        rw [← List.append_assoc (take r _), List.take_append_drop]

/-- `append` concatenates the bits, unless the appendee has several bytes and the two partial bytes do
not fit in one. -/
theorem append_rep (m : Mode) {s o : Bstream} {l k} (hs : Rep s l) (ho : Rep o k)
    (hc : s.remaining = 0 ∨ o.data.length ≤ 1 ∨ s.remaining + o.remaining < 8) :
    ∃ s', s.append m o = some s' ∧ Rep s' (l ++ k) := by
  simp only [Bstream.append, bitlen_rep m ho]
  by_cases hk : k.length = 0
  · have : k = [] := List.length_eq_zero_iff.mp hk
    subst this
    exact ⟨s, by simp, by simpa using hs⟩
  · have hol := ho.len
    by_cases hr : s.remaining = 0
    · refine ⟨{ data := s.data ++ o.data, remaining := o.remaining }, by simp [hk, hr], ?_⟩
      have h1 := hs.1
      simp only [hr, replicate_zero, append_nil] at h1
      exact ⟨by simp [h1, ho.1], ho.2⟩
    · obtain ⟨init, y, A, hd, hy, hl, hA⟩ := hs.split hr
      have hs2 := hs.2
      have ho2 := ho.2
      obtain ⟨b0, rest, hod⟩ : ∃ b0 rest, o.data = b0 :: rest := by
        cases hod : o.data with
        | nil => simp [hod] at hol; omega
        | cons a b => exact ⟨a, b, rfl⟩
      have hob := ho.1
      by_cases hle : k.length ≤ s.remaining
      · refine ⟨{ data := init ++ [y ||| b0 >>> (8 - s.remaining)], remaining := s.remaining - k.length }, ?_, ?_, ?_⟩
        · simp [hk, hr, u8sub_ok m (Nat.le_of_lt hs2), hod, shr8_ok m _ (show 8 - s.remaining < 8 by omega), hd,
            orLast_append, hle]
        · have : rest = [] := by
            simp [hod] at hol
            exact List.length_eq_zero_iff.mp (by omega)
          subst this
          simp only [hod, flat_cons, flat_nil, append_nil] at hob
          simp only [flat_append, flat_cons, flat_nil, append_nil, bits_or_shift hy hA hs2, hl, hob]
          rw [List.take_append, List.take_of_length_le hle, List.take_replicate]
          simp only [append_assoc]
          simp [hod] at hol
          rw [show min (s.remaining - k.length) o.remaining = s.remaining - k.length by omega]
        · simp only; omega
      · obtain ⟨p, hp1, hp2⟩ := shiftPairs_ok m hr hs2 o.data (by simp [hod])
        have hsum : s.remaining + o.remaining < 8 := by
          rcases hc with h | h | h
          · exact absurd h hr
          · omega
          · exact h
        refine ⟨{ data := init ++ [y ||| b0 >>> (8 - s.remaining)] ++ p ++ [(o.data.getLast (by simp [hod])) <<< s.remaining],
                  remaining := o.remaining + s.remaining }, ?_, ?_, ?_⟩
        · simp [hk, hr, u8sub_ok m (Nat.le_of_lt hs2), u8sub_ok m (Nat.le_of_lt ho2), hod,
            shr8_ok m _ (show 8 - s.remaining < 8 by omega), hd,
            orLast_append, hle]
          rw [hod] at hp1
          rw [hp1]
          have : s.remaining ≤ 8 - o.remaining := by omega
          have hg : (b0 :: rest).getLast? = some ((b0 :: rest).getLast (by simp)) := List.getLast?_eq_some_getLast _
          rw [hg]
          simp [this, shl8_ok m _ hs2]
        · simp only [flat_append, flat_cons, flat_nil, append_nil, bits_or_shift hy hA hs2, hl, append_assoc]
          rw [hp2, hob]
          rw [← append_assoc (take _ _)]
          have : take s.remaining (bitsOf b0) = take s.remaining (k ++ replicate o.remaining false) := by
            rw [← hob, hod, flat_cons, List.take_append_of_le_length (by simp; omega)]
          rw [this, List.take_append_drop, append_assoc, List.replicate_append_replicate]
        · simp only; omega

theorem write_rep (m : Mode) {s : Bstream} {l} (hs : Rep s l) (b : Bool) :
    ∃ s', s.write m b = some s' ∧ Rep s' (l ++ [b]) := by
  by_cases hr : s.remaining = 0
  · refine ⟨{ data := s.data ++ [if b then 0b10000000#8 else 0b00000000#8], remaining := 7 },
      by simp [Bstream.write, hr], ?_⟩
    have h1 := hs.1
    simp only [hr, replicate_zero, append_nil] at h1
    refine ⟨?_, by simp⟩
    simp only [flat_append, h1, flat_cons, flat_nil, append_nil, append_assoc]
    congr 1
    cases b <;> decide
  · obtain ⟨init, y, A, hd, hy, hl, hA⟩ := hs.split hr
    have hs2 := hs.2
    have hz : replicate s.remaining false = false :: replicate (s.remaining - 1) false := by
      conv => lhs; rw [show s.remaining = (s.remaining - 1) + 1 by omega]
      rw [List.replicate_succ]
    cases b with
    | false =>
      refine ⟨{ s with remaining := s.remaining - 1 }, by simp [Bstream.write, hr], ?_, ?_⟩
      · simp only [hs.1, hz]; simp
      · simp only; omega
    | true =>
      refine ⟨{ data := init ++ [y ||| 1#8 <<< (s.remaining - 1)], remaining := s.remaining - 1 }, ?_, ?_, ?_⟩
      · simp [Bstream.write, hr, shl8_ok m _ (show s.remaining - 1 < 8 by omega), hd, orLast_append]
      · simp only [flat_append, flat_cons, flat_nil, append_nil, hl, append_assoc]
        congr 1
        rw [bitsOf_or, hy]
        have : bitsOf (1#8 <<< (s.remaining - 1)) =
            replicate (8 - s.remaining) false ++ (true :: replicate (s.remaining - 1) false) := by
          have h8 : ∀ k : Fin 8, k.val ≠ 0 → bitsOf (1#8 <<< (k.val - 1)) =
            replicate (8 - k.val) false ++ (true :: replicate (k.val - 1) false) := by decide
          exact h8 ⟨s.remaining, hs2⟩ hr
        rw [this, zipWith_append (by simp [hA]), zipWith_or_zeros_right _ _ hA, hz]
        simp
      · simp only; omega

theorem appendBytes_rep (m : Mode) {s : Bstream} {l} (hs : Rep s l) (bs : List Byte) :
    ∃ s', s.appendBytes m bs 0 = some s' ∧ Rep s' (l ++ flat bs) := by
  simp only [Bstream.appendBytes]
  rw [if_pos (by omega)]
  exact append_rep m hs (o := { data := bs, remaining := 0 }) ⟨by simp, by simp⟩ (.inr (.inr (by simpa using hs.2)))

theorem appendByte_rep (m : Mode) {s : Bstream} {l k} (hs : Rep s l) (b : Byte) (r : Nat) (hr : r < 8)
    (hb : bitsOf b = k ++ replicate r false) :
    ∃ s', s.appendBytes m [b] r = some s' ∧ Rep s' (l ++ k) := by
  simp only [Bstream.appendBytes]
  rw [if_pos (by omega)]
  exact append_rep m hs (o := { data := [b], remaining := r }) ⟨by simp [hb], hr⟩ (.inr (.inl (by simp)))

theorem flat_drop (bs : List Byte) (k : Nat) : flat (bs.drop k) = (flat bs).drop (8 * k) := by
  induction k generalizing bs with
  | zero => simp
  | succ k ih =>
    cases bs with
    | nil => simp
    | cons b bs =>
      rw [List.drop_succ_cons, ih, flat_cons, List.drop_append, List.drop_of_length_le (l := bitsOf b) (by simp), bitsOf_length,
        show 8 * (k + 1) - 8 = 8 * k by omega]
      simp

/-- `write_bits` appends the low `n` bits of the word. -/
theorem writeBits_rep (m : Mode) {s : Bstream} {l} (hs : Rep s l) (v : U64) {n : Nat} (hn : 1 ≤ n) (hn2 : n ≤ 64) :
    ∃ s', s.writeBits m (toBE v) n = some s' ∧ Rep s' (l ++ (bitsOf v).drop (64 - n)) := by
  have hlt : (64 - n) / 8 < (toBE v).length := by simp; omega
  have hb : (toBE v)[(64 - n) / 8]? = some ((toBE v)[(64 - n) / 8]) := List.getElem?_eq_getElem hlt
  have hm : (64 - n) % 8 < 8 := Nat.mod_lt _ (by omega)
  obtain ⟨s1, h1, h2⟩ := appendByte_rep m hs ((toBE v)[(64 - n) / 8] <<< ((64 - n) % 8)) ((64 - n) % 8) hm
    (bitsOf_shl _ _ (by omega))
  obtain ⟨s2, h3, h4⟩ := appendBytes_rep m h2 ((toBE v).drop ((64 - n) / 8 + 1))
  refine ⟨s2, ?_, ?_⟩
  · simp [Bstream.writeBits, u8sub_ok m hn2, hb, shl8_ok m _ hm, h1, h3]
  · have key : flat ((toBE v).drop ((64 - n) / 8)) = bitsOf ((toBE v)[(64 - n) / 8]) ++ flat ((toBE v).drop ((64 - n) / 8 + 1)) := by
      rw [List.drop_eq_getElem_cons hlt, flat_cons]
    have : (bitsOf v).drop (64 - n) = (flat ((toBE v).drop ((64 - n) / 8))).drop ((64 - n) % 8) := by
      rw [flat_drop, flat_toBE, List.drop_drop]; congr 1; omega
    rw [this, key, List.drop_append_of_le_length (by simp; omega), ← append_assoc]
    exact h4

end Verif
