import Verif.Lemmas.Wal
/-! The CRC read bit by bit, and bursts. -/
namespace Verif

/-- A bit as a register. -/
def bitVal (w : Nat) (b : Bool) : BitVec w := if b then 1#w else 0#w

/-- The register after one input bit. -/
def crcStep {w : Nat} (poly v : BitVec w) (b : Bool) : BitVec w := crcBit poly (v ^^^ bitVal w b)

/-- The number with these bits, low bit first. -/
def bitsWord (w : Nat) : List Bool → BitVec w
  | [] => 0#w
  | b :: bs => bitVal w b ^^^ (bitsWord w bs <<< 1)

theorem bitVal_getLsbD {w : Nat} (b : Bool) (i : Nat) (hi : i < w) : (bitVal w b).getLsbD i = (b && decide (i = 0)) := by
  cases b
  · simp [bitVal]
  · cases i <;> simp [bitVal, BitVec.getLsbD_one, hi] <;> omega

theorem bitsWord_getLsbD {w : Nat} (l : List Bool) (i : Nat) (hi : i < w) : (bitsWord w l).getLsbD i = l.getD i false := by
  induction l generalizing i with
  | nil => simp [bitsWord]
  | cons b bs ih =>
    rw [bitsWord, BitVec.getLsbD_xor, bitVal_getLsbD b i hi, BitVec.getLsbD_shiftLeft]
    cases i with
    | zero => simp
    | succ i => simp [hi, ih i (by omega)]

theorem bitsWord_inj {w : Nat} {a b : List Bool} (hl : a.length = b.length) (hw : a.length ≤ w) (h : bitsWord w a = bitsWord w b) : a = b := by
  apply List.ext_getElem hl
  intro i h1 h2
  have := congrArg (fun x => x.getLsbD i) h
  simp only [bitsWord_getLsbD _ i (by omega : i < w)] at this
  simpa [List.getD_eq_getElem?_getD, h1, h2] using this

theorem crcStep_fold {w : Nat} (poly : BitVec w) (l : List Bool) (hl : l.length ≤ w) (v : BitVec w) :
    l.foldl (crcStep poly) v = crcBits poly l.length (v ^^^ bitsWord w l) := by
  induction l generalizing v with
  | nil => simp [crcBits, bitsWord]
  | cons b bs ih =>
    simp only [List.length_cons] at hl
    rw [List.foldl_cons, ih (by omega), List.length_cons, crcBits, bitsWord, ← BitVec.xor_assoc, crcBit_xor]
    congr 1
    unfold crcStep
    congr 1
    have := crcBits_shift poly 1 (bitsWord w bs) (by
      intro i hi
      by_cases h : i < w
      · rw [bitsWord_getLsbD _ _ h]
        simp only [List.getD_eq_getElem?_getD]
        rw [List.getElem?_eq_none (by omega)]; rfl
      · exact BitVec.getLsbD_of_ge _ _ (by omega))
    exact this.symm

theorem crcStep_inj_state {w : Nat} {poly : BitVec (w + 1)} (hp : poly.getLsbD w = true) (l : List Bool) {u v : BitVec (w + 1)}
    (h : l.foldl (crcStep poly) u = l.foldl (crcStep poly) v) : u = v := by
  induction l generalizing u v with
  | nil => exact h
  | cons b bs ih =>
    have h1 : u ^^^ bitVal (w + 1) b = v ^^^ bitVal (w + 1) b := crcBit_inj hp (ih h)
    have e : (u ^^^ bitVal (w + 1) b) ^^^ bitVal (w + 1) b = (v ^^^ bitVal (w + 1) b) ^^^ bitVal (w + 1) b := by rw [h1]
    simpa [BitVec.xor_assoc] using e

theorem bitsWord_wire {w : Nat} (hw : 8 ≤ w) (b : Byte) : bitsWord w (wireBits [b]) = b.setWidth w := by
  apply BitVec.eq_of_getLsbD_eq
  intro i hi
  rw [bitsWord_getLsbD _ _ hi, BitVec.getLsbD_setWidth]
  by_cases h : i < 8
  · have : i = 0 ∨ i = 1 ∨ i = 2 ∨ i = 3 ∨ i = 4 ∨ i = 5 ∨ i = 6 ∨ i = 7 := by omega
    rcases this with h | h | h | h | h | h | h | h <;> subst h <;> simp [wireBits, hi]
  · rw [BitVec.getLsbD_of_ge b i (by omega)]
    simp only [List.getD_eq_getElem?_getD]
    rw [List.getElem?_eq_none (by simp [wireBits]; omega)]
    simp

theorem wireBits_cons (b : Byte) (bs : List Byte) : wireBits (b :: bs) = wireBits [b] ++ wireBits bs := by simp [wireBits]

theorem crcFold_bits {w : Nat} (hw : 8 ≤ w) (poly : BitVec w) (bs : List Byte) (v : BitVec w) :
    bs.foldl (crcByte poly) v = (wireBits bs).foldl (crcStep poly) v := by
  induction bs generalizing v with
  | nil => rfl
  | cons b bs ih =>
    have hl : (wireBits [b]).length = 8 := by simp [wireBits]
    rw [List.foldl_cons, ih, wireBits_cons, List.foldl_append]
    congr 1
    rw [crcStep_fold poly _ (by omega), hl, bitsWord_wire hw, crcByte_eq]

theorem wireBits_length (bs : List Byte) : (wireBits bs).length = 8 * bs.length := by
  induction bs with
  | nil => rfl
  | cons b bs ih => rw [wireBits_cons, List.length_append, ih]; simp [wireBits]; omega

theorem wireBits_inj {xs ys : List Byte} (h : wireBits xs = wireBits ys) : xs = ys := by
  induction xs generalizing ys with
  | nil =>
    cases ys with
    | nil => rfl
    | cons y ys => simp [wireBits] at h
  | cons x xs ih =>
    cases ys with
    | nil => simp [wireBits] at h
    | cons y ys =>
      rw [wireBits_cons, wireBits_cons y] at h
      obtain ⟨h1, h2⟩ := List.append_inj h (by simp [wireBits])
      rw [ih h2]
      have := bitsWord_wire (w := 8) (by omega) x
      rw [h1, bitsWord_wire (by omega)] at this
      simp only [BitVec.setWidth_eq] at this
      rw [this]

/-- Bursts no longer than the register are detected, from every register value. -/
theorem crc_burst {w : Nat} (hw : 7 ≤ w) {poly : BitVec (w + 1)} (hp : poly.getLsbD w = true) {xs ys : List Byte} {p a b q : List Bool}
    (hx : wireBits xs = p ++ a ++ q) (hy : wireBits ys = p ++ b ++ q) (hl : a.length = b.length) (hs : a.length ≤ w + 1)
    (v : BitVec (w + 1)) (h : crcUpdate poly v xs = crcUpdate poly v ys) : xs = ys := by
  unfold crcUpdate at h
  have h := congrArg (fun x => ~~~ x) h
  simp only [BitVec.not_not] at h
  rw [crcFold_bits (by omega), crcFold_bits (by omega), hx, hy] at h
  simp only [List.foldl_append] at h
  have h := crcStep_inj_state hp q h
  generalize p.foldl (crcStep poly) (~~~ v) = u at h
  rw [crcStep_fold poly _ hs, crcStep_fold poly _ (hl ▸ hs), hl] at h
  have h := crcBits_inj hp _ h
  have e : u ^^^ (u ^^^ bitsWord (w + 1) a) = u ^^^ (u ^^^ bitsWord (w + 1) b) := by rw [h]
  simp only [← BitVec.xor_assoc, BitVec.xor_self, BitVec.zero_xor] at e
  have hab : a = b := bitsWord_inj hl hs e
  apply wireBits_inj
  rw [hx, hy, hab]

theorem burst_parts {n : Nat} {xs ys : List Byte} (h : BurstWithin n xs ys) :
    ∃ p a b q, wireBits xs = p ++ a ++ q ∧ wireBits ys = p ++ b ++ q ∧ a.length = b.length ∧ a.length ≤ n := by
  obtain ⟨-, hl, s, hs⟩ := h
  have hbl : (wireBits xs).length = (wireBits ys).length := by rw [wireBits_length, wireBits_length, hl]
  generalize wireBits xs = u at *
  generalize wireBits ys = v at *
  have h1 : u.take s = v.take s := by
    apply List.ext_getElem?
    intro i
    rw [List.getElem?_take, List.getElem?_take]
    split
    · by_contra hc
      have := hs i hc; omega
    · rfl
  have h2 : u.drop (s + n) = v.drop (s + n) := by
    apply List.ext_getElem?
    intro i
    rw [List.getElem?_drop, List.getElem?_drop]
    by_contra hc
    have := hs _ hc; omega
  refine ⟨u.take s, (u.drop s).take n, (v.drop s).take n, u.drop (s + n), ?_, ?_, ?_, ?_⟩
  · rw [List.append_assoc, ← List.drop_drop, List.take_append_drop, List.take_append_drop]
  · rw [h1, h2, List.append_assoc, ← List.drop_drop, List.take_append_drop, List.take_append_drop]
  · simp [hbl]
  · simp

/-- A checksum with the top coefficient set detects every burst no longer than itself. -/
theorem crc_detects {w : Nat} (hw : 7 ≤ w) {poly : BitVec (w + 1)} (hp : poly.getLsbD w = true) {xs ys : List Byte}
    (h : BurstWithin (w + 1) xs ys) (v : BitVec (w + 1)) : crcUpdate poly v xs ≠ crcUpdate poly v ys := by
  obtain ⟨p, a, b, q, hx, hy, hl, hs⟩ := burst_parts h
  exact fun he => h.1 (crc_burst hw hp hx hy hl hs v he)

/-- A record whose stored checksum is not that of its content cannot be read. -/
theorem readRecord_wrong (crc : List Byte → BitVec 32) (h : List Byte) (hh : h.length = 9) (c : List Byte) (hl : c.length < 65536)
    (x : BitVec 32) (hx : x ≠ crc c) (rest : List Byte) :
    readRecord crc (h ++ beBytes 2 c.length ++ c ++ beBytes 4 x.toNat ++ rest) = none := by
  have d9 : (h ++ beBytes 2 c.length ++ c ++ beBytes 4 x.toNat ++ rest).drop 9 = beBytes 2 c.length ++ (c ++ (beBytes 4 x.toNat ++ rest)) := by
    rw [List.append_assoc, List.append_assoc, List.append_assoc, List.drop_left' hh]
  have hlen : (h ++ beBytes 2 c.length ++ c ++ beBytes 4 x.toNat ++ rest).length = 15 + c.length + rest.length := by
    simp only [List.length_append, beBytes_length, hh]; omega
  generalize h ++ beBytes 2 c.length ++ c ++ beBytes 4 x.toNat ++ rest = bs at *
  unfold readRecord
  rw [if_neg (by omega)]
  have hn : beNat ((bs.drop 9).take 2) = c.length := by
    rw [d9, List.take_left' (beBytes_length _ _), beNat_beBytes _ _ (by simpa using hl)]
  simp only [hn]
  rw [if_neg (by omega)]
  have d11 : bs.drop 11 = c ++ (beBytes 4 x.toNat ++ rest) := by
    have : bs.drop 11 = (bs.drop 9).drop 2 := by rw [List.drop_drop]
    rw [this, d9, List.drop_left' (beBytes_length _ _)]
  have dc : bs.drop (11 + c.length) = beBytes 4 x.toNat ++ rest := by
    rw [← List.drop_drop, d11, List.drop_left' rfl]
  rw [d11, dc, List.take_left' rfl, List.take_left' (beBytes_length _ _), beNat_beBytes _ _ (by have := x.isLt; norm_num; omega)]
  rw [if_neg]
  intro he
  exact hx (BitVec.eq_of_toNat_eq he)

/-- Reading whole records and then something unreadable. -/
theorem readLog_until (crc : List Byte → BitVec 32) (rs : List Record) (hl : ∀ r ∈ rs, r.content.length < 65536) (bs : List Byte)
    (hb : readRecord crc bs = none) : readLog crc (rs.flatMap (recordBytes crc) ++ bs) = rs := by
  have key : ∀ (rs : List Record), (∀ r ∈ rs, r.content.length < 65536) → ∀ n, (rs.flatMap (recordBytes crc) ++ bs).length ≤ n →
      readLogN crc n (rs.flatMap (recordBytes crc) ++ bs) = rs := by
    intro rs
    induction rs with
    | nil =>
      intro _ n _
      cases n with
      | zero => rfl
      | succ n => simp only [List.flatMap_nil, List.nil_append]; rw [readLogN, hb]
    | cons r rs ih =>
      intro hl n hn
      rw [List.flatMap_cons, List.append_assoc] at hn ⊢
      rw [List.length_append, recordBytes_length] at hn
      cases n with
      | zero => omega
      | succ n =>
        rw [readLogN, readRecord_bytes crc r (hl r (by simp))]
        simp only []
        rw [ih (fun x hx => hl x (by simp [hx])) n (by omega)]
  exact key rs hl _ (Nat.le_refl _)

end Verif
