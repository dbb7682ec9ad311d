import Verif.Lemmas.Seeker
import Verif.Model.Compaction
/-! What the compactor writes, as bits. -/
namespace Verif
open List

/-! ### zeros of a word -/

theorem takeWhile_not (l : List Bool) :
    l.takeWhile (fun b => !b) = replicate (l.takeWhile (fun b => !b)).length false := by
  induction l with
  | nil => rfl
  | cons b t ih =>
    cases b with
    | true => simp
    | false => simpa [List.takeWhile_cons, replicate_succ] using ih

theorem bits_lz (x : U64) : ∃ r, bitsOf x = replicate (lz x) false ++ r ∧ (∀ b ∈ r.head?, b = true) := by
  refine ⟨(bitsOf x).dropWhile (fun b => !b), ?_, ?_⟩
  · rw [lz, ← takeWhile_not, List.takeWhile_append_dropWhile]
  · intro b hb
    have := List.head?_dropWhile_not (fun b => !b) (bitsOf x)
    simp only [Option.mem_def] at hb
    rw [hb] at this
    simpa using this

theorem bits_tz (x : U64) : ∃ r, bitsOf x = r ++ replicate (tz x) false := by
  refine ⟨((bitsOf x).reverse.dropWhile (fun b => !b)).reverse, ?_⟩
  have h := List.takeWhile_append_dropWhile (p := fun b => !b) (l := (bitsOf x).reverse)
  rw [takeWhile_not] at h
  have h2 := congrArg List.reverse h
  rw [List.reverse_reverse, List.reverse_append, List.reverse_replicate] at h2
  exact h2.symm

theorem lz_le (x : U64) : lz x ≤ 64 := by
  obtain ⟨r, h, _⟩ := bits_lz x
  have := congrArg List.length h
  simp at this; omega

theorem tz_le (x : U64) : tz x ≤ 64 := by
  obtain ⟨r, h⟩ := bits_tz x
  have := congrArg List.length h
  simp at this; omega

theorem lz_lt {x : U64} (hx : x ≠ 0#64) : lz x < 64 := by
  rcases Nat.lt_or_ge (lz x) 64 with h | h
  · exact h
  · exfalso
    have h64 : lz x = 64 := Nat.le_antisymm (lz_le x) h
    obtain ⟨r, h, _⟩ := bits_lz x
    have hl := congrArg List.length h
    simp [h64] at hl
    rw [h64] at h
    subst hl
    apply hx
    apply bitsOf_inj
    rw [h, bitsOf_zero]
    simp

/-- The bit after the leading zeros is a one. -/
theorem bit_lz {x : U64} (hx : x ≠ 0#64) : (bitsOf x)[lz x]? = some true := by
  obtain ⟨r, h, hr⟩ := bits_lz x
  have hlt := lz_lt hx
  have hl := congrArg List.length h
  simp at hl
  cases r with
  | nil => simp at hl; omega
  | cons b t =>
    have : b = true := hr b (by simp)
    rw [h, List.getElem?_append_right (by simp)]
    simp [this]

theorem lz_add_tz {x : U64} (hx : x ≠ 0#64) : lz x + tz x < 64 := by
  have h1 := bit_lz hx
  obtain ⟨r, h⟩ := bits_tz x
  have hl := congrArg List.length h
  simp at hl
  rcases Nat.lt_or_ge (lz x + tz x) 64 with h' | h'
  · exact h'
  · exfalso
    rw [h, List.getElem?_append_right (by omega), List.getElem?_replicate] at h1
    split at h1 <;> simp at h1

/-- Cutting known zeros off both ends of a word. -/
theorem bits_window (x : U64) {l t : Nat} (hl : l ≤ lz x) (ht : t ≤ tz x) (hs : l + t ≤ 64) :
    bitsOf x = replicate l false ++ ((bitsOf x).drop l).take (64 - l - t) ++ replicate t false := by
  obtain ⟨r1, h1, _⟩ := bits_lz x
  obtain ⟨r2, h2⟩ := bits_tz x
  have e1 : (bitsOf x).take l = replicate l false := by
    rw [h1, List.take_append_of_le_length (by simpa using hl)]; simp [hl]
  have e2 : (bitsOf x).drop (64 - t) = replicate t false := by
    have hlen := congrArg List.length h2
    simp at hlen
    rw [h2, List.drop_append, List.drop_of_length_le (by omega)]
    simp; omega
  conv => lhs; rw [← List.take_append_drop l (bitsOf x)]
  rw [e1, append_assoc]
  congr 1
  conv => lhs; rw [← List.take_append_drop (64 - l - t) ((bitsOf x).drop l)]
  rw [List.drop_drop, show l + (64 - l - t) = 64 - t by omega, e2]

/-! ### the encoded bits -/

/-- `in_bit_range` as arithmetic. -/
def inR (t : U64) (n : Nat) : Bool := decide (-(2 ^ (n - 1) - 1 : Int) ≤ t.toInt ∧ t.toInt ≤ 2 ^ (n - 1))

theorem inBitRange_8 (m : Mode) (t : U64) : inBitRange m t 8 = some (inR t 8) := by
  have h1 : i32sub m ((1#32) <<< (8 - 1)) 1#32 = some 127#32 := by cases m <;> decide
  have h2 : ((-127#32 : BitVec 32).signExtend 64).toInt = -127 := by decide
  have h3 : ((1#64) <<< (8 - 1)).toInt = 128 := by decide
  simp only [inBitRange, h1, Option.bind_eq_bind, Option.bind_some, BitVec.sle, h2, h3, inR]
  simp
theorem inBitRange_16 (m : Mode) (t : U64) : inBitRange m t 16 = some (inR t 16) := by
  have h1 : i32sub m ((1#32) <<< (16 - 1)) 1#32 = some 32767#32 := by cases m <;> decide
  have h2 : ((-32767#32 : BitVec 32).signExtend 64).toInt = -32767 := by decide
  have h3 : ((1#64) <<< (16 - 1)).toInt = 32768 := by decide
  simp only [inBitRange, h1, Option.bind_eq_bind, Option.bind_some, BitVec.sle, h2, h3, inR]
  simp
theorem inBitRange_32 (t : U64) : inBitRange .release t 32 = some (inR t 32) := by
  have h1 : i32sub .release ((1#32) <<< (32 - 1)) 1#32 = some 2147483647#32 := by decide
  have h2 : ((-2147483647#32 : BitVec 32).signExtend 64).toInt = -2147483647 := by decide
  have h3 : ((1#64) <<< (32 - 1)).toInt = 2147483648 := by decide
  simp only [inBitRange, h1, Option.bind_eq_bind, Option.bind_some, BitVec.sle, h2, h3, inR]
  simp
theorem inBitRange_32_debug (t : U64) : inBitRange .debug t 32 = none := by
  have h1 : i32sub .debug ((1#32) <<< (32 - 1)) 1#32 = none := by decide
  simp only [inBitRange, h1, Option.bind_eq_bind, Option.bind_none]

/-- Bits written for a second difference. -/
def encDod (dod : U64) : List Bool :=
  if dod = 0#64 then [false]
  else if inR dod 8 then [true, false] ++ (bitsOf dod).drop 56
  else if inR dod 16 then [true, true, false] ++ (bitsOf dod).drop 48
  else if inR dod 32 then [true, true, true, false] ++ (bitsOf dod).drop 32
  else [true, true, true, true] ++ bitsOf dod

/-- A value change fits the current window `(l, t)`. -/
def fits (len : Nat) (w : Nat × Nat) (x : U64) : Prop := len > 1 ∧ lz x ≥ w.1 ∧ tz x ≥ w.2
instance (len w x) : Decidable (fits len w x) := by unfold fits; infer_instance

/-- Bits written for a value change `x` (XOR) with window `w`. -/
def encX (len : Nat) (w : Nat × Nat) (x : U64) : List Bool :=
  if x = 0#64 then [false]
  else if fits len w x then [true, false] ++ ((bitsOf x).drop w.1).take (64 - w.1 - w.2)
  else [true, true] ++ (bitsOf (BitVec.ofNat 64 (lz x))).drop 59 ++
    (bitsOf (BitVec.ofNat 64 (64 - lz x - tz x))).drop 58 ++ ((bitsOf x).drop (lz x)).take (64 - lz x - tz x)

/-- Window after a value change. -/
def winX (len : Nat) (w : Nat × Nat) (x : U64) : Nat × Nat :=
  if x = 0#64 ∨ fits len w x then w else (lz x, tz x)

theorem Rep.unique {s s' : Bstream} {l} (h : Rep s l) (h' : Rep s' l) : s = s' := by
  have h1 := h.len
  have h2 := h'.len
  have h3 := h.2
  have h4 := h'.2
  have hr : s.remaining = s'.remaining := by omega
  have hd : s.data = s'.data := by
    apply flat_inj
    rw [h.1, h'.1, hr]
  cases s; cases s'; simp_all

theorem shr64_ok (m : Mode) (x : U64) {k : Nat} (h : k < 64) : shr64 m x k = some (x >>> k) := by
  simp [shr64, h]

theorem bits_shr_drop (x : U64) {l t : Nat} (h : l + t ≤ 64) :
    (bitsOf (x >>> t)).drop (64 - (64 - l - t)) = ((bitsOf x).drop l).take (64 - l - t) := by
  rw [bitsOf_shr _ _ (by omega), List.drop_append, List.drop_of_length_le (by simp; omega), nil_append]
  rw [List.length_replicate, show 64 - (64 - l - t) - t = l by omega, List.drop_take]
  congr 1; omega

theorem compactValue_ok (m : Mode) {c : GorillaCompactor} {l : List Bool} (hrep : Rep c.bstream l)
    (hlen : c.len ≠ 0) (hw : c.leading + c.tailing < 64) (v : U64) :
    ∃ s', c.compactValue m v = some { c with
        bstream := s'
        leading := (winX c.len (c.leading, c.tailing) (v ^^^ c.v)).1
        tailing := (winX c.len (c.leading, c.tailing) (v ^^^ c.v)).2 } ∧
      Rep s' (l ++ encX c.len (c.leading, c.tailing) (v ^^^ c.v)) := by
  simp only [GorillaCompactor.compactValue, hlen, if_false]
  generalize v ^^^ c.v = x
  by_cases hx : x = 0#64
  · obtain ⟨s, h1, h2⟩ := write_rep m hrep false
    refine ⟨s, ?_, ?_⟩
    · simp [hx, h1, winX]
    · simpa [encX, hx] using h2
  · obtain ⟨s1, h1, h2⟩ := write_rep m hrep true
    have hlt := lz_add_tz hx
    by_cases hf : fits c.len (c.leading, c.tailing) x
    · obtain ⟨s2, h3, h4⟩ := write_rep m h2 false
      obtain ⟨s3, h5, h6⟩ := writeBits_rep m h4 (x >>> c.tailing) (n := 64 - c.leading - c.tailing) (by omega) (by omega)
      refine ⟨s3, ?_, ?_⟩
      · have hf' := hf
        simp only [fits] at hf'
        simp only [hx, if_false, h1, Option.bind_eq_bind, Option.bind_some, if_pos hf', h3,
          shr64_ok m x (show c.tailing < 64 by omega), u8sub_ok m (show c.leading ≤ 64 by omega),
          u8sub_ok m (show c.tailing ≤ 64 - c.leading by omega), h5]
        simp [winX, hf]
      · rw [bits_shr_drop _ (by omega)] at h6
        simpa [encX, hx, hf] using h6
    · obtain ⟨s2, h3, h4⟩ := write_rep m h2 true
      obtain ⟨s3, h5, h6⟩ := writeBits_rep m h4 (BitVec.ofNat 64 (lz x)) (n := 5) (by omega) (by omega)
      obtain ⟨s4, h7, h8⟩ := writeBits_rep m h6 (BitVec.ofNat 64 (64 - lz x - tz x)) (n := 6) (by omega) (by omega)
      obtain ⟨s5, h9, h10⟩ := writeBits_rep m h8 (x >>> tz x) (n := 64 - lz x - tz x) (by omega) (by omega)
      refine ⟨s5, ?_, ?_⟩
      · have hf' := hf
        simp only [fits] at hf'
        simp only [hx, if_false, h1, Option.bind_eq_bind, Option.bind_some, if_neg hf', h3,
          shr64_ok m x (show tz x < 64 by omega), u8sub_ok m (show lz x ≤ 64 by omega),
          u8sub_ok m (show tz x ≤ 64 - lz x by omega), h5, h7, h9]
        simp [winX, hf, hx]
      · rw [bits_shr_drop _ (by omega)] at h10
        simpa [encX, hx, hf] using h10

/-- Bits written for one point. -/
def encPoint (c : GorillaCompactor) (p : TimePoint) : List Bool :=
  if c.len = 0 then bitsOf p.ts ++ bitsOf p.val
  else (if c.len = 1 then bitsOf (p.ts - c.t) else encDod ((p.ts - c.t) - c.d)) ++
    encX c.len (c.leading, c.tailing) (p.val ^^^ c.v)

/-- Compactor fields (other than the stream) after one point. -/
def updPoint (c : GorillaCompactor) (p : TimePoint) (s : Bstream) : GorillaCompactor :=
  { bstream := s, t := p.ts, v := p.val, len := c.len + 1
    d := if c.len = 0 then c.d else p.ts - c.t
    leading := if c.len = 0 then c.leading else (winX c.len (c.leading, c.tailing) (p.val ^^^ c.v)).1
    tailing := if c.len = 0 then c.tailing else (winX c.len (c.leading, c.tailing) (p.val ^^^ c.v)).2 }

/-- The conditions under which `compact` runs without an arithmetic panic. -/
def noPanic (m : Mode) (c : GorillaCompactor) (p : TimePoint) : Prop :=
  m = .release ∨ c.len = 0 ∨
    (c.t.toNat ≤ p.ts.toNat ∧ (c.len = 1 ∨
      ((-2 ^ 63 ≤ (p.ts - c.t).toInt - c.d.toInt ∧ (p.ts - c.t).toInt - c.d.toInt < 2 ^ 63) ∧
       inR ((p.ts - c.t) - c.d) 16)))

/-- Representation invariant of the compactor. -/
def CInv (c : GorillaCompactor) (l : List Bool) : Prop := Rep c.bstream l ∧ c.leading + c.tailing < 64

theorem cinv_new : CInv GorillaCompactor.new [] := ⟨rep_new, by decide⟩

theorem winX_lt {len w x} (hw : w.1 + w.2 < 64) : (winX len w x).1 + (winX len w x).2 < 64 := by
  unfold winX
  split
  · exact hw
  · rename_i h
    exact lz_add_tz (by intro h0; exact h (Or.inl h0))

theorem CInv.upd {c l} (h : CInv c l) (p : TimePoint) {s l'} (hs : Rep s l') : CInv (updPoint c p s) l' := by
  refine ⟨hs, ?_⟩
  simp only [updPoint]
  split
  · exact h.2
  · exact winX_lt h.2

theorem inR_8_16 {x : U64} (h : inR x 8 = true) : inR x 16 = true := by
  simp only [inR, decide_eq_true_eq] at *
  omega

theorem compactDod_ok (m : Mode) {s : Bstream} {l : List Bool} (hrep : Rep s l) (dod : U64)
    (hm : m = .release ∨ inR dod 16 = true) :
    ∃ s', GorillaCompactor.compactDod m s dod = some s' ∧ Rep s' (l ++ encDod dod) := by
  unfold GorillaCompactor.compactDod
  by_cases h0 : dod = 0#64
  · simp only [h0, if_true, encDod]
    exact appendByte_rep m hrep 0b00000000#8 7 (by omega) (k := [false]) (by decide)
  · simp only [h0, if_false, encDod, inBitRange_8, Option.bind_eq_bind, Option.bind_some, inBitRange_16]
    by_cases h8 : inR dod 8 = true
    · obtain ⟨s1, h1, h2⟩ := appendByte_rep m hrep 0b10000000#8 6 (by omega) (k := [true, false]) (by decide)
      obtain ⟨s2, h3, h4⟩ := writeBits_rep m h2 dod (n := 8) (by omega) (by omega)
      refine ⟨s2, by simp [h8, h1, h3], by simpa [h8] using h4⟩
    · by_cases h16 : inR dod 16 = true
      · obtain ⟨s1, h1, h2⟩ := appendByte_rep m hrep 0b11000000#8 5 (by omega) (k := [true, true, false]) (by decide)
        obtain ⟨s2, h3, h4⟩ := writeBits_rep m h2 dod (n := 16) (by omega) (by omega)
        refine ⟨s2, by simp [h8, h16, h1, h3], by simpa [h8, h16] using h4⟩
      · have hm' : m = .release := by
          rcases hm with h | h
          · exact h
          · exact absurd h h16
        subst hm'
        simp only [inBitRange_32, Option.bind_some]
        by_cases h32 : inR dod 32 = true
        · obtain ⟨s1, h1, h2⟩ := appendByte_rep .release hrep 0b11100000#8 4 (by omega) (k := [true, true, true, false]) (by decide)
          obtain ⟨s2, h3, h4⟩ := writeBits_rep .release h2 dod (n := 32) (by omega) (by omega)
          refine ⟨s2, by simp [h8, h16, h32, h1, h3], by simpa [h8, h16, h32] using h4⟩
        · obtain ⟨s1, h1, h2⟩ := appendByte_rep .release hrep 0b11110000#8 4 (by omega) (k := [true, true, true, true]) (by decide)
          obtain ⟨s2, h3, h4⟩ := writeBits_rep .release h2 dod (n := 64) (by omega) (by omega)
          refine ⟨s2, by simp [h8, h16, h32, h1, h3], by simpa [h8, h16, h32] using h4⟩

theorem compact_ok (m : Mode) {c : GorillaCompactor} {l : List Bool} (hinv : CInv c l) (p : TimePoint)
    (hm : noPanic m c p) :
    ∃ s', c.compact m p = some (updPoint c p s') ∧ Rep s' (l ++ encPoint c p) := by
  obtain ⟨hrep, hw⟩ := hinv
  by_cases h0 : c.len = 0
  · obtain ⟨s1, h1, h2⟩ := appendBytes_rep m hrep (toBE p.ts)
    obtain ⟨s2, h3, h4⟩ := appendBytes_rep m h2 (toBE p.val)
    refine ⟨s2, ?_, ?_⟩
    · simp [GorillaCompactor.compact, GorillaCompactor.compactBody, h0, h1, h3, updPoint]
    · simpa [encPoint, h0] using h4
  · have hsub : u64sub m p.ts c.t = some (p.ts - c.t) := by
      rcases hm with h | h | ⟨h, _⟩
      · subst h; rfl
      · exact absurd h h0
      · cases m <;> simp [u64sub, h]
    by_cases h1 : c.len = 1
    · obtain ⟨s1, h2, h3⟩ := appendBytes_rep m hrep (toBE (p.ts - c.t))
      obtain ⟨s2, h4, h5⟩ := compactValue_ok m (c := { c with bstream := s1 }) h3 h0 hw p.val
      refine ⟨s2, ?_, ?_⟩
      · simp only [h1] at h4
        simp [GorillaCompactor.compact, GorillaCompactor.compactBody, h1, hsub, h2, h4, updPoint]
      · simpa [encPoint, h1] using h5
    · have hdod : i64sub m (p.ts - c.t) c.d = some ((p.ts - c.t) - c.d) := by
        rcases hm with h | h | ⟨_, h | ⟨h, _⟩⟩
        · subst h; rfl
        · exact absurd h h0
        · exact absurd h h1
        · cases m
          · simp only [i64sub, if_pos h]
          · rfl
      have hm' : m = .release ∨ inR ((p.ts - c.t) - c.d) 16 = true := by
        rcases hm with h | h | ⟨_, h | ⟨_, h⟩⟩
        · exact .inl h
        · exact absurd h h0
        · exact absurd h h1
        · exact .inr h
      obtain ⟨s1, h2, h3⟩ := compactDod_ok m hrep ((p.ts - c.t) - c.d) hm'
      obtain ⟨s2, h4, h5⟩ := compactValue_ok m (c := { c with bstream := s1, d := p.ts - c.t }) h3 h0 hw p.val
      refine ⟨s2, ?_, ?_⟩
      · simp only [GorillaCompactor.compact, GorillaCompactor.compactBody, h0, h1, if_false, hsub, hdod, Option.bind_eq_bind, Option.bind_some]
        rw [h2]
        simp only [Option.bind_some]
        rw [h4]
        simp [updPoint, h0]
      · simpa [encPoint, h0, h1] using h5

end Verif
