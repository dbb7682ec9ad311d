import Verif.Lemmas.Gorilla
/-! What the decompactor reads. -/
namespace Verif
open List GorillaDecompactor

/-- The unread bits. -/
def Seeker.rest (sk : Seeker) : List Bool := sk.data.bitsIn.drop sk.cursor
/-- The cursor is inside a well-formed stream. -/
def Seeker.Good (sk : Seeker) : Prop := sk.data.Ok ∧ sk.cursor ≤ sk.data.bitsIn.length
/-- Move the cursor. -/
def Seeker.adv (sk : Seeker) (n : Nat) : Seeker := { sk with cursor := sk.cursor + n }

theorem Seeker.rest_length (sk : Seeker) : sk.rest.length = sk.data.bitsIn.length - sk.cursor := by
  simp [Seeker.rest]

theorem Seeker.Good.adv {sk : Seeker} (h : sk.Good) {a r : List Bool} (hr : sk.rest = a ++ r) :
    (sk.adv a.length).Good ∧ (sk.adv a.length).rest = r := by
  have hl := congrArg List.length hr
  rw [Seeker.rest_length] at hl
  simp at hl
  refine ⟨⟨h.1, ?_⟩, ?_⟩
  · have := h.2
    simp only [Seeker.adv]; omega
  · have : (sk.adv a.length).rest = sk.rest.drop a.length := by
      simp [Seeker.rest, Seeker.adv, List.drop_drop]
    rw [this, hr]; simp

theorem Seeker.adv_adv (sk : Seeker) (a b : Nat) : (sk.adv a).adv b = sk.adv (a + b) := by
  simp [Seeker.adv, Nat.add_assoc]

theorem read_exact (m : Mode) {sk : Seeker} (h : sk.Good) (B : Nat) {a r : List Bool} (hr : sk.rest = a ++ r)
    (hn : a.length ≤ 8 * B) :
    ∃ buf, sk.readNextNBit m (replicate B 0#8) a.length = some (buf, a.length, sk.adv a.length) ∧
      buf.length = B ∧ flat buf = a ++ replicate (8 * B - a.length) false := by
  obtain ⟨buf, n', h1, h2, h3, h4⟩ := read_zeros m h.1 B a.length hn h.2
  have hl := congrArg List.length hr
  rw [Seeker.rest_length] at hl
  simp at hl
  have : n' = a.length := by omega
  subst this
  refine ⟨buf, h2, h3, ?_⟩
  rw [h4]
  have : sk.data.bitsIn.drop sk.cursor = a ++ r := hr
  rw [this]; simp

theorem read_peek (m : Mode) {sk : Seeker} (h : sk.Good) (n : Nat) (hn : n ≤ 8) :
    ∃ b : Byte, sk.readNextNBit m [0#8] n = some ([b], min n sk.rest.length, sk.adv (min n sk.rest.length)) ∧
      bitsOf b = sk.rest.take n ++ replicate (8 - min n sk.rest.length) false := by
  obtain ⟨buf, n', h1, h2, h3, h4⟩ := read_zeros m h.1 1 n (by omega) h.2
  rw [← Seeker.rest_length] at h1
  subst h1
  obtain ⟨b, rfl⟩ := List.length_eq_one_iff.mp h3
  refine ⟨b, h2, ?_⟩
  simp only [flat_cons, flat_nil, append_nil] at h4
  rw [h4]
  congr 1
  change sk.rest.take _ = _
  rcases Nat.le_total n sk.rest.length with h | h
  · rw [Nat.min_eq_left h]
  · rw [Nat.min_eq_right h, List.take_of_length_le (Nat.le_refl _), List.take_of_length_le h]

theorem flag80 : ∀ b : Byte, (b &&& 0b10000000#8 = 0#8) ↔ (bitsOf b).take 1 = [false] := by decide
theorem flagC0 : ∀ b : Byte, (b &&& 0b11000000#8 = 0b10000000#8) ↔ (bitsOf b).take 2 = [true, false] := by decide
theorem flagE0 : ∀ b : Byte, (b &&& 0b11100000#8 = 0b11000000#8) ↔ (bitsOf b).take 3 = [true, true, false] := by decide
theorem flagF0 : ∀ b : Byte, (b &&& 0b11110000#8 = 0b11100000#8) ↔ (bitsOf b).take 4 = [true, true, true, false] := by decide

theorem natOf_drop (v : U64) {k : Nat} (hk : k ≤ 64) : natOf ((bitsOf v).drop (64 - k)) = v.toNat % 2 ^ k := by
  have h := natOf_append ((bitsOf v).take (64 - k)) ((bitsOf v).drop (64 - k))
  rw [List.take_append_drop, natOf_bitsOf, natOf_take_range _ _ (by omega)] at h
  rw [show 64 - (64 - k) = k by omega] at h
  have hl : ((bitsOf v).drop (64 - k)).length = k := by simp; omega
  rw [hl] at h
  have := Nat.div_add_mod' v.toNat (2 ^ k)
  omega

/-- A small number read into the high bits of a byte. -/
theorem read_small {b : Byte} {v : U64} {k : Nat} (hk : k ≤ 8)
    (hb : bitsOf b = (bitsOf v).drop (64 - k) ++ replicate (8 - k) false) :
    (b >>> (8 - k)).toNat = v.toNat % 2 ^ k := by
  rw [← natOf_bitsOf, bitsOf_shr _ _ (by omega), hb, List.take_append_of_le_length (by simp; omega),
    List.take_of_length_le (by simp; omega), natOf_append, natOf_replicate_false, natOf_drop _ (by omega)]
  simp

theorem word_bits {buf : List Byte} (hl : buf.length = 8) {X : List Bool} {l : Nat} (h : l ≤ 64)
    (hx : X.length + l ≤ 64)
    (hb : flat buf = X ++ replicate (64 - X.length) false) :
    ∃ w, fromBE buf = some w ∧ bitsOf (w >>> l) = replicate l false ++ X ++ replicate (64 - X.length - l) false := by
  obtain ⟨w, h1, h2⟩ := fromBE_eq_some hl
  refine ⟨w, h1, ?_⟩
  rw [bitsOf_shr _ _ h, h2, hb, List.take_append, List.take_of_length_le (by omega), List.take_replicate, append_assoc]
  congr 3; omega

/-- The value decoder on an unchanged value. -/
theorem decValues_zero (m : Mode) {dc : GorillaDecompactor} (h : dc.source.Good) {r}
    (hr : dc.source.rest = false :: r) :
    decompactValues m dc = some (some dc.v, { dc with source := dc.source.adv 1 }) := by
  obtain ⟨b, h1, h2⟩ := read_peek m h 2 (by omega)
  have hlen : dc.source.rest.length = r.length + 1 := by rw [hr]; rfl
  have hb : b &&& 0b10000000#8 = 0#8 := by
    rw [flag80, h2, hr]; simp
  simp only [decompactValues, h1, Option.bind_eq_bind, Option.bind_some]
  rw [if_neg (by omega), if_pos (Or.inr (by simpa using hb))]
  simp only [Seeker.adv, Option.pure_def]
  congr 5
  omega

/-- The value decoder on a change that reuses the window. -/
theorem decValues_reuse (m : Mode) {dc : GorillaDecompactor} (h : dc.source.Good) {r X}
    (hr : dc.source.rest = true :: false :: (X ++ r)) (hX : X.length = 64 - dc.leading - dc.tailing)
    (hw : dc.leading + dc.tailing < 64) {x : U64}
    (hx : bitsOf x = replicate dc.leading false ++ X ++ replicate dc.tailing false) :
    decompactValues m dc = some (some (dc.v ^^^ x), { dc with v := dc.v ^^^ x, source := dc.source.adv (2 + X.length) }) := by
  obtain ⟨b, h1, h2⟩ := read_peek m h 2 (by omega)
  have hlen : min 2 dc.source.rest.length = 2 := by rw [hr]; simp
  rw [hlen] at h1 h2
  have hb1 : ¬ (b &&& 0b10000000#8 = 0#8) := by
    rw [flag80, h2, hr]; simp
  have hb2 : (b &&& 0b11000000#8 = 0b10000000#8) := by
    rw [flagC0, h2, hr]; simp
  have hadv := h.adv (a := [true, false]) (r := X ++ r) hr
  obtain ⟨buf, h3, h4, h5⟩ := read_exact m hadv.1 8 hadv.2 (by omega)
  obtain ⟨w, h6, h7⟩ := word_bits h4 (X := X) (l := dc.leading) (by omega) (by omega) h5
  have hxw : w >>> dc.leading = x := by
    apply bitsOf_inj
    rw [h7, hx]; congr 2; omega
  simp only [decompactValues, h1, Option.bind_eq_bind, Option.bind_some]
  rw [if_neg (by omega), if_neg (by simpa using hb1), if_pos (by simpa using hb2)]
  simp only [u8sub_ok m (show dc.leading ≤ 64 by omega), u8sub_ok m (show dc.tailing ≤ 64 - dc.leading by omega), Option.bind_some]
  rw [← hX]
  have h3' : (dc.source.adv 2).readNextNBit m (vecWithLen 8) X.length = some (buf, X.length, (dc.source.adv 2).adv X.length) := h3
  simp only [h3', Option.bind_some, h6, shr64_ok m w (show dc.leading < 64 by omega), hxw]
  simp [Seeker.adv_adv]

/-- The value decoder on a change that opened a window: it reads the two counts modulo 32 and 64. -/
theorem decValues_open (m : Mode) {dc : GorillaDecompactor} (h : dc.source.Good) {r X} {x : U64} (hx : x ≠ 0#64)
    (hr : dc.source.rest = [true, true] ++ (bitsOf (BitVec.ofNat 64 (lz x))).drop 59 ++
      (bitsOf (BitVec.ofNat 64 (64 - lz x - tz x))).drop 58 ++ X ++ r) (hX : X.length = 64 - lz x - tz x) :
    ∃ y, bitsOf y = replicate (lz x % 32) false ++ X.take (X.length % 64) ++
        replicate (64 - X.length % 64 - lz x % 32) false ∧
      decompactValues m dc = some (some (dc.v ^^^ y), { dc with
        v := dc.v ^^^ y, leading := lz x % 32, tailing := 64 - X.length % 64 - lz x % 32
        source := dc.source.adv (13 + X.length % 64) }) := by
  have hlt := lz_add_tz hx
  obtain ⟨b, h1, h2⟩ := read_peek m h 2 (by omega)
  have hlen : min 2 dc.source.rest.length = 2 := by rw [hr]; simp
  rw [hlen] at h1 h2
  have hb1 : ¬ (b &&& 0b10000000#8 = 0#8) := by
    rw [flag80, h2, hr]; simp
  have hb2 : ¬ (b &&& 0b11000000#8 = 0b10000000#8) := by
    rw [flagC0, h2, hr]; simp
  -- leading count
  have a1 := h.adv (a := [true, true]) (by rw [hr, append_assoc, append_assoc, append_assoc])
  obtain ⟨buf1, e1, e2, e3⟩ := read_exact m a1.1 1 a1.2 (by simp)
  have a2 := a1.1.adv a1.2
  obtain ⟨buf2, f1, f2, f3⟩ := read_exact m a2.1 1 a2.2 (by simp)
  have a3 := a2.1.adv a2.2
  have hX' : (dc.source.adv 13).rest = X.take (X.length % 64) ++ (X.drop (X.length % 64) ++ r) := by
    rw [← append_assoc, List.take_append_drop]
    simpa [Seeker.adv_adv] using a3.2
  have hg : (dc.source.adv 13).Good := by simpa [Seeker.adv_adv] using a3.1
  have htl : (X.take (X.length % 64)).length = X.length % 64 := by
    rw [List.length_take]; exact Nat.min_eq_left (Nat.mod_le _ _)
  obtain ⟨buf3, g1, g2, g3⟩ := read_exact m hg 8 hX' (by rw [htl]; omega)
  obtain ⟨c1, rfl⟩ := List.length_eq_one_iff.mp e2
  obtain ⟨c2, rfl⟩ := List.length_eq_one_iff.mp f2
  have hc1 : (c1 >>> 3).toNat = lz x % 32 := by
    have := read_small (b := c1) (v := BitVec.ofNat 64 (lz x)) (k := 5) (by omega) (by simpa using e3)
    rw [this, BitVec.toNat_ofNat, Nat.mod_eq_of_lt (a := lz x) (by omega)]; omega
  have hc2 : (c2 >>> 2).toNat = X.length % 64 := by
    have := read_small (b := c2) (v := BitVec.ofNat 64 (64 - lz x - tz x)) (k := 6) (by omega) (by simpa using f3)
    rw [this, BitVec.toNat_ofNat, Nat.mod_eq_of_lt (a := 64 - lz x - tz x) (by omega), hX]; omega
  have hsum : X.length % 64 + lz x % 32 ≤ 64 := by omega
  obtain ⟨w, w1, w2⟩ := word_bits g2 (X := X.take (X.length % 64)) (l := lz x % 32) (by omega) (by rw [htl]; omega) g3
  rw [htl] at w2 g1
  refine ⟨w >>> (lz x % 32), w2, ?_⟩
  simp only [decompactValues, h1, Option.bind_eq_bind, Option.bind_some]
  rw [if_neg (by omega), if_neg (by simpa using hb1), if_neg (by simpa using hb2)]
  have e1' : (dc.source.adv 2).readNextNBit m [0#8] 5 = some ([c1], 5, (dc.source.adv 2).adv 5) := by simpa using e1
  have f1' : ((dc.source.adv 2).adv 5).readNextNBit m [0#8] 6 = some ([c2], 6, dc.source.adv 13) := by
    simpa [Seeker.adv_adv] using f1
  have g1' : (dc.source.adv 13).readNextNBit m (vecWithLen 8) (X.length % 64) =
    some (buf3, X.length % 64, (dc.source.adv 13).adv (X.length % 64)) := g1
  simp only [e1', f1', Option.bind_some, headD_cons, hc1, hc2, ne_eq, not_true, if_false]
  simp only [u8sub_ok m (show X.length % 64 ≤ 64 by omega), u8sub_ok m (show lz x % 32 ≤ 64 - X.length % 64 by omega),
    Option.bind_some, g1', w1, shr64_ok m w (show lz x % 32 < 64 by omega), not_true, if_false, Seeker.adv_adv]
  rfl

end Verif
