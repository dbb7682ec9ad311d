import Verif.Lemmas.GorillaDec
/-! The decompactor follows the compactor. -/
namespace Verif
open List GorillaDecompactor

/-- Sign extension of the low `n` bits. -/
def sx (n : Nat) (x : U64) : U64 := (BitVec.ofNat n (natOf ((bitsOf x).drop (64 - n)))).signExtend 64

/-- What the decoder makes of the bits of a second difference. -/
def sxDod (dod : U64) : U64 :=
  if dod = 0#64 then 0#64 else if inR dod 8 then sx 8 dod else if inR dod 16 then sx 16 dod
  else if inR dod 32 then sx 32 dod else dod

theorem sx_toInt (n : Nat) (hn : n ≤ 64) (x : U64) : (sx n x).toInt = Int.bmod (x.toNat : Int) (2 ^ n) := by
  rw [sx, BitVec.toInt_signExtend_of_le hn, natOf_drop _ hn, BitVec.toInt_ofNat']
  rw [Int.natCast_emod]
  exact Int.emod_bmod _ _

theorem toInt_cond (x : U64) : x.toInt = if x.toNat < 2 ^ 63 then (x.toNat : Int) else (x.toNat : Int) - 2 ^ 64 := by
  rw [BitVec.toInt_eq_toNat_cond]
  have := x.isLt
  split <;> split <;> omega

theorem sx_eq_iff {n : Nat} (hn : n = 8 ∨ n = 16 ∨ n = 32) {x : U64} (h : inR x n = true) :
    sx n x = x ↔ x.toInt ≠ 2 ^ (n - 1) := by
  have hb := sx_toInt n (by omega) x
  have hc := toInt_cond x
  have hlt := x.isLt
  have hiff : sx n x = x ↔ (sx n x).toInt = x.toInt := ⟨fun h => by rw [h], BitVec.eq_of_toInt_eq⟩
  rw [hiff, hb]
  simp only [inR, decide_eq_true_eq] at h
  rcases hn with rfl | rfl | rfl
  all_goals
    rw [Int.bmod_def]
    norm_num at h ⊢
    split at hc <;> split <;> omega

/-- The second differences that the decoder mistakes for negative ones. -/
def goodT (dod : U64) : Prop := dod ≠ 128#64 ∧ dod ≠ 32768#64 ∧ dod ≠ 2147483648#64
instance (d) : Decidable (goodT d) := by unfold goodT; infer_instance

theorem toInt_eq_iff (x y : U64) : x = y ↔ x.toInt = y.toInt := ⟨fun h => by rw [h], BitVec.eq_of_toInt_eq⟩

theorem sxDod_eq_iff (dod : U64) : sxDod dod = dod ↔ goodT dod := by
  have t1 : (128#64).toInt = 128 := by decide
  have t2 : (32768#64).toInt = 32768 := by decide
  have t3 : (2147483648#64).toInt = 2147483648 := by decide
  have hg : goodT dod ↔ dod.toInt ≠ 128 ∧ dod.toInt ≠ 32768 ∧ dod.toInt ≠ 2147483648 := by
    simp only [goodT, ne_eq, toInt_eq_iff dod, t1, t2, t3]
  rw [hg]
  unfold sxDod
  by_cases h0 : dod = 0#64
  · subst h0; decide
  · rw [if_neg h0]
    by_cases h8 : inR dod 8 = true
    · rw [if_pos h8, sx_eq_iff (by omega) h8]
      simp only [inR, decide_eq_true_eq] at h8
      norm_num at h8 ⊢; omega
    · rw [if_neg h8]
      by_cases h16 : inR dod 16 = true
      · rw [if_pos h16, sx_eq_iff (by omega) h16]
        simp only [inR, decide_eq_true_eq] at h8 h16
        norm_num at h8 h16 ⊢; omega
      · rw [if_neg h16]
        by_cases h32 : inR dod 32 = true
        · rw [if_pos h32, sx_eq_iff (by omega) h32]
          simp only [inR, decide_eq_true_eq] at h8 h16 h32
          norm_num at h8 h16 h32 ⊢; omega
        · rw [if_neg h32]
          simp only [inR, decide_eq_true_eq] at h8 h16 h32
          norm_num at h8 h16 h32 ⊢; omega

theorem decTimestamp_ok (m : Mode) {dc : GorillaDecompactor} (h : dc.source.Good) {n : Nat}
    (hn : n = 8 ∨ n = 16 ∨ n = 32 ∨ n = 64) {dod : U64} {r}
    (hr : dc.source.rest = (bitsOf dod).drop (64 - n) ++ r) :
    decompactTimestamp m dc n =
      (i64add m (sx n dod) dc.d).bind fun d => (u64add m dc.t d).bind fun ts =>
        some (some ts, { dc with d := d, source := dc.source.adv n }) := by
  have hl : ((bitsOf dod).drop (64 - n)).length = n := by simp; omega
  obtain ⟨buf, h1, h2, h3⟩ := read_exact m h (n / 8) hr (by rw [hl]; omega)
  rw [hl] at h1
  have h1' : dc.source.readNextNBit m (vecWithLen (n / 8)) n = some (buf, n, dc.source.adv n) := h1
  have hb : beNat buf = natOf ((bitsOf dod).drop (64 - n)) := by
    rw [beNat_eq, h3, hl, show 8 * (n / 8) - n = 0 by omega]; simp
  simp only [decompactTimestamp, h1', Option.bind_eq_bind, Option.bind_some, ne_eq, not_true, if_false, hb]
  rfl

theorem sx_64 (x : U64) : sx 64 x = x := by
  simp [sx]

/-- Reading a second difference. -/
theorem next_dod (m : Mode) {dc : GorillaDecompactor} (h : dc.source.Good) (hidx : 2 ≤ dc.idx) {dod : U64} {r}
    (hr : dc.source.rest = encDod dod ++ r) :
    next m dc = (if dod = 0#64 then some dc.d else i64add m (sxDod dod) dc.d).bind fun d =>
      (u64add m dc.t d).bind fun ts =>
        finish m { dc with d := d, source := dc.source.adv (encDod dod).length } ts := by
  obtain ⟨b, h1, h2⟩ := read_peek m h 4 (by omega)
  have i0 : ¬ dc.idx = 0 := by omega
  have i1 : ¬ dc.idx = 1 := by omega
  by_cases h0 : dod = 0#64
  · subst h0
    have hr' : dc.source.rest = false :: r := by simpa [encDod] using hr
    have hlen : dc.source.rest.length = r.length + 1 := by rw [hr']; rfl
    have hb : b &&& 0b10000000#8 = 0#8 := by rw [flag80, h2, hr']; simp
    simp only [next, i0, i1, if_false, h1, Option.bind_eq_bind, Option.bind_some]
    rw [if_neg (by omega), if_pos (by simpa using hb)]
    simp only [if_true, Option.bind_some]
    congr 1
    funext ts
    congr 2
    simp only [Seeker.adv, encDod, if_true, List.length_singleton]
    congr 1
    omega
  · -- a flag of up to four bits
    have key : ∀ (n k : Nat) (fl : List Bool), (n = 8 ∨ n = 16 ∨ n = 32 ∨ n = 64) → fl.length = k →
        encDod dod = fl ++ (bitsOf dod).drop (64 - n) → sxDod dod = sx n dod → 2 ≤ k → k ≤ 4 →
        (∀ T, flagTimestamp m { dc with source := T } b 4 (dc.source.adv 4) =
          decompactTimestamp m { dc with source := dc.source.adv k } n) →
        fl.take 1 = [true] → 
        next m dc = (if dod = 0#64 then some dc.d else i64add m (sxDod dod) dc.d).bind fun d =>
          (u64add m dc.t d).bind fun ts =>
            finish m { dc with d := d, source := dc.source.adv (encDod dod).length } ts := by
      intro n k fl hn hk henc hsx hk2 hk4 hflag hfl
      have hr' : dc.source.rest = fl ++ ((bitsOf dod).drop (64 - n) ++ r) := by rw [hr, henc, append_assoc]
      have hlen : min 4 dc.source.rest.length = 4 := by
        rw [hr']; simp; omega
      rw [hlen] at h1 h2
      have hb : ¬ (b &&& 0b10000000#8 = 0#8) := by
        rw [flag80, h2, hr', List.take_append_of_le_length (by simp; omega), List.take_take,
          List.take_append_of_le_length (by simp; omega)]
        simp [hfl]
      have ha := h.adv hr'
      rw [hk] at ha
      have hdt := decTimestamp_ok m (dc := { dc with source := dc.source.adv k }) ha.1 hn ha.2
      simp only [next, i0, i1, if_false, h1, Option.bind_eq_bind, Option.bind_some]
      rw [if_neg (by omega), if_neg (by simpa using hb)]
      simp only [headD_cons]
      rw [hflag, hdt, hsx, if_neg h0]
      have hel : (encDod dod).length = k + n := by
        rw [henc]; simp [hk]; omega
      cases i64add m (sx n dod) dc.d with
      | none => rfl
      | some d =>
        simp only [Option.bind_some]
        cases u64add m dc.t d with
        | none => rfl
        | some ts => simp only [Option.bind_some, Seeker.adv_adv, hel]
    have hmin : ∀ fl : List Bool, fl.length ≤ 4 → ∀ X, dc.source.rest = fl ++ X → (bitsOf b).take fl.length = fl := by
      intro fl hfl X hX
      rw [h2, hX, List.take_append_of_le_length (by simpa using hfl), List.take_take, Nat.min_eq_left hfl]
      simp
    have hmin2 : ∀ fl : List Bool, fl.length ≤ 4 → ∀ X, dc.source.rest = fl ++ X → ∀ j ≤ fl.length, (bitsOf b).take j = fl.take j := by
      intro fl hfl X hX j hj
      rw [← hmin fl hfl X hX, List.take_take, Nat.min_eq_left hj]
    by_cases h8 : inR dod 8 = true
    · have henc : encDod dod = [true, false] ++ (bitsOf dod).drop (64 - 8) := by simp [encDod, h0, h8]
      rw [henc, append_assoc] at hr
      refine key 8 2 [true, false] (by omega) rfl henc (by simp [sxDod, h0, h8]) (by omega) (by omega) ?_ rfl
      intro T
      have f1 := hmin2 _ (by simp) _ hr 2 (by simp)
      rw [flagTimestamp, if_pos ((flagC0 b).mpr f1)]
      rfl
    · by_cases h16 : inR dod 16 = true
      · have henc : encDod dod = [true, true, false] ++ (bitsOf dod).drop (64 - 16) := by simp [encDod, h0, h8, h16]
        rw [henc, append_assoc] at hr
        refine key 16 3 [true, true, false] (by omega) rfl henc (by simp [sxDod, h0, h8, h16]) (by omega) (by omega) ?_ rfl
        intro T
        have f1 := hmin2 _ (by simp) _ hr 2 (by simp)
        have f2 := hmin2 _ (by simp) _ hr 3 (by simp)
        rw [flagTimestamp, if_neg (by rw [flagC0, f1]; simp), if_pos ((flagE0 b).mpr f2)]
        rfl
      · by_cases h32 : inR dod 32 = true
        · have henc : encDod dod = [true, true, true, false] ++ (bitsOf dod).drop (64 - 32) := by
            simp [encDod, h0, h8, h16, h32]
          rw [henc, append_assoc] at hr
          refine key 32 4 [true, true, true, false] (by omega) rfl henc (by simp [sxDod, h0, h8, h16, h32]) (by omega) (by omega) ?_ rfl
          intro T
          have f1 := hmin2 _ (by simp) _ hr 2 (by simp)
          have f2 := hmin2 _ (by simp) _ hr 3 (by simp)
          have f3 := hmin2 _ (by simp) _ hr 4 (by simp)
          rw [flagTimestamp, if_neg (by rw [flagC0, f1]; simp), if_neg (by rw [flagE0, f2]; simp), if_pos ((flagF0 b).mpr f3)]
        · have henc : encDod dod = [true, true, true, true] ++ (bitsOf dod).drop (64 - 64) := by
            simp [encDod, h0, h8, h16, h32]
          rw [henc, append_assoc] at hr
          refine key 64 4 [true, true, true, true] (by omega) rfl henc (by simp [sxDod, h0, h8, h16, h32, sx_64]) (by omega) (by omega) ?_ rfl
          intro T
          have f1 := hmin2 _ (by simp) _ hr 2 (by simp)
          have f2 := hmin2 _ (by simp) _ hr 3 (by simp)
          have f3 := hmin2 _ (by simp) _ hr 4 (by simp)
          rw [flagTimestamp, if_neg (by rw [flagC0, f1]; simp), if_neg (by rw [flagE0, f2]; simp), if_neg (by rw [flagF0, f3]; simp)]

end Verif
