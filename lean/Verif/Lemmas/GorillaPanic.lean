import Verif.Lemmas.GorillaSafe
/-! When the release decompactor panics, and debug versus release. -/
namespace Verif
open List GorillaDecompactor

/-! ### Release build, valid bit count: no panic -/

theorem bitlen_release (s : Bstream) : ∃ L, s.bitlen .release = some L := by
  unfold Bstream.bitlen; split <;> simp

theorem read_some (m : Mode) {sk : Seeker} (hok : sk.data.Ok) (buf : List Byte) (n : Nat)
    (hn : n ≤ 8 * buf.length) : ∃ b l sk', sk.readNextNBit m buf n = some (b, l, sk') := by
  by_cases hc : sk.cursor ≤ sk.data.bitsIn.length
  · obtain ⟨vals, n', _, h, _⟩ := read_ok m hok buf n hn hc
    exact ⟨_, _, _, h⟩
  · exact ⟨_, _, _, read_past m hok buf n (by omega)⟩

theorem u8sub_release (a b : Nat) : ∃ c, u8sub .release a b = some c := by
  unfold u8sub; split <;> simp
theorem shr64_release (x : U64) (k : Nat) : ∃ y, shr64 .release x k = some y := by
  unfold shr64; split <;> simp
theorem fromBE_some {b : List Byte} (h : b.length = 8) : ∃ w, fromBE b = some w := by
  simp [fromBE, h]

/-- The number of significant bits of the remembered window fits the 8-byte buffer. -/
def WinOk (dc : GorillaDecompactor) : Prop :=
  dc.leading ≤ 64 ∧ ∃ a b, u8sub .release 64 dc.leading = some a ∧ u8sub .release a dc.tailing = some b ∧ b ≤ 64

theorem winOk_open {sig lead : Nat} (hs : sig ≤ 63) (hl : lead ≤ 31) :
    ∃ n t a b, u8sub .release 64 sig = some n ∧ u8sub .release n lead = some t ∧
      u8sub .release 64 lead = some a ∧ u8sub .release a t = some b ∧ b ≤ 64 := by
  by_cases h : lead ≤ 64 - sig
  · exact ⟨64 - sig, 64 - sig - lead, 64 - lead, sig, by simp [u8sub]; omega, by simp [u8sub]; omega,
      by simp [u8sub]; omega, by simp only [u8sub]; rw [if_pos (by omega)]; congr 1; omega, by omega⟩
  · exact ⟨64 - sig, 256 + (64 - sig) - lead, 64 - lead, sig, by simp [u8sub]; omega,
      by simp [u8sub]; omega,
      by simp [u8sub]; omega, by simp only [u8sub]; rw [if_neg (by omega)]; congr 1; omega, by omega⟩

theorem shr3 (b : Byte) : (b >>> 3).toNat ≤ 31 := by
  rw [BitVec.toNat_ushiftRight, Nat.shiftRight_eq_div_pow]; have := b.isLt; omega
theorem shr2 (b : Byte) : (b >>> 2).toNat ≤ 63 := by
  rw [BitVec.toNat_ushiftRight, Nat.shiftRight_eq_div_pow]; have := b.isLt; omega

theorem decValues_safe {dc : GorillaDecompactor} (hok : dc.source.data.Ok) (hw : WinOk dc) :
    ∃ r dc', decompactValues .release dc = some (r, dc') ∧ dc'.source.data.Ok ∧ WinOk dc' := by
  simp only [decompactValues, Option.bind_eq_bind]
  obtain ⟨b1, l1, s1, h1⟩ := read_some .release hok [0x00#8] 2 (by simp)
  obtain ⟨L, hL, rfl, a2, a3, a4, a5⟩ := read_facts _ h1
  simp only [h1, Option.bind_some]
  by_cases c1 : l1 > 2 ∨ l1 = 0
  · rw [if_pos c1]; exact ⟨_, _, rfl, hok, hw⟩
  rw [if_neg c1]
  by_cases c2 : l1 = 1 ∨ b1.headD 0#8 &&& 128#8 = 0#8
  · rw [if_pos c2]; exact ⟨_, _, rfl, hok, hw⟩
  rw [if_neg c2]
  by_cases c3 : b1.headD 0#8 &&& 192#8 = 128#8
  · rw [if_pos c3]
    obtain ⟨hl, a, b, e1, e2, hb⟩ := hw
    simp only [e1, e2, Option.bind_some]
    obtain ⟨b2, l2, s2, h2⟩ := read_some .release (sk := dc.source.adv l1) hok (vecWithLen 8) b
      (by simp [vecWithLen]; omega)
    obtain ⟨L2, hL2, rfl, c2', c3', c4, c5⟩ := read_facts _ h2
    simp only [h2, Option.bind_some]
    by_cases c6 : l2 ≠ b
    · rw [if_pos c6]; exact ⟨_, _, rfl, hok, hl, a, b, e1, e2, hb⟩
    rw [if_neg c6]
    obtain ⟨w, e3⟩ := fromBE_some (b := b2) (by simpa [vecWithLen] using c3')
    obtain ⟨x, e4⟩ := shr64_release w dc.leading
    simp only [e3, e4, Option.bind_some]
    exact ⟨_, _, rfl, hok, hl, a, b, e1, e2, hb⟩
  rw [if_neg c3]
  obtain ⟨b2, l2, s2, h2⟩ := read_some .release (sk := dc.source.adv l1) hok [0x00#8] 5 (by simp)
  obtain ⟨L2, hL2, rfl, c2', c3', c4, c5⟩ := read_facts _ h2
  simp only [h2, Option.bind_some]
  by_cases c6 : l2 ≠ 5
  · rw [if_pos c6]; exact ⟨_, _, rfl, hok, hw⟩
  rw [if_neg c6]
  obtain ⟨b3, l3, s3, h3⟩ := read_some .release (sk := (dc.source.adv l1).adv l2) hok [0x00#8] 6 (by simp)
  obtain ⟨L3, hL3, rfl, d2', d3', d4, d5⟩ := read_facts _ h3
  simp only [h3, Option.bind_some]
  by_cases c7 : l3 ≠ 6
  · rw [if_pos c7]; exact ⟨_, _, rfl, hok, hw⟩
  rw [if_neg c7]
  have hsig := shr2 (b3.headD 0#8)
  have hlead := shr3 (b2.headD 0#8)
  generalize (b3.headD 0#8 >>> 2).toNat = sig at *
  generalize (b2.headD 0#8 >>> 3).toNat = lead at *
  obtain ⟨n, t, a, b, e1, e2, e3, e4, hb⟩ := winOk_open hsig hlead
  simp only [e1, e2, Option.bind_some]
  obtain ⟨b4, l4, s4, h4⟩ := read_some .release (sk := ((dc.source.adv l1).adv l2).adv l3) hok (vecWithLen 8) sig
      (by simp [vecWithLen]; omega)
  obtain ⟨L4, hL4, rfl, f2', f3', f4, f5⟩ := read_facts _ h4
  simp only [h4, Option.bind_some]
  by_cases c8 : l4 ≠ sig
  · rw [if_pos c8]; exact ⟨_, _, rfl, hok, hw⟩
  rw [if_neg c8]
  obtain ⟨w, e5⟩ := fromBE_some (b := b4) (by simpa [vecWithLen] using f3')
  obtain ⟨x, e6⟩ := shr64_release w lead
  simp only [e5, e6, Option.bind_some]
  exact ⟨_, _, rfl, hok, by simp only; omega, a, b, e3, e4, hb⟩

theorem finish_safe {dc : GorillaDecompactor} (hok : dc.source.data.Ok) (hw : WinOk dc) (ts : U64) :
    ∃ r dc', finish .release dc ts = some (r, dc') ∧ dc'.source.data.Ok ∧ WinOk dc' := by
  obtain ⟨r, dc', h1, h2, h3⟩ := decValues_safe (dc := { dc with t := ts }) hok hw
  simp only [finish, h1, Option.bind_eq_bind, Option.bind_some]
  cases r with
  | none => exact ⟨_, _, rfl, h2, h3⟩
  | some v => exact ⟨_, _, rfl, h2, h3⟩

theorem decTimestamp_safe {dc : GorillaDecompactor} (hok : dc.source.data.Ok) (hw : WinOk dc) {n : Nat}
    (hn : n % 8 = 0) :
    ∃ r dc', decompactTimestamp .release dc n = some (r, dc') ∧ dc'.source.data.Ok ∧ WinOk dc' := by
  obtain ⟨b2, l2, s2, h2⟩ := read_some .release (sk := dc.source) hok (vecWithLen (n / 8)) n
    (by simp [vecWithLen]; omega)
  obtain ⟨L2, hL2, rfl, c2', c3', c4, c5⟩ := read_facts _ h2
  simp only [decompactTimestamp, h2, Option.bind_eq_bind, Option.bind_some]
  split
  · exact ⟨_, _, rfl, hok, hw⟩
  · simp only [i64add, u64add, Option.bind_some]
    exact ⟨_, _, rfl, hok, hw⟩

theorem flagTimestamp_safe {dc : GorillaDecompactor} (_hok : dc.source.data.Ok) (hw : WinOk dc) (f l) (src : Seeker)
    (hsrc : src.data.Ok) :
    ∃ r dc', flagTimestamp .release dc f l src = some (r, dc') ∧ dc'.source.data.Ok ∧ WinOk dc' := by
  unfold flagTimestamp
  split
  · refine decTimestamp_safe ?_ ?_ ?_ <;> first | exact hsrc | exact hw | decide
  · split
    · refine decTimestamp_safe ?_ ?_ ?_ <;> first | exact hsrc | exact hw | decide
    · split
      · refine decTimestamp_safe ?_ ?_ ?_ <;> first | exact hsrc | exact hw | decide
      · refine decTimestamp_safe ?_ ?_ ?_ <;> first | exact hsrc | exact hw | decide

theorem next_safe {dc : GorillaDecompactor} (hok : dc.source.data.Ok) (hw : WinOk dc) :
    ∃ r dc', next .release dc = some (r, dc') ∧ dc'.source.data.Ok ∧ WinOk dc' := by
  unfold next
  split
  · obtain ⟨b2, l2, s2, h2⟩ := read_some .release (sk := dc.source) hok (vecWithLen 16) 128
      (by simp [vecWithLen])
    obtain ⟨L2, hL2, rfl, c2', c3', c4, c5⟩ := read_facts _ h2
    simp only [h2, Option.bind_eq_bind, Option.bind_some]
    split
    · exact ⟨_, _, rfl, hok, hw⟩
    · simp only [vecWithLen, length_replicate] at c3'
      obtain ⟨w, e1⟩ := fromBE_some (b := b2.take 8) (by simp; omega)
      obtain ⟨v, e2⟩ := fromBE_some (b := b2.drop 8) (by simp; omega)
      simp only [e1, e2, Option.bind_some]
      exact ⟨_, _, rfl, hok, hw⟩
  · split
    · obtain ⟨b2, l2, s2, h2⟩ := read_some .release (sk := dc.source) hok (vecWithLen 8) 64
        (by simp [vecWithLen])
      obtain ⟨L2, hL2, rfl, c2', c3', c4, c5⟩ := read_facts _ h2
      simp only [h2, Option.bind_eq_bind, Option.bind_some]
      split
      · exact ⟨_, _, rfl, hok, hw⟩
      · obtain ⟨w, e1⟩ := fromBE_some (b := b2) (by simpa [vecWithLen] using c3')
        simp only [e1, i64add, Option.bind_some]
        exact finish_safe (dc := { source := dc.source.adv l2, t := dc.t, v := dc.v, leading := dc.leading, tailing := dc.tailing, d := w, idx := dc.idx }) hok hw _
    · obtain ⟨b2, l2, s2, h2⟩ := read_some .release (sk := dc.source) hok [0x00#8] 4 (by simp)
      obtain ⟨L2, hL2, rfl, c2', c3', c4, c5⟩ := read_facts _ h2
      simp only [h2, Option.bind_eq_bind, Option.bind_some]
      split
      · exact ⟨_, _, rfl, hok, hw⟩
      · split
        · simp only [u64add, Option.bind_some]
          refine finish_safe ?_ ?_ _ <;> first | exact hok | exact hw
        · obtain ⟨r, dc', h3, h4, h5⟩ := flagTimestamp_safe
            (dc := { dc with source := dc.source.adv l2 }) hok hw (b2.headD 0#8) l2 (dc.source.adv l2) hok
          simp only [h3, Option.bind_some]
          cases r with
          | none => exact ⟨_, _, rfl, h4, h5⟩
          | some ts => exact finish_safe h4 h5 ts

theorem collect_safe (fuel : Nat) {dc : GorillaDecompactor} (hok : dc.source.data.Ok) (hw : WinOk dc) :
    collect .release fuel dc ≠ .panic := by
  induction fuel generalizing dc with
  | zero => simp [collect]
  | succ fuel ih =>
    rw [collect]
    obtain ⟨r, dc', h1, h2, h3⟩ := next_safe hok hw
    rw [h1]
    cases r with
    | none => simp
    | some p =>
      have := ih h2 h3
      revert this
      simp only
      cases collect .release fuel dc' <;> simp

/-! ### Release build, bad bit count: the reader never sees the end -/

theorem read_full {sk : Seeker} (hbad : ¬ sk.data.Ok) {r : Nat} (hr : sk.data.remaining ≤ r) (hr2 : r ≤ 255)
    {buf n b l sk'} (hc : sk.cursor + n ≤ 1000)
    (h : sk.readNextNBit .release buf n = some (b, l, sk')) : l = n ∧ sk' = sk.adv n := by
  obtain ⟨L, hL, rfl, a2, a3, a4, a5⟩ := read_facts _ h
  have : L = 2 ^ 64 + sk.data.data.length * 8 - sk.data.remaining := by
    unfold Bstream.bitlen at hL
    rw [if_neg (by unfold Bstream.Ok at hbad; omega)] at hL
    simpa using hL.symm
  have := a5 (by omega)
  subst this
  exact ⟨rfl, rfl⟩

/-- The stream claims more unused bits than it has bits. -/
def Bad (s : Bstream) : Prop := ¬ s.Ok ∧ s.remaining ≤ 255

theorem read_full' {sk : Seeker} (hbad : Bad sk.data) {buf n b l sk'} (hc : sk.cursor + n ≤ 1000)
    (h : sk.readNextNBit .release buf n = some (b, l, sk')) : l = n ∧ sk' = sk.adv n :=
  read_full hbad.1 (Nat.le_refl _) hbad.2 hc h

theorem decValues_bad {dc dc' : GorillaDecompactor} (hb : Bad dc.source.data) (hc : dc.source.cursor ≤ 600) :
    decompactValues .release dc ≠ some (none, dc') := by
  intro h
  simp only [decompactValues, Option.bind_eq_bind] at h
  cases h1 : dc.source.readNextNBit .release [0x00#8] 2 with
  | none => simp only [h1, Option.bind_none, reduceCtorEq] at h
  | some r =>
  obtain ⟨b1, l1, s1⟩ := r
  obtain ⟨rfl, rfl⟩ := read_full' hb (by omega) h1
  simp only [h1, Option.bind_some] at h
  rw [if_neg (by omega)] at h
  by_cases c2 : 2 = 1 ∨ b1.headD 0#8 &&& 128#8 = 0#8
  · rw [if_pos c2] at h; simp at h
  rw [if_neg c2] at h
  by_cases c3 : b1.headD 0#8 &&& 192#8 = 128#8
  · rw [if_pos c3] at h
    cases e1 : u8sub .release 64 dc.leading with
    | none => simp only [e1, Option.bind_none, reduceCtorEq] at h
    | some a =>
    simp only [e1, Option.bind_some] at h
    cases e2 : u8sub .release a dc.tailing with
    | none => simp only [e2, Option.bind_none, reduceCtorEq] at h
    | some b =>
    simp only [e2, Option.bind_some] at h
    cases h2 : (dc.source.adv 2).readNextNBit .release (vecWithLen 8) b with
    | none => simp only [h2, Option.bind_none, reduceCtorEq] at h
    | some r =>
    obtain ⟨b2, l2, s2⟩ := r
    -- a successful read never exceeds the 8-byte buffer
    have hbb : b ≤ 256 ∨ 256 < b := by omega
    have hb256 : b ≤ 320 := by
      revert e1 e2
      unfold u8sub
      intro e1 e2
      split at e1 <;> split at e2 <;> simp at e1 e2 <;> omega
    obtain ⟨rfl, rfl⟩ := read_full' (sk := dc.source.adv 2) hb (by simp only [Seeker.adv]; omega) h2
    simp only [h2, Option.bind_some] at h
    rw [if_neg (by simp)] at h
    cases e3 : fromBE b2 with
    | none => simp only [e3, Option.bind_none, reduceCtorEq] at h
    | some w =>
    simp only [e3, Option.bind_some] at h
    cases e4 : shr64 .release w dc.leading with
    | none => simp only [e4, Option.bind_none, reduceCtorEq] at h
    | some x => simp [e4] at h
  rw [if_neg c3] at h
  cases h2 : (dc.source.adv 2).readNextNBit .release [0x00#8] 5 with
  | none => simp only [h2, Option.bind_none, reduceCtorEq] at h
  | some r =>
  obtain ⟨b2, l2, s2⟩ := r
  obtain ⟨rfl, rfl⟩ := read_full' (sk := dc.source.adv 2) hb (by simp only [Seeker.adv]; omega) h2
  simp only [h2, Option.bind_some] at h
  rw [if_neg (by simp)] at h
  cases h3 : ((dc.source.adv 2).adv 5).readNextNBit .release [0x00#8] 6 with
  | none => simp only [h3, Option.bind_none, reduceCtorEq] at h
  | some r =>
  obtain ⟨b3, l3, s3⟩ := r
  obtain ⟨rfl, rfl⟩ := read_full' (sk := (dc.source.adv 2).adv 5) hb (by simp only [Seeker.adv]; omega) h3
  simp only [h3, Option.bind_some] at h
  rw [if_neg (by simp)] at h
  have hsig := shr2 (b3.headD 0#8)
  generalize (b3.headD 0#8 >>> 2).toNat = sig at *
  generalize (b2.headD 0#8 >>> 3).toNat = lead at *
  cases e1 : u8sub .release 64 sig with
  | none => simp only [e1, Option.bind_none, reduceCtorEq] at h
  | some a =>
  simp only [e1, Option.bind_some] at h
  cases e2 : u8sub .release a lead with
  | none => simp only [e2, Option.bind_none, reduceCtorEq] at h
  | some b =>
  simp only [e2, Option.bind_some] at h
  cases h4 : (((dc.source.adv 2).adv 5).adv 6).readNextNBit .release (vecWithLen 8) sig with
  | none => simp only [h4, Option.bind_none, reduceCtorEq] at h
  | some r =>
  obtain ⟨b4, l4, s4⟩ := r
  obtain ⟨rfl, rfl⟩ := read_full' (sk := ((dc.source.adv 2).adv 5).adv 6) hb (by simp only [Seeker.adv]; omega) h4
  simp only [h4, Option.bind_some] at h
  rw [if_neg (by simp)] at h
  cases e3 : fromBE b4 with
  | none => simp only [e3, Option.bind_none, reduceCtorEq] at h
  | some w =>
  simp only [e3, Option.bind_some] at h
  cases e4 : shr64 .release w lead with
  | none => simp only [e4, Option.bind_none, reduceCtorEq] at h
  | some x => simp [e4] at h

theorem finish_bad {dc dc' : GorillaDecompactor} (hb : Bad dc.source.data) (hc : dc.source.cursor ≤ 600) (ts : U64) :
    finish .release dc ts ≠ some (none, dc') := by
  intro h
  simp only [finish, Option.bind_eq_bind] at h
  cases h1 : decompactValues .release { dc with t := ts } with
  | none => simp only [h1, Option.bind_none, reduceCtorEq] at h
  | some r =>
    obtain ⟨v, dc1⟩ := r
    simp only [h1, Option.bind_some] at h
    cases v with
    | none => exact decValues_bad (dc := { dc with t := ts }) hb hc h1
    | some v => simp at h

theorem decTimestamp_bad {dc dc' : GorillaDecompactor} (hb : Bad dc.source.data) {n : Nat}
    (hc : dc.source.cursor + n ≤ 1000) : decompactTimestamp .release dc n ≠ some (none, dc') := by
  intro h
  simp only [decompactTimestamp, Option.bind_eq_bind] at h
  cases h2 : dc.source.readNextNBit .release (vecWithLen (n / 8)) n with
  | none => simp only [h2, Option.bind_none, reduceCtorEq] at h
  | some r =>
    obtain ⟨b2, l2, s2⟩ := r
    obtain ⟨rfl, rfl⟩ := read_full' hb (by omega) h2
    simp only [h2, Option.bind_some] at h
    rw [if_neg (by simp)] at h
    simp [i64add, u64add] at h

theorem flagTimestamp_bad {dc dc' : GorillaDecompactor} (f : Byte) (src : Seeker) (hb : Bad src.data)
    (hc : src.cursor ≤ 600) : flagTimestamp .release dc f 4 src ≠ some (none, dc') := by
  unfold flagTimestamp
  split
  · exact decTimestamp_bad hb (by (try simp only); omega)
  · split
    · exact decTimestamp_bad hb (by (try simp only); omega)
    · split
      · exact decTimestamp_bad hb (by (try simp only); omega)
      · exact decTimestamp_bad hb (by (try simp only); omega)

theorem flagTimestamp_src {dc dc' : GorillaDecompactor} {f : Byte} {src : Seeker} {ts}
    (h : flagTimestamp .release dc f 4 src = some (some ts, dc')) :
    dc'.source.data = src.data ∧ dc'.source.cursor ≤ src.cursor + 64 := by
  unfold flagTimestamp at h
  split at h
  · rw [(decTimestamp_facts _ h).1]; simp only [Seeker.adv]; exact ⟨trivial, by omega⟩
  · split at h
    · rw [(decTimestamp_facts _ h).1]; simp only [Seeker.adv]; exact ⟨trivial, by omega⟩
    · split at h
      · rw [(decTimestamp_facts _ h).1]; simp only [Seeker.adv]; exact ⟨trivial, by omega⟩
      · rw [(decTimestamp_facts _ h).1]; simp only [Seeker.adv]; exact ⟨trivial, by omega⟩

theorem next_bad {dc dc' : GorillaDecompactor} (hb : Bad dc.source.data) (hc : dc.source.cursor ≤ 300) :
    next .release dc ≠ some (none, dc') := by
  intro h
  unfold next at h
  split at h
  · simp only [Option.bind_eq_bind] at h
    cases h2 : dc.source.readNextNBit .release (vecWithLen 16) 128 with
    | none => simp only [h2, Option.bind_none, reduceCtorEq] at h
    | some r =>
    obtain ⟨b2, l2, s2⟩ := r
    obtain ⟨rfl, rfl⟩ := read_full' hb (by omega) h2
    simp only [h2, Option.bind_some] at h
    rw [if_neg (by simp)] at h
    cases e3 : fromBE (b2.take 8) with
    | none => simp only [e3, Option.bind_none, reduceCtorEq] at h
    | some w =>
    cases e4 : fromBE (b2.drop 8) with
    | none => simp only [e3, e4, Option.bind_some, Option.bind_none, reduceCtorEq] at h
    | some w => simp [e3, e4] at h
  · split at h
    · simp only [Option.bind_eq_bind] at h
      cases h2 : dc.source.readNextNBit .release (vecWithLen 8) 64 with
      | none => simp only [h2, Option.bind_none, reduceCtorEq] at h
      | some r =>
      obtain ⟨b2, l2, s2⟩ := r
      obtain ⟨rfl, rfl⟩ := read_full' hb (by omega) h2
      simp only [h2, Option.bind_some] at h
      rw [if_neg (by simp)] at h
      cases e3 : fromBE b2 with
      | none => simp only [e3, Option.bind_none, reduceCtorEq] at h
      | some w =>
        simp only [e3, i64add, Option.bind_some] at h
        refine finish_bad ?_ ?_ _ h
        · exact hb
        · simp only [Seeker.adv]; omega
    · simp only [Option.bind_eq_bind] at h
      cases h2 : dc.source.readNextNBit .release [0x00#8] 4 with
      | none => simp only [h2, Option.bind_none, reduceCtorEq] at h
      | some r =>
      obtain ⟨b2, l2, s2⟩ := r
      obtain ⟨rfl, rfl⟩ := read_full' hb (by omega) h2
      simp only [h2, Option.bind_some] at h
      rw [if_neg (by omega)] at h
      split at h
      · simp only [u64add, Option.bind_some] at h
        refine finish_bad ?_ ?_ _ h
        · exact hb
        · simp only [Seeker.adv]; omega
      · cases e5 : flagTimestamp .release { dc with source := dc.source.adv 4 } (b2.headD 0#8) 4 (dc.source.adv 4) with
        | none => simp only [e5, Option.bind_none, reduceCtorEq] at h
        | some r =>
        obtain ⟨ts, dc1⟩ := r
        simp only [e5, Option.bind_some] at h
        cases ts with
        | none => exact flagTimestamp_bad (src := dc.source.adv 4) _ hb (show dc.source.cursor + 4 ≤ 600 by omega) e5
        | some ts =>
          obtain ⟨q1, q2⟩ := flagTimestamp_src e5
          simp only at h
          refine finish_bad ?_ ?_ _ h
          · rw [q1]; exact hb
          · simp only [Seeker.adv] at q2; omega

theorem collect_bad (fuel : Nat) {dc : GorillaDecompactor} (hb : Bad dc.source.data) (hc : dc.source.cursor ≤ 300)
    (l) : collect .release fuel dc ≠ .ok l := by
  induction fuel generalizing dc l with
  | zero => simp [collect]
  | succ fuel ih =>
    rw [collect]
    cases hn : next .release dc with
    | none => simp
    | some r =>
      obtain ⟨o, dc'⟩ := r
      cases o with
      | none => exact absurd hn (next_bad hb hc)
      | some p =>
        obtain ⟨L, a1, a2, a3, a4, a5, a6⟩ := next_facts _ hn
        have hlen : 8 * dc.source.data.data.length < 255 := by
          have := hb.1; have := hb.2; unfold Bstream.Ok at *; omega
        have := fun l => ih (dc := dc') (by rw [a2]; exact hb) (by omega) l
        simp only
        cases hcc : collect .release fuel dc' with
        | ok l' => exact absurd hcc (this l')
        | panic => simp
        | outOfFuel => simp

/-! ### Debug versus release -/

/-- Either a panic or the same result. -/
def Le {α : Type} (a b : Option α) : Prop := a = none ∨ a = b

theorem Le.refl {α} (a : Option α) : Le a a := Or.inr rfl
theorem Le.bind {α β} {a b : Option α} {f g : α → Option β} (h : Le a b) (hf : ∀ x, Le (f x) (g x)) :
    Le (a.bind f) (b.bind g) := by
  rcases h with rfl | rfl
  · exact Or.inl rfl
  · cases a with
    | none => exact Or.inl rfl
    | some x => exact hf x
theorem Le.ite {α} {p : Prop} [Decidable p] {a b c d : Option α} (h1 : Le a b) (h2 : Le c d) :
    Le (if p then a else c) (if p then b else d) := by
  split <;> assumption

theorem le_u8sub (a b) : Le (u8sub .debug a b) (u8sub .release a b) := by
  unfold u8sub; split <;> simp [Le]
theorem le_shr64 (a b) : Le (shr64 .debug a b) (shr64 .release a b) := by
  unfold shr64; split <;> simp [Le]
theorem le_i64add (a b) : Le (i64add .debug a b) (i64add .release a b) := by
  simp only [i64add]; split <;> simp [Le]
theorem le_u64add (a b) : Le (u64add .debug a b) (u64add .release a b) := by
  simp only [u64add]; split <;> simp [Le]
theorem le_bitlen (s : Bstream) : Le (s.bitlen .debug) (s.bitlen .release) := by
  unfold Bstream.bitlen; split <;> simp [Le]
theorem le_read (sk : Seeker) (buf n) : Le (sk.readNextNBit .debug buf n) (sk.readNextNBit .release buf n) := by
  unfold Seeker.readNextNBit
  exact (le_bitlen _).bind fun _ => Le.refl _

theorem le_decValues (dc : GorillaDecompactor) : Le (decompactValues .debug dc) (decompactValues .release dc) := by
  unfold decompactValues
  refine (le_read _ _ _).bind fun _ => ?_
  refine Le.ite (Le.refl _) (Le.ite (Le.refl _) (Le.ite ?_ ?_))
  · refine (le_u8sub _ _).bind fun _ => (le_u8sub _ _).bind fun _ => (le_read _ _ _).bind fun _ => ?_
    exact Le.ite (Le.refl _) ((Le.refl _).bind fun _ => (le_shr64 _ _).bind fun _ => Le.refl _)
  · refine (le_read _ _ _).bind fun _ => Le.ite (Le.refl _) ((le_read _ _ _).bind fun _ => Le.ite (Le.refl _) ?_)
    refine (le_u8sub _ _).bind fun _ => (le_u8sub _ _).bind fun _ => (le_read _ _ _).bind fun _ => ?_
    exact Le.ite (Le.refl _) ((Le.refl _).bind fun _ => (le_shr64 _ _).bind fun _ => Le.refl _)

theorem le_finish (dc : GorillaDecompactor) (ts) : Le (finish .debug dc ts) (finish .release dc ts) := by
  unfold finish
  exact (le_decValues _).bind fun _ => Le.refl _

theorem le_decTimestamp (dc : GorillaDecompactor) (n) :
    Le (decompactTimestamp .debug dc n) (decompactTimestamp .release dc n) := by
  unfold decompactTimestamp
  exact (le_read _ _ _).bind fun _ => Le.ite (Le.refl _)
    ((le_i64add _ _).bind fun _ => (le_u64add _ _).bind fun _ => Le.refl _)

theorem le_flag (dc : GorillaDecompactor) (f l src) :
    Le (flagTimestamp .debug dc f l src) (flagTimestamp .release dc f l src) := by
  unfold flagTimestamp
  exact Le.ite (le_decTimestamp _ _) (Le.ite (le_decTimestamp _ _) (Le.ite (le_decTimestamp _ _) (le_decTimestamp _ _)))

theorem le_next (dc : GorillaDecompactor) : Le (next .debug dc) (next .release dc) := by
  unfold next
  refine Le.ite ?_ (Le.ite ?_ ?_)
  · exact (le_read _ _ _).bind fun _ => Le.refl _
  · exact (le_read _ _ _).bind fun _ => Le.ite (Le.refl _)
      ((Le.refl _).bind fun _ => (le_i64add _ _).bind fun _ => le_finish _ _)
  · refine (le_read _ _ _).bind fun _ => Le.ite (Le.refl _) (Le.ite ?_ ?_)
    · exact (le_u64add _ _).bind fun _ => le_finish _ _
    · refine (le_flag _ _ _ _).bind fun x => ?_
      rcases x with ⟨_ | ts, dc'⟩
      · exact Le.refl _
      · exact le_finish _ _

theorem le_collect (fuel) (dc : GorillaDecompactor) :
    collect .debug fuel dc = .panic ∨ collect .debug fuel dc = collect .release fuel dc := by
  induction fuel generalizing dc with
  | zero => simp [collect]
  | succ fuel ih =>
    rw [collect, collect]
    rcases le_next dc with h | h
    · rw [h]; exact Or.inl rfl
    · rw [← h]
      cases hn : next .debug dc with
      | none => exact Or.inl rfl
      | some r =>
        obtain ⟨o, dc'⟩ := r
        cases o with
        | none => exact Or.inr rfl
        | some p =>
          rcases ih dc' with h | h
          · simp [h]
          · simp [h]

end Verif
