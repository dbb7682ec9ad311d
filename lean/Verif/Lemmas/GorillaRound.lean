import Verif.Lemmas.GorillaSim
/-! One point, then all points. -/
namespace Verif
open List GorillaDecompactor

/-- A value change that survives the round trip. -/
def goodX (len : Nat) (w : Nat × Nat) (x : U64) : Prop :=
  x = 0#64 ∨ fits len w x ∨ (lz x < 32 ∧ lz x + tz x ≠ 0)

/-- Value decoding, all cases: the decoded change, the window and the position afterwards. -/
theorem decValues_all (m : Mode) {dc : GorillaDecompactor} (h : dc.source.Good) {len : Nat} {x : U64} {r}
    (hw : dc.leading + dc.tailing < 64)
    (hr : dc.source.rest = encX len (dc.leading, dc.tailing) x ++ r) :
    (goodX len (dc.leading, dc.tailing) x →
      decompactValues m dc = some (some (dc.v ^^^ x), { dc with
        v := dc.v ^^^ x
        leading := (winX len (dc.leading, dc.tailing) x).1
        tailing := (winX len (dc.leading, dc.tailing) x).2
        source := dc.source.adv (encX len (dc.leading, dc.tailing) x).length })) ∧
    (¬ goodX len (dc.leading, dc.tailing) x →
      ∃ y dc', y ≠ x ∧ decompactValues m dc = some (some (dc.v ^^^ y), dc')) := by
  by_cases hx : x = 0#64
  · subst hx
    refine ⟨fun _ => ?_, fun hg => absurd (Or.inl rfl) hg⟩
    have hr' : dc.source.rest = false :: r := by simpa [encX] using hr
    rw [decValues_zero m h hr']
    simp [winX, encX]
  · have hlt := lz_add_tz hx
    by_cases hf : fits len (dc.leading, dc.tailing) x
    · refine ⟨fun _ => ?_, fun hg => absurd (Or.inr (Or.inl hf)) hg⟩
      have hxl : (((bitsOf x).drop dc.leading).take (64 - dc.leading - dc.tailing)).length = 64 - dc.leading - dc.tailing := by
        simp
      have henc : encX len (dc.leading, dc.tailing) x = true :: false :: ((bitsOf x).drop dc.leading).take (64 - dc.leading - dc.tailing) := by
        simp [encX, hx, hf]
      rw [henc] at hr
      rw [decValues_reuse m h (X := ((bitsOf x).drop dc.leading).take (64 - dc.leading - dc.tailing)) (r := r) (x := x)
        (by simpa using hr) hxl hw (bits_window x hf.2.1 hf.2.2 (by omega))]
      rw [henc]
      simp only [winX, hf, or_true, if_true, List.length_cons]
      rw [Nat.add_comm 2]
    · have henc : encX len (dc.leading, dc.tailing) x = [true, true] ++ (bitsOf (BitVec.ofNat 64 (lz x))).drop 59 ++
          (bitsOf (BitVec.ofNat 64 (64 - lz x - tz x))).drop 58 ++ ((bitsOf x).drop (lz x)).take (64 - lz x - tz x) := by
        simp [encX, hx, hf]
      have hxl : (((bitsOf x).drop (lz x)).take (64 - lz x - tz x)).length = 64 - lz x - tz x := by
        simp
      rw [henc] at hr
      obtain ⟨y, hy1, hy2⟩ := decValues_open m h hx hr hxl
      have hbw := bits_window x (Nat.le_refl (lz x)) (Nat.le_refl (tz x)) (by omega)
      have hbit := bit_lz hx
      rw [hxl] at hy1 hy2
      constructor
      · intro hg
        have hg' : lz x < 32 ∧ lz x + tz x ≠ 0 := by
          rcases hg with h | h | h
          · exact absurd h hx
          · exact absurd h hf
          · exact h
        have e1 : lz x % 32 = lz x := Nat.mod_eq_of_lt hg'.1
        have e2 : (64 - lz x - tz x) % 64 = 64 - lz x - tz x := Nat.mod_eq_of_lt (by omega)
        have e3 : 64 - (64 - lz x - tz x) - lz x = tz x := by omega
        rw [e1, e2] at hy1 hy2
        rw [e3] at hy1 hy2
        have hyx : y = x := by
          apply bitsOf_inj
          rw [hy1]
          conv => rhs; rw [hbw]
          rw [List.take_take, Nat.min_self]
        subst hyx
        rw [hy2, henc]
        have hwin : winX len (dc.leading, dc.tailing) y = (lz y, tz y) := by simp [winX, hx, hf]
        rw [hwin]
        simp only [List.length_append, hxl]
        congr 5
      · intro hg
        refine ⟨y, _, ?_, hy2⟩
        intro hyx
        have hbad : 32 ≤ lz x ∨ lz x + tz x = 0 := by
          by_contra hcon
          apply hg
          right; right
          omega
        rcases hbad with hb | hb
        · -- the first significant bit moves to the left
          have hi : (bitsOf x)[lz x % 32]? = some false := by
            obtain ⟨q, hq, _⟩ := bits_lz x
            rw [hq, List.getElem?_append_left (by simp; omega), List.getElem?_replicate, if_pos (by omega)]
          have hi : (bitsOf y)[lz x % 32]? = some false := by rw [hyx]; exact hi
          have hlt32 : (64 - lz x - tz x) % 64 = 64 - lz x - tz x := Nat.mod_eq_of_lt (by omega)
          rw [hy1, hlt32, List.take_take, Nat.min_self] at hi
          rw [append_assoc, List.getElem?_append_right (by simp)] at hi
          simp only [length_replicate, Nat.sub_self] at hi
          rw [List.getElem?_append_left (by rw [hxl]; omega), List.getElem?_take_of_lt (by omega), List.getElem?_drop] at hi
          simp only [Nat.add_zero, hbit] at hi
          simp at hi
        · -- nothing is read
          have h0 : lz x = 0 := by omega
          have h1 : tz x = 0 := by omega
          simp [h0, h1] at hy1
          apply hx
          rw [← hyx]
          apply bitsOf_inj
          rw [hy1, bitsOf_zero]
          rfl

/-- Decoder state equals compactor state. -/
def Match (c : GorillaCompactor) (dc : GorillaDecompactor) : Prop :=
  dc.t = c.t ∧ dc.v = c.v ∧ dc.leading = c.leading ∧ dc.tailing = c.tailing ∧ dc.d = c.d ∧ dc.idx = c.len

/-- A point that survives the round trip. -/
def goodPoint (c : GorillaCompactor) (p : TimePoint) : Prop :=
  c.len = 0 ∨ ((c.len = 1 ∨ goodT ((p.ts - c.t) - c.d)) ∧ goodX c.len (c.leading, c.tailing) (p.val ^^^ c.v))

/-- The decoder's additions do not overflow on this point (always true in release). -/
def addsOk (m : Mode) (c : GorillaCompactor) (p : TimePoint) : Prop :=
  m = .release ∨ c.len = 0 ∨
  (c.len = 1 ∧ i64add m (p.ts - c.t) c.t = some p.ts) ∨
  (2 ≤ c.len ∧ (((p.ts - c.t) - c.d = 0#64) ∨ i64add m ((p.ts - c.t) - c.d) c.d = some (p.ts - c.t)) ∧
    u64add m c.t (p.ts - c.t) = some p.ts)

theorem sub_add_self (a b : U64) : a - b + b = a := BitVec.sub_add_cancel a b
theorem add_sub_self (a b : U64) : b + (a - b) = a := by rw [BitVec.add_comm]; exact sub_add_self a b
theorem xor_xor_self (a b : U64) : b ^^^ (a ^^^ b) = a := by
  rw [BitVec.xor_comm a b, ← BitVec.xor_assoc, BitVec.xor_self, BitVec.zero_xor]

theorem adds_one {m c p} (h : addsOk m c p) (hl : c.len = 1) : i64add m (p.ts - c.t) c.t = some p.ts := by
  rcases h with h | h | ⟨_, h⟩ | ⟨h, _⟩
  · subst h; simp [i64add, sub_add_self]
  · omega
  · exact h
  · omega

theorem adds_two {m c p} (h : addsOk m c p) (hl : 2 ≤ c.len) :
    (if (p.ts - c.t) - c.d = 0#64 then some c.d else i64add m ((p.ts - c.t) - c.d) c.d) = some (p.ts - c.t) ∧
    u64add m c.t (p.ts - c.t) = some p.ts := by
  have hz : (p.ts - c.t) - c.d = 0#64 → c.d = p.ts - c.t := by
    intro h0
    have := sub_add_self (p.ts - c.t) c.d
    rw [h0] at this
    simpa using this
  rcases h with h | h | ⟨h, _⟩ | ⟨_, h1, h2⟩
  · subst h
    refine ⟨?_, by simp [u64add, add_sub_self]⟩
    split
    · rename_i h0; rw [hz h0]
    · simp [i64add, sub_add_self]
  · omega
  · omega
  · refine ⟨?_, h2⟩
    split
    · rename_i h0; rw [hz h0]
    · rename_i h0
      rcases h1 with h1 | h1
      · exact absurd h1 h0
      · exact h1

/-- One good point is decoded. -/
theorem step_good (m : Mode) {c : GorillaCompactor} {dc : GorillaDecompactor} (hm : Match c dc)
    (h : dc.source.Good) (hw : c.leading + c.tailing < 64) {p : TimePoint} {r} (s : Bstream)
    (hr : dc.source.rest = encPoint c p ++ r) (hg : goodPoint c p) (ha : addsOk m c p) :
    ∃ dc', next m dc = some (some p, dc') ∧ Match (updPoint c p s) dc' ∧
      dc'.source.Good ∧ dc'.source.rest = r := by
  obtain ⟨m1, m2, m3, m4, m5, m6⟩ := hm
  have hsrc : ∀ n, n = (encPoint c p).length → (dc.source.adv n).Good ∧ (dc.source.adv n).rest = r := by
    intro n hn; subst hn; exact h.adv hr
  by_cases h0 : c.len = 0
  · have henc : encPoint c p = bitsOf p.ts ++ bitsOf p.val := by simp [encPoint, h0]
    have hlen : (bitsOf p.ts ++ bitsOf p.val).length = 128 := by simp
    obtain ⟨buf, e1, e2, e3⟩ := read_exact m h 16 (by rw [hr, henc]) (by rw [hlen])
    rw [hlen] at e1 e3
    have e1' : dc.source.readNextNBit m (vecWithLen 16) 128 = some (buf, 128, dc.source.adv 128) := e1
    have f1 : flat (buf.take 8) = bitsOf p.ts ∧ flat (buf.drop 8) = bitsOf p.val := by
      have h1 : flat (buf.take 8) ++ flat (buf.drop 8) = bitsOf p.ts ++ bitsOf p.val := by
        rw [← flat_append, List.take_append_drop, e3]; simp
      exact List.append_inj h1 (by simp [e2])
    have g1 : fromBE (buf.take 8) = some p.ts := by
      obtain ⟨w, w1, w2⟩ := fromBE_eq_some (bs := buf.take 8) (by simp [e2])
      rw [w1]; congr 1; apply bitsOf_inj; rw [w2, f1.1]
    have g2 : fromBE (buf.drop 8) = some p.val := by
      obtain ⟨w, w1, w2⟩ := fromBE_eq_some (bs := buf.drop 8) (by simp [e2])
      rw [w1]; congr 1; apply bitsOf_inj; rw [w2, f1.2]
    refine ⟨{ dc with source := dc.source.adv 128, t := p.ts, v := p.val, idx := dc.idx + 1 }, ?_, ?_, ?_⟩
    · simp only [next, m6, h0, if_true, e1', Option.bind_eq_bind, Option.bind_some, ne_eq, not_true, if_false, g1, g2]
      rfl
    · simp [Match, updPoint, h0, m3, m4, m5, m6]
    · exact hsrc 128 (by rw [henc, hlen])
  · have hgx : goodX c.len (c.leading, c.tailing) (p.val ^^^ c.v) := by
      rcases hg with hg | hg
      · exact absurd hg h0
      · exact hg.2
    -- finishing with the value
    have fin : ∀ n, dc.source.rest = ((encPoint c p).take n) ++ (encX c.len (c.leading, c.tailing) (p.val ^^^ c.v) ++ r) →
        n ≤ (encPoint c p).length → n + (encX c.len (c.leading, c.tailing) (p.val ^^^ c.v)).length = (encPoint c p).length →
        ∃ dc', finish m { dc with d := p.ts - c.t, source := dc.source.adv n } p.ts = some (some p, dc') ∧
          Match (updPoint c p s) dc' ∧ dc'.source.Good ∧ dc'.source.rest = r := by
      intro n hn hnl hsum
      have hadv := h.adv hn
      rw [List.length_take, Nat.min_eq_left hnl] at hadv
      have hd := (decValues_all m (dc := { dc with d := p.ts - c.t, source := dc.source.adv n, t := p.ts }) hadv.1
        (len := c.len) (x := p.val ^^^ c.v) (r := r) (by simpa [m3, m4] using hw) (by simpa [m3, m4] using hadv.2)).1
        (by simpa [m3, m4] using hgx)
      simp only [finish, hd, Option.bind_eq_bind, Option.bind_some]
      simp only [m2, xor_xor_self]
      refine ⟨_, rfl, ?_, ?_⟩
      · simp [Match, updPoint, h0, m3, m4, m6]
      · simp only [Seeker.adv_adv, m3, m4]
        exact hsrc _ hsum
    by_cases h1 : c.len = 1
    · have henc : encPoint c p = bitsOf (p.ts - c.t) ++ encX c.len (c.leading, c.tailing) (p.val ^^^ c.v) := by
        simp [encPoint, h1]
      have hlen : (bitsOf (p.ts - c.t)).length = 64 := by simp
      obtain ⟨buf, e1, e2, e3⟩ := read_exact m h 8 (a := bitsOf (p.ts - c.t)) (by rw [hr, henc, append_assoc]) (by rw [hlen])
      rw [hlen] at e1 e3
      have e1' : dc.source.readNextNBit m (vecWithLen 8) 64 = some (buf, 64, dc.source.adv 64) := e1
      have g1 : fromBE buf = some (p.ts - c.t) := by
        obtain ⟨w, w1, w2⟩ := fromBE_eq_some (bs := buf) e2
        rw [w1]; congr 1; apply bitsOf_inj; rw [w2, e3]; simp
      obtain ⟨dc', d1, d2, d3⟩ := fin 64 (by rw [hr, henc, List.take_append_of_le_length (by simp), List.take_of_length_le (by simp), append_assoc])
        (by rw [henc]; simp) (by rw [henc]; simp)
      refine ⟨dc', ?_, d2, d3⟩
      have hn0 : ¬ dc.idx = 0 := by omega
      have hn1 : dc.idx = 1 := by omega
      rw [← d1]
      simp only [next, hn1, if_true, e1', Option.bind_eq_bind, Option.bind_some, ne_eq, not_true, if_false, g1,
        m1, adds_one ha h1]
      rfl
    · have h2 : 2 ≤ c.len := by omega
      have henc : encPoint c p = encDod ((p.ts - c.t) - c.d) ++ encX c.len (c.leading, c.tailing) (p.val ^^^ c.v) := by
        simp [encPoint, h0, h1]
      have hgt : goodT ((p.ts - c.t) - c.d) := by
        rcases hg with hg | ⟨hg | hg, _⟩
        · exact absurd hg h0
        · exact absurd hg h1
        · exact hg
      have hsx := (sxDod_eq_iff _).mpr hgt
      obtain ⟨dc', d1, d2, d3⟩ := fin (encDod ((p.ts - c.t) - c.d)).length
        (by rw [hr, henc, List.take_append_of_le_length (by simp), List.take_of_length_le (by simp), append_assoc])
        (by rw [henc]; simp) (by rw [henc]; simp)
      refine ⟨dc', ?_, d2, d3⟩
      rw [next_dod m h (by omega) (by rw [hr, henc, append_assoc]), hsx, m5, (adds_two ha h2).1, Option.bind_some, m1,
        (adds_two ha h2).2, Option.bind_some]
      exact d1

/-- A bad point is not decoded to itself (release). -/
theorem step_bad {c : GorillaCompactor} {dc : GorillaDecompactor} (hm : Match c dc)
    (h : dc.source.Good) (hw : c.leading + c.tailing < 64) {p : TimePoint} {r}
    (hr : dc.source.rest = encPoint c p ++ r) (hg : ¬ goodPoint c p) :
    ∀ dc', next .release dc ≠ some (some p, dc') := by
  obtain ⟨m1, m2, m3, m4, m5, m6⟩ := hm
  intro dc' hnext
  have h0 : ¬ c.len = 0 := fun h0 => hg (Or.inl h0)
  -- decoding of the value after `n` bits
  have fin : ∀ (n : Nat) (d ts : U64), dc.source.rest = ((encPoint c p).take n) ++ (encX c.len (c.leading, c.tailing) (p.val ^^^ c.v) ++ r) →
      n ≤ (encPoint c p).length →
      finish .release { dc with d := d, source := dc.source.adv n } ts = some (some p, dc') →
      ts = p.ts ∧ goodX c.len (c.leading, c.tailing) (p.val ^^^ c.v) := by
    intro n d ts hn hnl hf
    have hadv := h.adv hn
    rw [List.length_take, Nat.min_eq_left hnl] at hadv
    have hd := (decValues_all .release (dc := { dc with d := d, source := dc.source.adv n, t := ts }) hadv.1
      (len := c.len) (x := p.val ^^^ c.v) (r := r) (by simpa [m3, m4] using hw) (by simpa [m3, m4] using hadv.2))
    by_cases hx : goodX c.len (c.leading, c.tailing) (p.val ^^^ c.v)
    · have hd1 := hd.1 (by simpa [m3, m4] using hx)
      simp only [finish, hd1, Option.bind_eq_bind, Option.bind_some] at hf
      simp only [Option.pure_def, Option.some.injEq, Prod.mk.injEq] at hf
      refine ⟨?_, hx⟩
      rw [← hf.1]
    · obtain ⟨y, dc'', hy, hd2⟩ := hd.2 (by simpa [m3, m4] using hx)
      simp only [finish, hd2, Option.bind_eq_bind, Option.bind_some] at hf
      simp only [m2, Option.pure_def, Option.some.injEq, Prod.mk.injEq] at hf
      exfalso
      apply hy
      have : c.v ^^^ y = p.val := by rw [← hf.1]
      rw [← this, BitVec.xor_comm c.v y, BitVec.xor_assoc, BitVec.xor_self, BitVec.xor_zero]
  apply hg
  right
  by_cases h1 : c.len = 1
  · have henc : encPoint c p = bitsOf (p.ts - c.t) ++ encX c.len (c.leading, c.tailing) (p.val ^^^ c.v) := by
      simp [encPoint, h1]
    have hlen : (bitsOf (p.ts - c.t)).length = 64 := by simp
    obtain ⟨buf, e1, e2, e3⟩ := read_exact .release h 8 (a := bitsOf (p.ts - c.t)) (by rw [hr, henc, append_assoc]) (by rw [hlen])
    rw [hlen] at e1 e3
    have e1' : dc.source.readNextNBit .release (vecWithLen 8) 64 = some (buf, 64, dc.source.adv 64) := e1
    have g1 : fromBE buf = some (p.ts - c.t) := by
      obtain ⟨w, w1, w2⟩ := fromBE_eq_some (bs := buf) e2
      rw [w1]; congr 1; apply bitsOf_inj; rw [w2, e3]; simp
    have hn1 : dc.idx = 1 := by omega
    simp only [next, hn1, if_true, e1', Option.bind_eq_bind, Option.bind_some, ne_eq, not_true, if_false, g1] at hnext
    refine ⟨Or.inl h1, (fin 64 (p.ts - c.t) (p.ts - c.t + dc.t) ?_ ?_ ?_).2⟩
    · rw [hr, henc, List.take_append_of_le_length (by simp), List.take_of_length_le (by simp), append_assoc]
    · rw [henc]; simp
    · simpa [i64add, hn1] using hnext
  · have henc : encPoint c p = encDod ((p.ts - c.t) - c.d) ++ encX c.len (c.leading, c.tailing) (p.val ^^^ c.v) := by
      simp [encPoint, h0, h1]
    rw [next_dod .release h (by omega) (by rw [hr, henc, append_assoc])] at hnext
    generalize hdod : (p.ts - c.t) - c.d = dod at *
    have hadd : (if dod = 0#64 then some dc.d else i64add .release (sxDod dod) dc.d) = some (sxDod dod + dc.d) := by
      by_cases hz : dod = 0#64
      · simp [hz, sxDod]
      · simp [hz, i64add]
    rw [hadd, Option.bind_some] at hnext
    simp only [u64add, Option.bind_some] at hnext
    have hfin := fin (encDod dod).length _ _
      (by rw [hr, henc, List.take_append_of_le_length (by simp), List.take_of_length_le (by simp), append_assoc])
      (by rw [henc]; simp) hnext
    refine ⟨Or.inr ?_, hfin.2⟩
    rw [← sxDod_eq_iff]
    have h3 := hfin.1
    rw [m1, m5] at h3
    -- t + (s + d) = ts  ⇒  s = (ts - t) - d
    have h4 : p.ts - c.t - c.d = sxDod dod := by
      rw [← h3, BitVec.add_comm c.t, BitVec.add_sub_cancel, BitVec.add_sub_cancel]
    rw [← h4, hdod]

/-- The end of the stream. -/
theorem next_end (m : Mode) {dc : GorillaDecompactor} (h : dc.source.Good) (hr : dc.source.rest = []) :
    ∃ dc', next m dc = some (none, dc') := by
  have hl := Seeker.rest_length dc.source
  rw [hr] at hl
  simp at hl
  unfold next
  split
  · obtain ⟨buf, n', h1, h2, h3, h4⟩ := read_zeros m h.1 16 128 (by omega) h.2
    have hn : n' = 0 := by omega
    subst hn
    simp only [vecWithLen, h2, Option.bind_eq_bind, Option.bind_some]
    exact ⟨_, rfl⟩
  · split
    · obtain ⟨buf, n', h1, h2, h3, h4⟩ := read_zeros m h.1 8 64 (by omega) h.2
      have hn : n' = 0 := by omega
      subst hn
      simp only [vecWithLen, h2, Option.bind_eq_bind, Option.bind_some]
      exact ⟨_, rfl⟩
    · obtain ⟨b, h1, h2⟩ := read_peek m h 4 (by omega)
      rw [hr] at h1
      simp only [length_nil, Nat.min_zero] at h1
      simp only [h1, Option.bind_eq_bind, Option.bind_some]
      exact ⟨_, rfl⟩

/-- All points from state `c` on survive. -/
def allGood : GorillaCompactor → List TimePoint → Prop
  | _, [] => True
  | c, p :: ps => goodPoint c p ∧ allGood (updPoint c p c.bstream) ps

/-- Bits of all points from state `c` on. -/
def encAll : GorillaCompactor → List TimePoint → List Bool
  | _, [] => []
  | c, p :: ps => encPoint c p ++ encAll (updPoint c p c.bstream) ps

def addsOkAll (m : Mode) : GorillaCompactor → List TimePoint → Prop
  | _, [] => True
  | c, p :: ps => addsOk m c p ∧ addsOkAll m (updPoint c p c.bstream) ps

def noPanicAll (m : Mode) : GorillaCompactor → List TimePoint → Prop
  | _, [] => True
  | c, p :: ps => noPanic m c p ∧ noPanicAll m (updPoint c p c.bstream) ps

theorem win_upd {c : GorillaCompactor} (hw : c.leading + c.tailing < 64) (p s) :
    (updPoint c p s).leading + (updPoint c p s).tailing < 64 := by
  simp only [updPoint]
  split
  · exact hw
  · exact winX_lt hw

theorem collect_good (m : Mode) (ps : List TimePoint) {c : GorillaCompactor} {dc : GorillaDecompactor}
    (hm : Match c dc) (h : dc.source.Good) (hw : c.leading + c.tailing < 64)
    (hr : dc.source.rest = encAll c ps) (hg : allGood c ps) (ha : addsOkAll m c ps) (fuel : Nat)
    (hf : ps.length < fuel) : collect m fuel dc = .ok ps := by
  induction ps generalizing c dc fuel with
  | nil =>
    obtain ⟨fuel, rfl⟩ : ∃ k, fuel = k + 1 := ⟨fuel - 1, by simp at hf; omega⟩
    obtain ⟨dc', h1⟩ := next_end m h hr
    simp [collect, h1]
  | cons p ps ih =>
    obtain ⟨fuel, rfl⟩ : ∃ k, fuel = k + 1 := ⟨fuel - 1, by simp at hf; omega⟩
    obtain ⟨dc', h1, h2, h3, h4⟩ := step_good m hm h hw c.bstream hr hg.1 ha.1
    have := ih h2 h3 (win_upd hw p _) h4 hg.2 ha.2 fuel (by simp at hf; omega)
    simp [collect, h1, this]

theorem collect_ok_good (ps : List TimePoint) {c : GorillaCompactor} {dc : GorillaDecompactor}
    (hm : Match c dc) (h : dc.source.Good) (hw : c.leading + c.tailing < 64)
    (hr : dc.source.rest = encAll c ps) (fuel : Nat)
    (hc : collect .release fuel dc = .ok ps) : allGood c ps := by
  induction ps generalizing c dc fuel with
  | nil => trivial
  | cons p ps ih =>
    cases fuel with
    | zero => simp [collect] at hc
    | succ fuel =>
      by_cases hg : goodPoint c p
      · obtain ⟨dc', h1, h2, h3, h4⟩ := step_good .release hm h hw c.bstream hr hg (Or.inl rfl)
        simp only [collect, h1] at hc
        cases hcc : collect .release fuel dc' with
        | ok l =>
          rw [hcc] at hc
          simp at hc
          subst hc
          exact ⟨hg, ih h2 h3 (win_upd hw p _) h4 fuel hcc⟩
        | panic => rw [hcc] at hc; simp at hc
        | outOfFuel => rw [hcc] at hc; simp at hc
      · have hb := step_bad hm h hw hr hg
        simp only [collect] at hc
        split at hc
        · simp at hc
        · simp at hc
        · rename_i p' dc' hn
          split at hc
          · simp at hc
            rw [hc.1] at hn
            exact absurd hn (hb _)
          · simp at hc
          · simp at hc

/-- The bits do not depend on the stream field of the state. -/
theorem encAll_stream (ps : List TimePoint) (c : GorillaCompactor) (s : Bstream) :
    encAll { c with bstream := s } ps = encAll c ps := by
  induction ps generalizing c s with
  | nil => rfl
  | cons p ps ih =>
    simp only [encAll]
    have : encPoint { c with bstream := s } p = encPoint c p := rfl
    rw [this]
    congr 1
    have := ih (updPoint c p c.bstream) s
    rw [← this]; rfl

theorem allGood_stream (ps : List TimePoint) (c : GorillaCompactor) (s : Bstream) :
    allGood { c with bstream := s } ps ↔ allGood c ps := by
  induction ps generalizing c s with
  | nil => rfl
  | cons p ps ih =>
    simp only [allGood]
    have h1 : goodPoint { c with bstream := s } p ↔ goodPoint c p := Iff.rfl
    have h2 := ih (updPoint c p c.bstream) s
    rw [h1, ← h2]; rfl

theorem noPanicAll_stream (m : Mode) (ps : List TimePoint) (c : GorillaCompactor) (s : Bstream) :
    noPanicAll m { c with bstream := s } ps ↔ noPanicAll m c ps := by
  induction ps generalizing c s with
  | nil => rfl
  | cons p ps ih =>
    simp only [noPanicAll]
    have h1 : noPanic m { c with bstream := s } p ↔ noPanic m c p := Iff.rfl
    have h2 := ih (updPoint c p c.bstream) s
    rw [h1, ← h2]; rfl

/-- The state after all points (stream aside). -/
def updAll : GorillaCompactor → List TimePoint → GorillaCompactor
  | c, [] => c
  | c, p :: ps => updAll (updPoint c p c.bstream) ps

theorem updAll_stream (ps : List TimePoint) (c : GorillaCompactor) (s : Bstream) :
    updAll { c with bstream := s } ps = { updAll c ps with bstream := s } := by
  induction ps generalizing c s with
  | nil => rfl
  | cons p ps ih =>
    simp only [updAll]
    have := ih (updPoint c p c.bstream) s
    rw [← this]; rfl

theorem compactAll_ok (m : Mode) (ps : List TimePoint) {c : GorillaCompactor} {l} (hinv : CInv c l)
    (hp : noPanicAll m c ps) :
    ∃ s, Compactor.compactAll m c ps = some { updAll c ps with bstream := s } ∧ Rep s (l ++ encAll c ps) := by
  induction ps generalizing c l with
  | nil => exact ⟨c.bstream, rfl, by simpa [encAll] using hinv.1⟩
  | cons p ps ih =>
    obtain ⟨s1, h1, h2⟩ := compact_ok m hinv p hp.1
    have hp2 : noPanicAll m (updPoint c p s1) ps := (noPanicAll_stream m ps (updPoint c p c.bstream) s1).mpr hp.2
    obtain ⟨s2, h3, h4⟩ := ih (hinv.upd p h2) hp2
    refine ⟨s2, ?_, ?_⟩
    · simp only [Compactor.compactAll, h1, Option.bind_eq_bind, Option.bind_some, h3]
      congr 1
      have := updAll_stream ps (updPoint c p c.bstream) s1
      have e : updPoint c p s1 = { updPoint c p c.bstream with bstream := s1 } := rfl
      rw [e, this]
      rfl
    · rw [encAll, ← append_assoc]
      have e : encAll (updPoint c p s1) ps = encAll (updPoint c p c.bstream) ps :=
        encAll_stream ps (updPoint c p c.bstream) s1
      rw [← e]; exact h4

theorem noPanicAll_release (ps : List TimePoint) (c) : noPanicAll .release c ps := by
  induction ps generalizing c with
  | nil => trivial
  | cons p ps ih => exact ⟨Or.inl rfl, ih _⟩

theorem addsOkAll_release (ps : List TimePoint) (c) : addsOkAll .release c ps := by
  induction ps generalizing c with
  | nil => trivial
  | cons p ps ih => exact ⟨Or.inl rfl, ih _⟩

theorem encPoint_pos (c p) : 1 ≤ (encPoint c p).length := by
  unfold encPoint
  split
  · simp
  · have : 1 ≤ (encX c.len (c.leading, c.tailing) (p.val ^^^ c.v)).length := by
      unfold encX
      split
      · simp
      · split <;> simp
    simp only [List.length_append]; omega

theorem encAll_len (ps : List TimePoint) (c) : ps.length ≤ (encAll c ps).length := by
  induction ps generalizing c with
  | nil => simp
  | cons p ps ih =>
    have h1 := encPoint_pos c p
    have h2 := ih (updPoint c p c.bstream)
    simp only [encAll, List.length_append, List.length_cons]; omega

theorem fromBytes_asBytes {s : Bstream} (h : s.remaining < 8) : Bstream.fromBytes s.asBytesVec = s := by
  cases s with
  | mk d r =>
    simp only at h
    simp [Bstream.fromBytes, Bstream.asBytesVec]
    omega

/-- Decompacting a stream that holds the bits of `ps`. -/
theorem decompact_rep {s : Bstream} {ps : List TimePoint} (hs : Rep s (encAll GorillaCompactor.new ps)) :
    (∀ m, addsOkAll m GorillaCompactor.new ps → allGood GorillaCompactor.new ps →
      collect m (Decompactor.fuel (GorillaDecompactor.new s)) (GorillaDecompactor.new s) = .ok ps) ∧
    (collect .release (Decompactor.fuel (GorillaDecompactor.new s)) (GorillaDecompactor.new s) = .ok ps →
      allGood GorillaCompactor.new ps) := by
  have hm : Match GorillaCompactor.new (GorillaDecompactor.new s) := by
    simp [Match, GorillaCompactor.new, GorillaDecompactor.new]
  have hgood : (GorillaDecompactor.new s).source.Good := ⟨hs.ok, by simp [GorillaDecompactor.new]⟩
  have hrest : (GorillaDecompactor.new s).source.rest = encAll GorillaCompactor.new ps := by
    simp [GorillaDecompactor.new, Seeker.rest, hs.bitsIn]
  have hw : GorillaCompactor.new.leading + GorillaCompactor.new.tailing < 64 := by decide
  refine ⟨fun m ha hg => collect_good m ps hm hgood hw hrest hg ha _ ?_, fun hc => collect_ok_good ps hm hgood hw hrest _ hc⟩
  have h1 := hs.len
  have h2 := encAll_len ps GorillaCompactor.new
  simp only [Decompactor.fuel, GorillaDecompactor.new]; omega

end Verif
