import Verif.Lemmas.GorillaSpec
/-! Progress, panics and build modes of the decompactor on arbitrary bytes. -/
namespace Verif
open List GorillaDecompactor

theorem readLoop_bound (s : Bstream) (ld : Nat) (k pos : Nat) {vals} (h : Seeker.readLoop s ld pos k = some vals) :
    vals.length = k ∧ (k ≠ 0 → pos + k ≤ s.data.length) := by
  induction k generalizing pos vals with
  | zero => simp [Seeker.readLoop] at h; subst h; simp
  | succ k ih =>
    simp only [Seeker.readLoop, Bstream.readByte, Option.bind_eq_bind] at h
    cases hb : s.data[pos]? with
    | none => simp [hb] at h
    | some b =>
      simp only [hb, Option.bind_some] at h
      cases hr : Seeker.readLoop s ld (pos + 1) k with
      | none => simp [hr] at h
      | some tl =>
        simp only [hr, Option.bind_some, Option.pure_def, Option.some.injEq] at h
        obtain ⟨h1, h2⟩ := ih _ hr
        have hp : pos < s.data.length := by
          rw [List.getElem?_eq_some_iff] at hb
          exact hb.1
        subst h
        simp only [List.length_cons, h1, true_and]
        intro _
        by_cases hk : k = 0
        · omega
        · have := h2 hk; omega

/-- Every successful read: the stream is unchanged, the cursor moves by the number of bits read and stays inside. -/
theorem read_facts (m : Mode) {sk : Seeker} {buf : List Byte} {n : Nat} {b' l sk'}
    (h : sk.readNextNBit m buf n = some (b', l, sk')) :
    ∃ L, sk.data.bitlen m = some L ∧ sk' = sk.adv l ∧ l ≤ n ∧ b'.length = buf.length ∧
      (l ≠ 0 → sk.cursor + l ≤ L ∧ sk.cursor + l ≤ 8 * sk.data.data.length + 7) ∧
      (sk.cursor + n ≤ L → l = n) := by
  simp only [Seeker.readNextNBit, Option.bind_eq_bind] at h
  cases hL : sk.data.bitlen m with
  | none => simp [hL] at h
  | some L =>
    simp only [hL, Option.bind_some] at h
    refine ⟨L, rfl, ?_⟩
    by_cases hc : sk.cursor > L
    · simp only [hc, if_true, Option.pure_def, Option.some.injEq, Prod.mk.injEq] at h
      obtain ⟨h1, h2, h3⟩ := h
      subst h1 h2 h3
      exact ⟨by simp [Seeker.adv], by omega, rfl, by omega, by omega⟩
    · simp only [if_neg hc] at h
      generalize hn' : (if sk.cursor + n > L then L - sk.cursor else n) = n' at h
      have hn1 : n' ≤ n ∧ sk.cursor + n' ≤ L ∧ (sk.cursor + n ≤ L → n' = n) := by
        split at hn' <;> omega
      cases hr : Seeker.readLoop sk.data (sk.cursor % 8) (sk.cursor / 8) ((n' + 7) / 8) with
      | none => simp [hr] at h
      | some vals =>
        simp only [hr, Option.bind_some] at h
        obtain ⟨v1, v2⟩ := readLoop_bound _ _ _ _ hr
        by_cases hk : (n' + 7) / 8 > buf.length
        · simp [hk] at h
        · simp only [if_neg hk, Option.pure_def, Option.some.injEq, Prod.mk.injEq] at h
          obtain ⟨h1, h2, h3⟩ := h
          subst h2 h3
          refine ⟨rfl, hn1.1, ?_, ?_, hn1.2.2⟩
          · rw [← h1]
            cases hg : vals.getLast? with
            | none => simp; omega
            | some x =>
              have : vals ≠ [] := by intro h0; simp [h0] at hg
              have : 0 < vals.length := List.length_pos_iff.mpr this
              simp; omega
          · intro h0
            have := v2 (by omega)
            omega

/-- What a successful value step does. -/
theorem decValues_facts (m : Mode) {dc : GorillaDecompactor} {v dc'}
    (h : decompactValues m dc = some (some v, dc')) :
    ∃ L, dc.source.data.bitlen m = some L ∧ dc'.source.data = dc.source.data ∧ dc'.idx = dc.idx ∧
      dc.source.cursor < dc'.source.cursor ∧ dc'.source.cursor ≤ L ∧
      dc'.source.cursor ≤ 8 * dc.source.data.data.length + 7 := by
  simp only [decompactValues, Option.bind_eq_bind] at h
  cases h1 : dc.source.readNextNBit m [0x00#8] 2 with
  | none => simp only [h1, Option.bind_none, reduceCtorEq] at h
  | some r =>
    obtain ⟨b1, l1, s1⟩ := r
    obtain ⟨L, hL, rfl, a2, a3, a4, a5⟩ := read_facts m h1
    refine ⟨L, hL, ?_⟩
    simp only [h1, Option.bind_some] at h
    by_cases hrl : l1 > 2 ∨ l1 = 0
    · rw [if_pos hrl] at h; simp at h
    · rw [if_neg hrl] at h
      have hl0 : l1 ≠ 0 := by omega
      have a4' := a4 hl0
      by_cases hc1 : l1 = 1 ∨ b1.headD 0#8 &&& 128#8 = 0#8
      · rw [if_pos hc1] at h
        simp only [Option.pure_def, Option.some.injEq, Prod.mk.injEq] at h
        obtain ⟨_, rfl⟩ := h
        simp only [Seeker.adv]
        refine ⟨by trivial, by trivial, ?_, ?_, ?_⟩ <;> omega
      · rw [if_neg hc1] at h
        by_cases hc2 : b1.headD 0#8 &&& 192#8 = 128#8
        · rw [if_pos hc2] at h
          -- window reused
          cases e1 : u8sub m 64 dc.leading with
          | none => simp only [e1, Option.bind_none, reduceCtorEq] at h
          | some n1 =>
            simp only [e1, Option.bind_some] at h
            cases e2 : u8sub m n1 dc.tailing with
            | none => simp only [e2, Option.bind_none, reduceCtorEq] at h
            | some n2 =>
              simp only [e2, Option.bind_some] at h
              cases h2 : (dc.source.adv l1).readNextNBit m (vecWithLen 8) n2 with
              | none => simp only [h2, Option.bind_none, reduceCtorEq] at h
              | some r =>
                obtain ⟨b2, l2, s2⟩ := r
                obtain ⟨L2, hL2, rfl, c2, c3, c4, c5⟩ := read_facts m h2
                have : L2 = L := by
                  have e : (dc.source.adv l1).data = dc.source.data := rfl
                  rw [e, hL] at hL2; simpa using hL2.symm
                subst this
                simp only [h2, Option.bind_some] at h
                split at h
                · simp at h
                · cases e3 : fromBE b2 with
                  | none => simp only [e3, Option.bind_none, reduceCtorEq] at h
                  | some w =>
                    simp only [e3, Option.bind_some] at h
                    cases e4 : shr64 m w dc.leading with
                    | none => simp only [e4, Option.bind_none, reduceCtorEq] at h
                    | some x =>
                      simp only [e4, Option.bind_some, Option.pure_def, Option.some.injEq, Prod.mk.injEq] at h
                      obtain ⟨_, rfl⟩ := h
                      simp only [Seeker.adv] at c4 ⊢
                      refine ⟨by trivial, by trivial, ?_, ?_, ?_⟩
                      · omega
                      · by_cases hz : l2 = 0
                        · omega
                        · exact (c4 hz).1
                      · by_cases hz : l2 = 0
                        · omega
                        · exact (c4 hz).2
        · rw [if_neg hc2] at h
          -- window opened
          cases h2 : (dc.source.adv l1).readNextNBit m [0x00#8] 5 with
          | none => simp only [h2, Option.bind_none, reduceCtorEq] at h
          | some r =>
            obtain ⟨b2, l2, s2⟩ := r
            obtain ⟨L2, hL2, rfl, c2, c3, c4, c5⟩ := read_facts m h2
            have : L2 = L := by
              have e : (dc.source.adv l1).data = dc.source.data := rfl
              rw [e, hL] at hL2; simpa using hL2.symm
            subst this
            simp only [h2, Option.bind_some] at h
            split at h
            · simp at h
            · rename_i hl2
              have hl2' : l2 = 5 := by omega
              subst hl2'
              cases h3 : ((dc.source.adv l1).adv 5).readNextNBit m [0x00#8] 6 with
              | none => simp only [h3, Option.bind_none, reduceCtorEq] at h
              | some r =>
                obtain ⟨b3, l3, s3⟩ := r
                obtain ⟨L3, hL3, rfl, d2, d3, d4, d5⟩ := read_facts m h3
                have : L3 = L2 := by
                  have e : ((dc.source.adv l1).adv 5).data = dc.source.data := rfl
                  rw [e, hL] at hL3; simpa using hL3.symm
                subst this
                simp only [h3, Option.bind_some] at h
                split at h
                · simp at h
                · rename_i hl3
                  have hl3' : l3 = 6 := by omega
                  subst hl3'
                  cases e1 : u8sub m 64 (b3.headD 0#8 >>> 2).toNat with
                  | none => simp only [e1, Option.bind_none, reduceCtorEq] at h
                  | some n1 =>
                    simp only [e1, Option.bind_some] at h
                    cases e2 : u8sub m n1 (b2.headD 0#8 >>> 3).toNat with
                    | none => simp only [e2, Option.bind_none, reduceCtorEq] at h
                    | some n2 =>
                      simp only [e2, Option.bind_some] at h
                      cases h4 : (((dc.source.adv l1).adv 5).adv 6).readNextNBit m (vecWithLen 8) (b3.headD 0#8 >>> 2).toNat with
                      | none => simp only [h4, Option.bind_none, reduceCtorEq] at h
                      | some r =>
                        obtain ⟨b4, l4, s4⟩ := r
                        obtain ⟨L4, hL4, rfl, f2, f3, f4, f5⟩ := read_facts m h4
                        have : L4 = L3 := by
                          have e : (((dc.source.adv l1).adv 5).adv 6).data = dc.source.data := rfl
                          rw [e, hL] at hL4; simpa using hL4.symm
                        subst this
                        simp only [h4, Option.bind_some] at h
                        split at h
                        · simp at h
                        · cases e3 : fromBE b4 with
                          | none => simp only [e3, Option.bind_none, reduceCtorEq] at h
                          | some w =>
                            simp only [e3, Option.bind_some] at h
                            cases e4 : shr64 m w (b2.headD 0#8 >>> 3).toNat with
                            | none => simp only [e4, Option.bind_none, reduceCtorEq] at h
                            | some x =>
                              simp only [e4, Option.bind_some, Option.pure_def, Option.some.injEq, Prod.mk.injEq] at h
                              obtain ⟨_, rfl⟩ := h
                              simp only [Seeker.adv] at c4 d4 f4 ⊢
                              refine ⟨by trivial, by trivial, ?_, ?_, ?_⟩
                              · omega
                              · by_cases hz : l4 = 0
                                · omega
                                · exact (f4 hz).1
                              · by_cases hz : l4 = 0
                                · omega
                                · exact (f4 hz).2

theorem finish_facts (m : Mode) {dc : GorillaDecompactor} {ts p dc'}
    (h : finish m dc ts = some (some p, dc')) :
    ∃ L, dc.source.data.bitlen m = some L ∧ dc'.source.data = dc.source.data ∧ dc'.idx = dc.idx + 1 ∧
      dc.source.cursor < dc'.source.cursor ∧ dc'.source.cursor ≤ L ∧
      dc'.source.cursor ≤ 8 * dc.source.data.data.length + 7 := by
  simp only [finish, Option.bind_eq_bind] at h
  cases h1 : decompactValues m { dc with t := ts } with
  | none => simp only [h1, Option.bind_none, reduceCtorEq] at h
  | some r =>
    obtain ⟨v, dc1⟩ := r
    simp only [h1, Option.bind_some] at h
    cases v with
    | none => simp at h
    | some v =>
      obtain ⟨L, a1, a2, a3, a4, a5, a6⟩ := decValues_facts m h1
      simp only [Option.pure_def, Option.some.injEq, Prod.mk.injEq] at h
      obtain ⟨_, rfl⟩ := h
      exact ⟨L, a1, a2, by simp [a3], a4, a5, a6⟩

theorem decTimestamp_facts (m : Mode) {dc : GorillaDecompactor} {n : Nat} {ts dc'}
    (h : decompactTimestamp m dc n = some (some ts, dc')) :
    dc'.source = dc.source.adv n ∧ dc'.idx = dc.idx := by
  simp only [decompactTimestamp, Option.bind_eq_bind] at h
  cases h1 : dc.source.readNextNBit m (vecWithLen (n / 8)) n with
  | none => simp only [h1, Option.bind_none, reduceCtorEq] at h
  | some r =>
    obtain ⟨b1, l1, s1⟩ := r
    obtain ⟨L, hL, rfl, a2, a3, a4, a5⟩ := read_facts m h1
    simp only [h1, Option.bind_some] at h
    split at h
    · simp at h
    · rename_i hl
      have hl' : l1 = n := by omega
      subst hl'
      cases e1 : i64add m ((BitVec.ofNat l1 (beNat b1)).signExtend 64) dc.d with
      | none => simp only [e1, Option.bind_none, reduceCtorEq] at h
      | some d =>
        simp only [e1, Option.bind_some] at h
        cases e2 : u64add m dc.t d with
        | none => simp only [e2, Option.bind_none, reduceCtorEq] at h
        | some t =>
          simp only [e2, Option.bind_some, Option.pure_def, Option.some.injEq, Prod.mk.injEq] at h
          obtain ⟨_, rfl⟩ := h
          exact ⟨rfl, rfl⟩

/-- Every point consumes at least one bit and leaves the cursor inside the stream. -/
theorem next_facts (m : Mode) {dc : GorillaDecompactor} {p dc'} (h : next m dc = some (some p, dc')) :
    ∃ L, dc.source.data.bitlen m = some L ∧ dc'.source.data = dc.source.data ∧ dc'.idx = dc.idx + 1 ∧
      dc.source.cursor < dc'.source.cursor ∧ dc'.source.cursor ≤ L ∧
      dc'.source.cursor ≤ 8 * dc.source.data.data.length + 7 := by
  unfold next at h
  split at h
  · simp only [Option.bind_eq_bind] at h
    cases h1 : dc.source.readNextNBit m (vecWithLen 16) 128 with
    | none => simp only [h1, Option.bind_none, reduceCtorEq] at h
    | some r =>
      obtain ⟨b1, l1, s1⟩ := r
      obtain ⟨L, hL, rfl, a2, a3, a4, a5⟩ := read_facts m h1
      simp only [h1, Option.bind_some] at h
      split at h
      · simp at h
      · cases e1 : fromBE (b1.take 8) with
        | none => simp [e1] at h
        | some t =>
          simp only [e1, Option.bind_some] at h
          cases e2 : fromBE (b1.drop 8) with
          | none => simp [e2] at h
          | some v =>
            simp only [e2, Option.bind_some, Option.pure_def, Option.some.injEq, Prod.mk.injEq] at h
            obtain ⟨_, rfl⟩ := h
            have := a4 (by omega)
            exact ⟨L, hL, rfl, rfl, by simp only [Seeker.adv]; omega, this.1, this.2⟩
  · split at h
    · simp only [Option.bind_eq_bind] at h
      cases h1 : dc.source.readNextNBit m (vecWithLen 8) 64 with
      | none => simp only [h1, Option.bind_none, reduceCtorEq] at h
      | some r =>
        obtain ⟨b1, l1, s1⟩ := r
        obtain ⟨L, hL, rfl, a2, a3, a4, a5⟩ := read_facts m h1
        simp only [h1, Option.bind_some] at h
        split at h
        · simp at h
        · cases e1 : fromBE b1 with
          | none => simp [e1] at h
          | some t =>
            simp only [e1, Option.bind_some] at h
            cases e2 : i64add m t dc.t with
            | none => simp [e2] at h
            | some ts =>
              simp only [e2, Option.bind_some] at h
              obtain ⟨L', b1, b2, b3, b4, b5, b6⟩ := finish_facts m h
              refine ⟨L', b1, b2, b3, ?_, b5, b6⟩
              simp only [Seeker.adv] at b4; omega
    · simp only [Option.bind_eq_bind] at h
      cases h1 : dc.source.readNextNBit m [0x00#8] 4 with
      | none => simp only [h1, Option.bind_none, reduceCtorEq] at h
      | some r =>
        obtain ⟨b1, l1, s1⟩ := r
        obtain ⟨L, hL, rfl, a2, a3, a4, a5⟩ := read_facts m h1
        simp only [h1, Option.bind_some] at h
        split at h
        · simp at h
        · rename_i hl
          split at h
          · cases e2 : u64add m dc.t dc.d with
            | none => simp [e2] at h
            | some ts =>
              simp only [e2, Option.bind_some] at h
              obtain ⟨L', b1, b2, b3, b4, b5, b6⟩ := finish_facts m h
              refine ⟨L', b1, b2, b3, ?_, b5, b6⟩
              simp only [Seeker.adv] at b4; omega
          · cases e2 : flagTimestamp m { dc with source := dc.source.adv l1 } (b1.headD 0#8) l1 (dc.source.adv l1) with
            | none => simp only [e2, Option.bind_none, reduceCtorEq] at h
            | some r =>
              obtain ⟨ts, dc1⟩ := r
              simp only [e2, Option.bind_some] at h
              cases ts with
              | none => simp at h
              | some ts =>
                obtain ⟨L', b1, b2, b3, b4, b5, b6⟩ := finish_facts m h
                -- the timestamp bits
                have hts : dc1.source.data = dc.source.data ∧ dc.source.cursor < dc1.source.cursor ∧ dc1.idx = dc.idx := by
                  unfold flagTimestamp at e2
                  split at e2
                  · obtain ⟨q1, q2⟩ := decTimestamp_facts m e2
                    rw [q1]; exact ⟨rfl, by simp only [Seeker.adv]; omega, q2⟩
                  · split at e2
                    · obtain ⟨q1, q2⟩ := decTimestamp_facts m e2
                      rw [q1]; exact ⟨rfl, by simp only [Seeker.adv]; omega, q2⟩
                    · split at e2
                      · obtain ⟨q1, q2⟩ := decTimestamp_facts m e2
                        rw [q1]; exact ⟨rfl, by simp only [Seeker.adv]; omega, q2⟩
                      · obtain ⟨q1, q2⟩ := decTimestamp_facts m e2
                        rw [q1]; exact ⟨rfl, by simp only [Seeker.adv]; omega, q2⟩
                rw [hts.1] at b1 b2 b6
                refine ⟨L', b1, b2, by rw [b3, hts.2.2], by omega, b5, b6⟩

/-- Enough fuel never runs out, and more does not matter. -/
theorem collect_fuel (m : Mode) (fuel : Nat) (dc : GorillaDecompactor)
    (hf : 8 * dc.source.data.data.length + 9 ≤ fuel + dc.source.cursor) (hf0 : fuel ≠ 0) :
    collect m fuel dc ≠ .outOfFuel ∧ ∀ k, collect m (fuel + k) dc = collect m fuel dc := by
  induction fuel generalizing dc with
  | zero => exact absurd rfl hf0
  | succ fuel ih =>
    rw [collect]
    cases hn : next m dc with
    | none =>
      refine ⟨by simp, fun k => ?_⟩
      rw [show fuel + 1 + k = fuel + k + 1 by omega, collect, hn]
    | some r =>
      obtain ⟨o, dc'⟩ := r
      cases o with
      | none =>
        refine ⟨by simp, fun k => ?_⟩
        rw [show fuel + 1 + k = fuel + k + 1 by omega, collect, hn]
      | some p =>
        obtain ⟨L, a1, a2, a3, a4, a5, a6⟩ := next_facts m hn
        have := ih dc' (by rw [a2]; omega) (by omega)
        constructor
        · cases hc : collect m fuel dc' with
          | ok l => simp [hc]
          | panic => simp [hc]
          | outOfFuel => exact absurd hc this.1
        · intro k
          rw [show fuel + 1 + k = fuel + k + 1 by omega, collect, hn]
          simp only [this.2 k]

/-- The number of points is bounded by the number of bits after the cursor. -/
theorem collect_length (m : Mode) (fuel : Nat) (dc : GorillaDecompactor) {l L}
    (hL : dc.source.data.bitlen m = some L)
    (h : collect m fuel dc = .ok l) : l.length ≤ L - dc.source.cursor := by
  induction fuel generalizing dc l with
  | zero => simp [collect] at h
  | succ fuel ih =>
    rw [collect] at h
    cases hn : next m dc with
    | none => simp [hn] at h
    | some r =>
      obtain ⟨o, dc'⟩ := r
      cases o with
      | none => simp [hn] at h; subst h; simp
      | some p =>
        obtain ⟨L', a1, a2, a3, a4, a5, a6⟩ := next_facts m hn
        rw [hL] at a1
        simp only [Option.some.injEq] at a1
        subst a1
        simp only [hn] at h
        cases hc : collect m fuel dc' with
        | ok l' =>
          rw [hc] at h
          simp at h
          subst h
          have := ih dc' (by rw [a2]; exact hL) hc
          simp only [List.length_cons]; omega
        | panic => simp [hc] at h
        | outOfFuel => simp [hc] at h

end Verif
