import Verif.Lemmas.GorillaApi
/-! Properties C01 to C09: the compaction package. -/
namespace Verif
open List

/-- Points with the given timestamps and value bit patterns, for examples. -/
private def pts' (l : List (Nat × Nat)) : List TimePoint :=
  l.map fun p => ⟨BitVec.ofNat 64 p.1, BitVec.ofNat 64 p.2⟩

/-- Checking a property of the members of a concrete list (the instance Lean finds by itself for `∀ d : U64, ..` would
enumerate all words). -/
private theorem allOf {α : Type} {l : List α} {p : α → Prop} [DecidablePred p]
    (h : l.all (fun x => decide (p x)) = true) : ∀ x ∈ l, p x := by simpa using h

/-! ### C02 exact lossless domain -/

/-- C02. In the release build, compacting and decompacting returns the original points if and only if no second
difference of timestamps (mod 2^64) is 2^7, 2^15 or 2^31 and every XOR window opened by the values has fewer than 32
leading zeros and fewer than 64 significant bits. -/
theorem C02_lossless_iff (pts : List TimePoint) :
    gorillaRoundTrip .release pts = .ok pts ↔
      (∀ d ∈ secondDiffs (pts.map (·.ts)), d ≠ 128#64 ∧ d ≠ 32768#64 ∧ d ≠ 2147483648#64) ∧
      (∀ w ∈ opened (xors (pts.map (·.val))), w.1 < 32 ∧ w.1 + w.2 ≠ 0) := by
  obtain ⟨s, h1, h2, _⟩ := gorillaBytes_ok .release pts (noPanicAll_release pts _)
  rw [gorillaRoundTrip, h2]
  simp only [decompactBytes_rep .release h1]
  obtain ⟨d1, d2⟩ := decompact_rep h1
  have hs := allGood_spec pts
  constructor
  · intro h; exact hs.mp (d2 h)
  · intro h; exact d1 .release (addsOkAll_release pts _) (hs.mpr h)

/-- Windows opened by changes that each have few leading zeros and are not 64 bits wide. -/
private theorem opened_of_all {l : List U64} (h : ∀ x ∈ l, x = 0#64 ∨ (lz x < 32 ∧ lz x + tz x ≠ 0)) (w : Nat × Nat) :
    (∀ v ∈ openedFrom w l, v.1 < 32 ∧ v.1 + v.2 ≠ 0) ∧ (∀ v ∈ opened l, v.1 < 32 ∧ v.1 + v.2 ≠ 0) := by
  have key : ∀ (l : List U64), (∀ x ∈ l, x = 0#64 ∨ (lz x < 32 ∧ lz x + tz x ≠ 0)) → ∀ w,
      (∀ v ∈ openedFrom w l, v.1 < 32 ∧ v.1 + v.2 ≠ 0) := by
    intro l
    induction l with
    | nil => simp [openedFrom]
    | cons x xs ih =>
      intro h w v hv
      have hx := h x (by simp)
      have ih := ih (fun y hy => h y (by simp [hy]))
      rw [openedFrom] at hv
      split at hv
      · exact ih w v hv
      · rename_i hn
        rcases List.mem_cons.mp hv with rfl | hv
        · rcases hx with hx | hx
          · exact absurd (Or.inl hx) hn
          · exact hx
        · exact ih _ v hv
  refine ⟨key l h w, ?_⟩
  cases l with
  | nil => simp [opened]
  | cons x xs =>
    intro v hv
    have hx := h x (by simp)
    have hxs : ∀ y ∈ xs, y = 0#64 ∨ (lz y < 32 ∧ lz y + tz y ≠ 0) := fun y hy => h y (by simp [hy])
    rw [opened] at hv
    split at hv
    · exact key xs hxs _ v hv
    · rename_i hn
      rcases List.mem_cons.mp hv with rfl | hv
      · rcases hx with hx | hx
        · exact absurd hx hn
        · exact hx
      · exact key xs hxs _ v hv

/-- C02, the sufficient condition stated on neighbouring values only. -/
theorem C02_lossless_sufficient (pts : List TimePoint)
    (ht : ∀ d ∈ secondDiffs (pts.map (·.ts)), d ≠ 128#64 ∧ d ≠ 32768#64 ∧ d ≠ 2147483648#64)
    (hv : ∀ x ∈ xors (pts.map (·.val)), x = 0#64 ∨ (lz x < 32 ∧ lz x + tz x ≠ 0)) :
    gorillaRoundTrip .release pts = .ok pts :=
  (C02_lossless_iff pts).mpr ⟨ht, (opened_of_all hv (0, 0)).2⟩

/-- C02, a class of streams that is always lossless: equal values and timestamps at equal distances. -/
example : gorillaRoundTrip .release (pts' [(100, 0x3ff0000000000000), (160, 0x4000000000000000),
    (222, 0x4000000000000000), (270, 0x4008000000000000)]) =
    .ok (pts' [(100, 0x3ff0000000000000), (160, 0x4000000000000000), (222, 0x4000000000000000),
      (270, 0x4008000000000000)]) :=
  C02_lossless_sufficient _ (allOf (by decide +kernel)) (allOf (by decide +kernel))

/-! ### C01 lossless: violated -/

/-- C01 is false of the code: a second difference of 128, a value change with 63 leading zeros, and a value change with
64 significant bits each lose data. -/
theorem C01_violated : ¬ ∀ pts : List TimePoint, gorillaRoundTrip .release pts = .ok pts := by
  intro h
  have h1 := ((C02_lossless_iff (pts' [(0, 0), (0, 0), (128, 0)])).mp (h _)).1
  exact (h1 128#64 (by decide +kernel)).1 rfl

theorem C01_violated_leading_zeros :
    gorillaRoundTrip .release (pts' [(0, 0), (1, 1)]) ≠ .ok (pts' [(0, 0), (1, 1)]) := by
  intro h
  have h1 := ((C02_lossless_iff _).mp h).2
  exact absurd (h1 (63, 0) (by decide +kernel)).1 (by decide)

theorem C01_violated_wide :
    gorillaRoundTrip .release (pts' [(0, 0), (1, 0x8000000000000001)]) ≠
      .ok (pts' [(0, 0), (1, 0x8000000000000001)]) := by
  intro h
  have h1 := ((C02_lossless_iff _).mp h).2
  exact absurd (h1 (0, 0) (by decide +kernel)).2 (by decide)

/-- C01, what the decoder returns instead for a second difference of 128: a different list, without any error. -/
theorem C01_violated_silently :
    gorillaRoundTrip .release (pts' [(0, 0), (0, 0), (128, 0)]) = .ok (pts' [(0, 0), (0, 0), (2 ^ 64 - 128, 0)]) := by
  decide +kernel

/-- C01, partial: lossless on the exact domain of C02. Missing: the points outside it (for which it is false), and the
debug build (C04). -/
theorem C01_partial (pts : List TimePoint)
    (ht : ∀ d ∈ secondDiffs (pts.map (·.ts)), d ≠ 128#64 ∧ d ≠ 32768#64 ∧ d ≠ 2147483648#64)
    (hv : ∀ w ∈ opened (xors (pts.map (·.val))), w.1 < 32 ∧ w.1 + w.2 ≠ 0) :
    gorillaRoundTrip .release pts = .ok pts := (C02_lossless_iff pts).mpr ⟨ht, hv⟩

example : (∀ d ∈ secondDiffs ((pts' [(5, 7), (9, 7), (20, 0x4000000000000000)]).map (·.ts)),
      d ≠ 128#64 ∧ d ≠ 32768#64 ∧ d ≠ 2147483648#64) ∧
    (∀ w ∈ opened (xors ((pts' [(5, 7), (9, 7), (20, 0x4000000000000006)]).map (·.val))), w.1 < 32 ∧ w.1 + w.2 ≠ 0) :=
  ⟨allOf (by decide +kernel), allOf (by decide +kernel)⟩

/-! ### C03 snapshots -/

/-- C03. Splitting one `compact_vec` call on any compactor (any type, any state, any build) into two gives the same
final compactor and bytes. -/
theorem C03_split (m : Mode) (c : Compactor) (a b : List TimePoint) :
    c.compactVec m (a ++ b) = (c.compactVec m a).bind fun r => r.1.compactVec m b := by
  cases c with
  | simple => rfl
  | none v => rfl
  | gorilla g =>
    simp only [Compactor.compactVec, compactAll_append, Option.bind_eq_bind]
    cases Compactor.compactAll m g a with
    | none => rfl
    | some g' => rfl

/-- C03. Feeding points one at a time and then reading the bytes is the same as `compact_vec`. -/
theorem C03_compact_eq_compactVec (m : Mode) (pts : List TimePoint) :
    ((compactEach m (Compactor.new .gorilla) pts).bind Compactor.getBytesVec) = gorillaBytes m pts := by
  simp only [Compactor.new, compactEach_gorilla, gorillaBytes, Compactor.compactVec, Option.bind_eq_bind]
  cases Compactor.compactAll m GorillaCompactor.new pts <;> rfl

/-- C03. If a stream is in the lossless domain then the bytes read after any number `k` of its points decode to
exactly those points. (`get_bytes_vec` takes `&self`: reading does not change the compactor.) -/
theorem C03_snapshot (pts : List TimePoint) (h : gorillaRoundTrip .release pts = .ok pts) (k : Nat) :
    ∃ c bytes, compactEach .release (Compactor.new .gorilla) (pts.take k) = some c ∧ c.getBytesVec = some bytes ∧
      decompactBytes .release .gorilla bytes = .ok (.ok (pts.take k)) := by
  have hg := (allGood_spec pts).mpr ((C02_lossless_iff pts).mp h)
  have hg' : allGood GorillaCompactor.new (pts.take k) := by
    rw [← List.take_append_drop k pts] at hg; exact allGood_append hg
  obtain ⟨s, h1, h2, h3⟩ := gorillaBytes_ok .release (pts.take k) (noPanicAll_release _ _)
  refine ⟨.gorilla { updAll GorillaCompactor.new (pts.take k) with bstream := s },
    s.asBytesVec ++ [CompactType.gorilla.tag], ?_, rfl, ?_⟩
  · rw [Compactor.new, compactEach_gorilla, h3]; rfl
  · rw [decompactBytes_rep .release h1]
    exact congrArg _ ((decompact_rep h1).1 .release (addsOkAll_release _ _) hg')

example : gorillaRoundTrip .release (pts' [(5, 7), (9, 7), (20, 0x4000000000000007)]) =
    .ok (pts' [(5, 7), (9, 7), (20, 0x4000000000000007)]) := C02_lossless_sufficient _ (allOf (by decide +kernel)) (allOf (by decide +kernel))

/-! ### C04 debug build -/

/-- C04. The debug build panics while compacting exactly when some timestamp is smaller than its predecessor or some
second difference (over the integers, first differences read as `i64`) lies outside [-32767, 32768]. -/
theorem C04_debug_panics_iff (pts : List TimePoint) :
    gorillaBytes .debug pts = none ↔
      ¬ ((∀ xy ∈ (pts.map (·.ts)).zip (pts.map (·.ts)).tail, xy.1.toNat ≤ xy.2.toNat) ∧
         ∀ x ∈ secondDiffsInt (pts.map (·.ts)), -32767 ≤ x ∧ x ≤ 32768) := by
  rw [← noPanic_spec]
  constructor
  · intro h hp
    obtain ⟨s, _, h2, _⟩ := gorillaBytes_ok .debug pts hp
    rw [h2] at h; cases h
  · intro h
    have := compactAll_panic pts cinv_new h
    simp [gorillaBytes, Compactor.new, Compactor.compactVec, this]

/-- C04. When the debug build does not panic it produces exactly the bytes of the release build. -/
theorem C04_debug_bytes_eq_release (pts : List TimePoint) (bytes : List Byte)
    (h : gorillaBytes .debug pts = some bytes) : gorillaBytes .release pts = some bytes := by
  have hp : noPanicAll .debug GorillaCompactor.new pts := by
    rw [noPanic_spec]
    by_contra hn
    rw [(C04_debug_panics_iff pts).mpr hn] at h; cases h
  obtain ⟨s, r1, h2, _⟩ := gorillaBytes_ok .debug pts hp
  obtain ⟨s', r1', h2', _⟩ := gorillaBytes_ok .release pts (noPanicAll_release _ _)
  rw [h2', r1'.unique r1, ← h2, h]

/-- C04. One step: from every compactor state reached by compacting points in a debug build, the debug compactor either
panics on the next point or moves to the same state as the release compactor. -/
theorem C04_step (pts : List TimePoint) (c : GorillaCompactor)
    (hc : Compactor.compactAll .debug GorillaCompactor.new pts = some c) (p : TimePoint) :
    c.compact .debug p = none ∨ c.compact .debug p = c.compact .release p := by
  have hp : noPanicAll .debug GorillaCompactor.new pts := by
    by_contra hn
    rw [compactAll_panic pts cinv_new hn] at hc; cases hc
  obtain ⟨s, h1, h2⟩ := compactAll_ok .debug pts cinv_new hp
  rw [h1] at hc
  have hinv : ∃ l, CInv c l := by
    have key : ∀ (ps : List TimePoint) (c0 : GorillaCompactor), c0.leading + c0.tailing < 64 →
        (updAll c0 ps).leading + (updAll c0 ps).tailing < 64 := by
      intro ps
      induction ps with
      | nil => intro c0 h; exact h
      | cons q qs ih => intro c0 h; exact ih _ (win_upd h q _)
    simp only [Option.some.injEq] at hc
    subst hc
    exact ⟨_, h2, key pts _ (by decide)⟩
  obtain ⟨l, hinv⟩ := hinv
  by_cases hn : noPanic .debug c p
  · obtain ⟨s1, e1, r1⟩ := compact_ok .debug hinv p hn
    obtain ⟨s2, e2, r2⟩ := compact_ok .release hinv p (Or.inl rfl)
    exact Or.inr (by rw [e1, e2, r1.unique r2])
  · exact Or.inl (compact_panic hinv p hn)

example : ∃ c, Compactor.compactAll .debug GorillaCompactor.new (pts' [(1, 2), (5, 6), (10, 6)]) = some c := by
  refine ⟨_, Option.eq_some_of_isSome ?_⟩; decide +kernel

/-- C04. The debug decoder either panics or returns exactly what the release decoder returns, for every byte vector. -/
theorem C04_decoder_debug_le_release (bytes : List Byte) (t : CompactType) :
    decompactBytes .debug t bytes = .ok .panic ∨ decompactBytes .debug t bytes = decompactBytes .release t bytes := by
  simp only [decompactBytes]
  cases h : Decompactor.from' t bytes with
  | error e => right; simp only [Except.map]
  | ok d =>
    cases d with
    | none v => right; simp only [Except.map, Decompactor.decompact]
    | gorilla g =>
      rcases le_collect (Decompactor.fuel g) g with h | h
      · left; simp [Except.map, Decompactor.decompact, h]
      · right; simp [Except.map, Decompactor.decompact, h]

/-- C04. A whole debug round trip succeeds for timestamps below 2^63 in the domain of C02 on which the compactor does
not panic. -/
theorem C04_debug_lossless (pts : List TimePoint) (hp : gorillaBytes .debug pts ≠ none)
    (hb : ∀ p ∈ pts, p.ts.toNat < 2 ^ 63) (hr : gorillaRoundTrip .release pts = .ok pts) :
    gorillaRoundTrip .debug pts = .ok pts := by
  have hp' : noPanicAll .debug GorillaCompactor.new pts := by
    rw [noPanic_spec]; by_contra hn; exact hp ((C04_debug_panics_iff pts).mpr hn)
  obtain ⟨s, h1, h2, _⟩ := gorillaBytes_ok .debug pts hp'
  rw [gorillaRoundTrip, h2]
  simp only [decompactBytes_rep .debug h1]
  exact (decompact_rep h1).1 .debug (addsOk_debug pts hb (by decide) hp')
    ((allGood_spec pts).mpr ((C02_lossless_iff pts).mp hr))

example : gorillaBytes .debug (pts' [(5, 7), (9, 7), (20, 0x4000000000000007)]) ≠ none ∧
    ∀ p ∈ pts' [(5, 7), (9, 7), (20, 0x4000000000000007)], p.ts.toNat < 2 ^ 63 :=
  ⟨by decide +kernel, allOf (by decide +kernel)⟩
example : gorillaBytes .debug (pts' [(5, 7), (4, 7)]) = none := by decide +kernel
example : gorillaBytes .debug (pts' [(0, 0), (0, 7), (32769, 7)]) = none := by decide +kernel

/-! ### C05 uncompressed compactor: violated -/

/-- C05, exact. Points compacted one by one with `CompactType::None` decode to themselves when there is at most one
point; with two or more the decoder panics. -/
theorem C05_none_exact (m : Mode) (pts : List TimePoint) :
    ∃ bytes, ((compactEach m (Compactor.new .none) pts).bind Compactor.getBytesVec) = some bytes ∧
      decompactBytes m .none bytes = .ok (if pts.length ≤ 1 then .ok pts else .panic) := by
  refine ⟨(pts.flatMap fun p => toBE p.ts ++ toBE p.val) ++ [CompactType.none.tag], ?_, ?_⟩
  · simp [Compactor.new, compactEach_none, Compactor.getBytesVec]
  · simp only [decompactBytes, Decompactor.from', List.getLast?_append, List.getLast?_singleton, Option.getD_some,
      Option.some_or, ne_eq, not_true_eq_false, if_false, List.dropLast_concat, Except.map, Decompactor.decompact]
    congr 1
    match pts with
    | [] => rfl
    | [p] =>
      have e : (flatMap (fun p : TimePoint => toBE p.ts ++ toBE p.val) [p]) = toBE p.ts ++ toBE p.val := by simp
      have e2 : (toBE p.ts ++ toBE p.val).length = 15 + 1 := by simp
      have hne : toBE p.ts ++ toBE p.val ≠ [] := by intro h; simp [h] at e2
      rw [e, e2, Decompactor.chunksNone, if_neg hne, List.take_of_length_le (by simp), List.drop_of_length_le (by simp)]
      have e3 : (toBE p.ts ++ toBE p.val).take 8 = toBE p.ts := by
        rw [List.take_append_of_le_length (by simp), List.take_of_length_le (by simp)]
      have e4 : (toBE p.ts ++ toBE p.val).drop 8 = toBE p.val := by
        rw [List.drop_append_of_le_length (by simp), List.drop_of_length_le (by simp)]; rfl
      simp [e3, e4, Decompactor.chunksNone, e2]
    | p :: q :: rest =>
      generalize hv : flatMap (fun p : TimePoint => toBE p.ts ++ toBE p.val) (p :: q :: rest) = v
      have hlen : 32 ≤ v.length := by
        rw [← hv]; simp only [flatMap_cons, length_append, toBE_length]; omega
      obtain ⟨n, hn⟩ : ∃ n, v.length = n + 1 := ⟨v.length - 1, by omega⟩
      have hne : v ≠ [] := by intro h; simp [h] at hlen
      have hb : fromBE ((v.take 72).drop 8) = none := by
        unfold fromBE; rw [if_neg]; simp; omega
      rw [hn, Decompactor.chunksNone, if_neg hne]
      have h8 : ¬ (v.take 72).length < 8 := by simp; omega
      rw [if_neg h8, hb]
      simp only [length_cons]
      rw [if_neg (by omega)]
      cases fromBE ((v.take 72).take 8) <;> rfl

/-- C05 is false of the code: two points do not survive. -/
theorem C05_violated (m : Mode) : ¬ ∀ pts : List TimePoint, ∃ bytes,
    ((compactEach m (Compactor.new .none) pts).bind Compactor.getBytesVec) = some bytes ∧
      decompactBytes m .none bytes = .ok (.ok pts) := by
  intro h
  obtain ⟨b, h1, h2⟩ := h (pts' [(1, 2), (3, 4)])
  obtain ⟨b', h1', h2'⟩ := C05_none_exact m (pts' [(1, 2), (3, 4)])
  rw [h1'] at h1
  cases h1
  rw [h2'] at h2
  exact absurd h2 (by decide)

/-- C05 is false of the code in the other entry point: `compact_vec` stores none of the points it is given. -/
theorem C05_violated_compactVec (m : Mode) (pts : List TimePoint) :
    (Compactor.new .none).compactVec m pts = some (.none [], [CompactType.none.tag]) := rfl

/-- C05, partial: at most one point, fed through `compact`. Missing: two or more points (the decoder panics), and
`compact_vec` (points are dropped). -/
theorem C05_partial (m : Mode) (pts : List TimePoint) (h : pts.length ≤ 1) :
    ∃ bytes, ((compactEach m (Compactor.new .none) pts).bind Compactor.getBytesVec) = some bytes ∧
      decompactBytes m .none bytes = .ok (.ok pts) := by
  obtain ⟨b, h1, h2⟩ := C05_none_exact m pts
  exact ⟨b, h1, by rw [h2, if_pos h]⟩

example : (pts' [(1, 2)]).length ≤ 1 := by decide

/-! ### C06 type tag -/

/-- C06. A Gorilla or None decompactor accepts a byte vector exactly when its last byte is its tag (1 or 3). -/
theorem C06_accepts_iff (t : CompactType) (ht : t ≠ .simple) (bytes : List Byte) :
    (∃ d, Decompactor.from' t bytes = .ok d) ↔ bytes.getLast? = some t.tag := by
  cases t with
  | simple => exact absurd rfl ht
  | gorilla =>
    simp only [Decompactor.from']
    cases h : bytes.getLast? with
    | none => simp [CompactType.tag]
    | some x => simp only [Option.getD_some]; split <;> simp_all
  | none =>
    simp only [Decompactor.from']
    cases h : bytes.getLast? with
    | none => simp [CompactType.tag]
    | some x => simp only [Option.getD_some]; split <;> simp_all

/-- C06. Otherwise the error names the expected tag and the actual last byte, 0 for empty input. -/
theorem C06_error (t : CompactType) (ht : t ≠ .simple) (bytes : List Byte) (h : bytes.getLast? ≠ some t.tag) :
    Decompactor.from' t bytes = .error (.typeDontMatch t.tag (bytes.getLast?.getD 0#8)) := by
  cases t with
  | simple => exact absurd rfl ht
  | gorilla =>
    simp only [Decompactor.from']
    rw [if_pos]
    cases hl : bytes.getLast? with
    | none => simp [CompactType.tag]
    | some x => rw [hl] at h; simpa using h
  | none =>
    simp only [Decompactor.from']
    rw [if_pos]
    cases hl : bytes.getLast? with
    | none => simp [CompactType.tag]
    | some x => rw [hl] at h; simpa using h

/-- C06. The unimplemented type is always refused. -/
theorem C06_simple_refused (bytes : List Byte) : Decompactor.from' .simple bytes = .error .internal := rfl

/-- The compaction type of a compactor. -/
def Compactor.ctype : Compactor → CompactType
  | .gorilla _ => .gorilla
  | .simple => .simple
  | .none _ => .none

/-- C06. Bytes read from a compactor in any state are accepted by a decompactor of the same type and by no other. -/
theorem C06_no_confusion (c : Compactor) (bytes : List Byte) (h : c.getBytesVec = some bytes) (t : CompactType) :
    (∃ d, Decompactor.from' t bytes = .ok d) ↔ t = c.ctype := by
  have hne : c.ctype ≠ .simple := by
    cases c with
    | simple => simp [Compactor.getBytesVec] at h
    | gorilla g => simp [Compactor.ctype]
    | none v => simp [Compactor.ctype]
  have hl : bytes.getLast? = some c.ctype.tag := by
    cases c with
    | simple => simp [Compactor.getBytesVec] at h
    | gorilla g => simp [Compactor.getBytesVec] at h; subst h; simp [Compactor.ctype]
    | none v => simp [Compactor.getBytesVec] at h; subst h; simp [Compactor.ctype]
  by_cases ht : t = .simple
  · subst ht
    constructor
    · rintro ⟨d, hd⟩; cases hd
    · intro h; exact absurd h.symm hne
  · rw [C06_accepts_iff t ht, hl]
    cases t <;> cases h : c.ctype <;> simp_all [CompactType.tag]

example : (Compactor.new .gorilla).getBytesVec = some [0#8, 1#8] := by decide
example : [5#8, 3#8].getLast? ≠ some CompactType.gorilla.tag := by decide

/-! ### C07 bit streams -/

/-- C07, the full statement about `append`, is false of the code: appending nine bits to one bit gives a stream that
does not hold the ten bits. No caller in the repository appends such a stream. -/
theorem C07_append_violated (m : Mode) : ¬ ∀ (s o : Bstream) (l k : List Bool), Rep s l → Rep o k →
    ∃ s', s.append m o = some s' ∧ Rep s' (l ++ k) := by
  intro h
  obtain ⟨s', h1, h2⟩ := h ⟨[0x80#8], 7⟩ ⟨[0xff#8, 0x80#8], 7⟩ [true] (replicate 9 true)
    (by unfold Rep; decide) (by unfold Rep; decide)
  have : s' = ⟨[0xff#8, 0xc0#8], 0⟩ := by
    cases m
    · exact (Option.some.inj (h1.symm.trans (by decide)))
    · exact (Option.some.inj (h1.symm.trans (by decide)))
  subst this
  unfold Rep at h2
  exact absurd h2 (by decide)

/-- C07, partial: `append` is bit concatenation when the receiver is byte aligned, the appended stream has at most one
byte, or the unused bits of both together are fewer than eight. Missing: longer unaligned streams (false). -/
theorem C07_append_partial (m : Mode) (s o : Bstream) (l k : List Bool) (hs : Rep s l) (ho : Rep o k)
    (hc : s.remaining = 0 ∨ o.data.length ≤ 1 ∨ s.remaining + o.remaining < 8) :
    ∃ s', s.append m o = some s' ∧ Rep s' (l ++ k) := append_rep m hs ho hc

example : Rep ⟨[0b10100000#8], 5⟩ [true, false, true] ∧ Rep ⟨[0xff#8, 0xfc#8], 2⟩ (replicate 14 true) ∧
    ((5 : Nat) = 0 ∨ (2 : Nat) ≤ 1 ∨ 5 + 2 < 8) := by unfold Rep; decide

/-- C07. Every sequence of the writing operations that the compactors use (single bits, whole bytes, the low `n` bits of
a word for `1 ≤ n ≤ 64`) on any stream never panics, and the resulting stream holds exactly the old bits followed by the
bits written. -/
theorem C07_writes (m : Mode) (ops : List BitOp) (s : Bstream) (l : List Bool) (hs : Rep s l)
    (hv : ∀ o ∈ ops, o.valid) :
    ∃ s', runBits m s ops = some s' ∧ Rep s' (l ++ ops.flatMap BitOp.bits) := by
  induction ops generalizing s l with
  | nil => exact ⟨s, rfl, by simpa using hs⟩
  | cons o os ih =>
    have : ∃ s', o.run m s = some s' ∧ Rep s' (l ++ o.bits) := by
      cases o with
      | bit b => exact write_rep m hs b
      | bytes bs => exact appendBytes_rep m hs bs
      | word v n =>
        have := hv (.word v n) (by simp)
        exact writeBits_rep m hs v this.1 this.2
    obtain ⟨s1, h1, h2⟩ := this
    obtain ⟨s2, h3, h4⟩ := ih s1 _ h2 (fun o ho => hv o (by simp [ho]))
    exact ⟨s2, by simp [runBits, h1, h3], by simpa using h4⟩

example : Rep Bstream.new [] ∧ ∀ o ∈ [BitOp.bit true, .word 5#64 3, .bytes [1#8]], o.valid :=
  ⟨rep_new, by simp [BitOp.valid]⟩

/-- C07. Reading `n` bits at any cursor of any stream into a zeroed buffer that is large enough never panics, returns
exactly the stream's bits at that position (fewer at the end) padded with zeros, and advances the cursor by the number
of bits returned. -/
theorem C07_read (m : Mode) (s : Bstream) (l : List Bool) (hs : Rep s l) (cursor n B : Nat) (hn : n ≤ 8 * B)
    (hc : cursor ≤ l.length) :
    ∃ buf, Seeker.readNextNBit m ⟨s, cursor⟩ (replicate B 0#8) n =
        some (buf, min n (l.length - cursor), ⟨s, cursor + min n (l.length - cursor)⟩) ∧
      flat buf = (l.drop cursor).take n ++ replicate (8 * B - min n (l.length - cursor)) false := by
  obtain ⟨buf, n', h1, h2, h3, h4⟩ := read_zeros m (sk := ⟨s, cursor⟩) hs.ok B n hn (by rw [hs.bitsIn]; exact hc)
  rw [hs.bitsIn] at h1 h4
  subst h1
  refine ⟨buf, h2, ?_⟩
  rw [h4]
  congr 1
  rw [← List.length_drop, List.take_eq_take_iff]
  simp

example : Rep ⟨[0b10110000#8], 4⟩ [true, false, true, true] ∧ 2 ≤ 8 * 1 ∧ 1 ≤ [true, false, true, true].length := by
  unfold Rep; decide

/-! ### C08 termination -/

/-- The stream a Gorilla decompactor reads: the bytes without the tag and the count of unused bits. -/
def payloadBits (bytes : List Byte) : Int :=
  8 * (bytes.dropLast.dropLast.length : Int) - (bytes.dropLast.getLast?.getD 0#8).toNat

/-- C08. For every byte vector with the Gorilla tag, in both builds, the decompaction loop ends (with a list or a panic)
within the number of steps the model allows, any larger allowance gives the same result, and a list has at most as many
points as the stream has bits. -/
theorem C08_terminates (m : Mode) (bytes : List Byte) (d : GorillaDecompactor)
    (h : Decompactor.from' .gorilla bytes = .ok (.gorilla d)) :
    (d.collect m (Decompactor.fuel d) ≠ .outOfFuel) ∧
    (∀ k, d.collect m (Decompactor.fuel d + k) = d.collect m (Decompactor.fuel d)) ∧
    (∀ pts, d.collect m (Decompactor.fuel d) = .ok pts → (pts.length : Int) ≤ payloadBits bytes) := by
  simp only [Decompactor.from'] at h
  split at h
  · cases h
  · simp only [Except.ok.injEq, Decompactor.gorilla.injEq] at h
    subst h
    obtain ⟨f1, f2⟩ := fuel_collect m (Bstream.fromBytes bytes.dropLast)
    refine ⟨f1, f2, ?_⟩
    intro pts hp
    -- the release build returns the same list
    have hrel : (GorillaDecompactor.new (Bstream.fromBytes bytes.dropLast)).collect .release
        (Decompactor.fuel (GorillaDecompactor.new (Bstream.fromBytes bytes.dropLast))) = .ok pts := by
      cases m with
      | release => exact hp
      | debug =>
        rcases le_collect (Decompactor.fuel (GorillaDecompactor.new (Bstream.fromBytes bytes.dropLast)))
          (GorillaDecompactor.new (Bstream.fromBytes bytes.dropLast)) with h | h
        · rw [h] at hp; cases hp
        · rw [← h]; exact hp
    have hrem : (Bstream.fromBytes bytes.dropLast).remaining ≤ 255 := by
      simp only [Bstream.fromBytes]; have := (bytes.dropLast.getLast?.getD 0#8).isLt; omega
    have hok : (Bstream.fromBytes bytes.dropLast).Ok := by
      unfold Bstream.Ok
      by_contra hn
      rw [(release_panic_iff _ hrem).mpr (by omega)] at hrel
      cases hrel
    have := collect_length .release _ _ (bitlen_ok .release hok) hrel
    rw [bitsIn_length] at this
    unfold Bstream.Ok at hok
    simp only [Bstream.fromBytes, GorillaDecompactor.new] at this hok
    simp only [payloadBits]
    omega

/-- C08. Every step that yields a point consumes at least one bit and stays within the stream: it ends no further than the last bit in use if
the count of unused bits is valid, and within the byte after the last one if it is not (the release build's subtraction wraps, C09). -/
theorem C08_step_progress (m : Mode) (d d' : GorillaDecompactor) (p : TimePoint)
    (h : d.next m = some (some p, d')) :
    d'.source.data = d.source.data ∧ d.source.cursor < d'.source.cursor ∧
      (d.source.data.remaining ≤ 8 * d.source.data.data.length →
        d'.source.cursor ≤ 8 * d.source.data.data.length - d.source.data.remaining) ∧
      d'.source.cursor ≤ 8 * d.source.data.data.length + 7 := by
  obtain ⟨L, a1, a2, a3, a4, a5, a6⟩ := next_facts m h
  refine ⟨a2, a4, fun hr => ?_, a6⟩
  unfold Bstream.bitlen at a1
  rw [if_pos (by omega)] at a1
  cases a1; omega

example : Decompactor.from' .gorilla (replicate 17 0#8 ++ [0#8, 1#8]) =
    .ok (.gorilla (GorillaDecompactor.new ⟨replicate 17 0#8, 0⟩)) := by decide
example : ∃ p d', (GorillaDecompactor.new ⟨replicate 17 0#8, 0⟩).next .debug = some (some p, d') :=
  ⟨⟨0, 0⟩, _, rfl⟩

/-! ### C09 corrupt data: violated -/

/-- C09 is false of the code: two bytes crash the release reader. -/
theorem C09_violated : ¬ ∀ bytes : List Byte, decompactBytes .release .gorilla bytes ≠ .ok .panic := by
  intro h; exact h [1#8, 1#8] (by decide +kernel)

/-- C09, exact for the release build: decompacting `data ++ [count, tag]` panics if and only if the count of unused
bits exceeds the number of data bits. -/
theorem C09_release_panics_iff (data : List Byte) (count : Byte) :
    decompactBytes .release .gorilla (data ++ [count, CompactType.gorilla.tag]) = .ok .panic ↔
      8 * data.length < count.toNat := by
  have e : data ++ [count, CompactType.gorilla.tag] =
      (data ++ [count]) ++ [CompactType.gorilla.tag] := by simp
  have ef : Bstream.fromBytes (data ++ [count]) = ⟨data, count.toNat⟩ := by
    simp [Bstream.fromBytes]
  have : decompactBytes .release .gorilla (data ++ [count, CompactType.gorilla.tag]) =
      .ok (GorillaDecompactor.collect .release (Decompactor.fuel (GorillaDecompactor.new ⟨data, count.toNat⟩))
        (GorillaDecompactor.new ⟨data, count.toNat⟩)) := by
    rw [e]
    simp only [decompactBytes, Decompactor.from', List.getLast?_append, List.getLast?_singleton, Option.getD_some,
      Option.some_or, ne_eq, not_true_eq_false, if_false, List.dropLast_concat, ef]
    rfl
  rw [this]
  have := release_panic_iff ⟨data, count.toNat⟩ (by have := count.isLt; simp only; omega)
  simpa using this

/-- C09, exact for the release build over all byte vectors: the reader panics only on those that end with a count of unused bits and the tag, where the
count exceeds the number of data bits. -/
theorem C09_release_panics_iff_any (bytes : List Byte) :
    decompactBytes .release .gorilla bytes = .ok .panic ↔
      ∃ data count, bytes = data ++ [count, CompactType.gorilla.tag] ∧ 8 * data.length < count.toNat := by
  constructor
  · intro h
    have hl : bytes.getLast? = some CompactType.gorilla.tag := by
      rw [← C06_accepts_iff .gorilla (by decide) bytes]
      cases h' : Decompactor.from' .gorilla bytes with
      | ok d => exact ⟨d, rfl⟩
      | error e => simp [decompactBytes, h', Except.map] at h
    obtain ⟨bs, rfl⟩ := List.getLast?_eq_some_iff.mp hl
    rcases List.eq_nil_or_concat bs with rfl | ⟨data, count, rfl⟩
    · exact absurd h (by decide +kernel)
    · rw [List.concat_eq_append, List.append_assoc] at h ⊢
      exact ⟨data, count, rfl, (C09_release_panics_iff data count).mp h⟩
  · rintro ⟨data, count, rfl, h⟩
    exact (C09_release_panics_iff data count).mpr h

/-- C09, partial: with a valid count of unused bits the release reader never panics, whatever the data. Missing: the
other counts (it panics on all of them) and the debug build (next theorem). -/
theorem C09_partial (data : List Byte) (count : Byte) (h : count.toNat ≤ 8 * data.length) :
    ∃ pts, decompactBytes .release .gorilla (data ++ [count, CompactType.gorilla.tag]) = .ok (.ok pts) := by
  have hp := (C09_release_panics_iff data count).not.mpr (by omega)
  have e : data ++ [count, CompactType.gorilla.tag] =
      (data ++ [count]) ++ [CompactType.gorilla.tag] := by simp
  revert hp
  rw [e]
  simp only [decompactBytes, Decompactor.from', List.getLast?_append, List.getLast?_singleton, Option.getD_some,
      Option.some_or, ne_eq, not_true_eq_false, if_false, List.dropLast_concat, Except.map, Decompactor.decompact]
  intro hp
  have := (fuel_collect .release (Bstream.fromBytes (data ++ [count]))).1
  cases hc : GorillaDecompactor.collect .release (Decompactor.fuel (GorillaDecompactor.new (Bstream.fromBytes (data ++ [count]))))
      (GorillaDecompactor.new (Bstream.fromBytes (data ++ [count]))) with
  | ok l => exact ⟨l, rfl⟩
  | panic => exact absurd (by rw [hc]) hp
  | outOfFuel => exact absurd hc this

example : (0#8).toNat ≤ 8 * (replicate 40 0xff#8).length := by decide

/-- C09 is false of the debug build even with a valid count: this stream of two points opens a window wider than the
word. -/
theorem C09_debug_violated : decompactBytes .debug .gorilla
    (replicate 24 0#8 ++ [0b11111111#8, 0b11111110#8] ++ replicate 8 0#8 ++ [0#8, 1#8]) = .ok .panic ∧
    decompactBytes .release .gorilla
    (replicate 24 0#8 ++ [0b11111111#8, 0b11111110#8] ++ replicate 8 0#8 ++ [0#8, 1#8]) ≠ .ok .panic := by
  decide +kernel

end Verif
