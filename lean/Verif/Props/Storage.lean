import Verif.Lemmas.Storage
/-! Properties C22 - C26: series storage. -/
namespace Verif
open List

/-- A small history: series 1 gets timestamps 10, 20, 30; series 2 gets 15. -/
def exWrites : Writes := [(1#64, ⟨10#64, 7#64⟩), (2#64, ⟨15#64, 1#64⟩), (1#64, ⟨20#64, 8#64⟩), (1#64, ⟨30#64, 9#64⟩)]

theorem exWrites_incr : SIncr (writesTo exWrites 1#64) := by
  unfold SIncr; decide

/-! ### C22 -/

/-- Sled: a series written with strictly increasing timestamps reads as specified, after every history. -/
theorem C22_sled_range_read (B : BinSearch) (h : Writes) (i a b : U64) (hs : SIncr (writesTo h i)) (hab : a.toNat ≤ b.toNat) :
    sledRead B (sledStore KV.empty h) i a b = specRead (writesTo h i) a b := by
  rw [sledRead_eq (sledStore_inv h)]
  by_cases h0 : writesTo h i = []
  · rw [if_pos h0, h0]; rfl
  · rw [if_neg h0, readSeries_spec hs h0 hab]

/-- TiKV: every history whatsoever; the series read is the one of the accepted points. The shared store may already hold
other keys. -/
theorem C22_tikv_range_read (B : BinSearch) (pre : Str) (kv : KV) (hempty : ∀ i, kv (tikvKey pre i) = none) (h : Writes)
    (i a b : U64) (hab : a.toNat ≤ b.toNat) :
    tikvRead B pre (tikvStore pre kv h) i a b = specRead (acceptIncreasing (writesTo h i)) a b := by
  rw [tikvRead_eq (tikvStore_inv pre kv hempty h)]
  by_cases h0 : acceptIncreasing (writesTo h i) = []
  · rw [if_pos h0, h0]; rfl
  · rw [if_neg h0, readSeries_spec (acceptIncreasing_incr _) h0 hab]

/-- In particular, strictly increasing histories are read back completely from TiKV. -/
theorem C22_tikv_increasing (B : BinSearch) (pre : Str) (kv : KV) (hempty : ∀ i, kv (tikvKey pre i) = none) (h : Writes)
    (i a b : U64) (hs : SIncr (writesTo h i)) (hab : a.toNat ≤ b.toNat) :
    tikvRead B pre (tikvStore pre kv h) i a b = specRead (writesTo h i) a b := by
  rw [C22_tikv_range_read B pre kv hempty h i a b hab, acceptIncreasing_of_incr hs]

example : sledRead stdBinSearch (sledStore KV.empty exWrites) 1#64 11#64 20#64 = .ok [⟨20#64, 8#64⟩] := by
  rw [C22_sled_range_read _ _ _ _ _ exWrites_incr (by decide)]; decide
example : sledRead stdBinSearch (sledStore KV.empty exWrites) 1#64 31#64 40#64 = .err (.outOfRange 10#64 30#64) := by
  rw [C22_sled_range_read _ _ _ _ _ exWrites_incr (by decide)]; decide
example : tikvRead stdBinSearch [1#8] (tikvStore [1#8] KV.empty (exWrites ++ [(1#64, ⟨25#64, 0#64⟩)])) 1#64 20#64 30#64
    = .ok [⟨20#64, 8#64⟩, ⟨30#64, 9#64⟩] := by
  rw [C22_tikv_range_read _ _ _ (by simp [KV.empty]) _ _ _ _ (by decide)]; decide

/-! ### C23 -/

/-- Sled: a write to `j` leaves reads of `i` alone, in every state. -/
theorem C23_sled_isolated (B : BinSearch) (kv : KV) (i j : U64) (p : TimePoint) (hij : i ≠ j) (a b : U64) :
    sledRead B (sledWrite kv j p).2 i a b = sledRead B kv i a b := by
  have hk : sledKey i ≠ sledKey j := fun e => hij (sledKey_inj e)
  have e : (sledWrite kv j p).2 (sledKey i) = kv (sledKey i) := by
    unfold sledWrite
    split <;> exact KV.set_other _ _ hk
  unfold sledRead
  rw [e]

/-- TiKV: a write to `j` leaves reads of `i` alone, in every state, also with the write rejected. -/
theorem C23_tikv_isolated (B : BinSearch) (pre : Str) (kv : KV) (i j : U64) (p : TimePoint) (hij : i ≠ j) (a b : U64) :
    tikvRead B pre (tikvWrite pre kv j p).2 i a b = tikvRead B pre kv i a b := by
  have hk : tikvKey pre i ≠ tikvKey pre j := fun e => hij (tikvKey_inj e)
  have e : (tikvWrite pre kv j p).2 (tikvKey pre i) = kv (tikvKey pre i) := by
    unfold tikvWrite
    repeat' split
    all_goals first | rfl | exact KV.set_other _ _ hk
  unfold tikvRead
  rw [e]

/-- Sled: after every history, NotFound is returned exactly for the series never written. -/
theorem C23_sled_notFound (B : BinSearch) (h : Writes) (i a b : U64) :
    sledRead B (sledStore KV.empty h) i a b = .err .notFound ↔ ∀ w ∈ h, w.1 ≠ i := by
  rw [sledRead_eq (sledStore_inv h)]
  have e : writesTo h i = [] ↔ ∀ w ∈ h, w.1 ≠ i := by
    simp [writesTo, List.filter_eq_nil_iff]
  by_cases h0 : writesTo h i = []
  · rw [if_pos h0]; simp only [true_iff]; exact e.mp h0
  · rw [if_neg h0]
    constructor
    · intro hr
      exfalso
      revert hr
      unfold readSeries
      split
      · split
        · simp
        · unfold trimSeries sliceIncl; simp only []
          repeat' split
          all_goals simp
      · simp
    · intro hw; exact absurd (e.mpr hw) h0

/-- Sled: every write succeeds, and the point just written is returned by every read of an increasing series that covers it. -/
theorem C23_sled_readable (B : BinSearch) (h : Writes) (i a b : U64) (p : TimePoint) (hs : SIncr (writesTo (h ++ [(i, p)]) i))
    (ha : a.toNat ≤ p.ts.toNat) (hb : p.ts.toNat ≤ b.toNat) :
    (sledWrite (sledStore KV.empty h) i p).1 = .ok () ∧
    ∃ ps, sledRead B (sledWrite (sledStore KV.empty h) i p).2 i a b = .ok ps ∧ p ∈ ps := by
  refine ⟨(sledWrite_inv (sledStore_inv h) i p).1, ?_⟩
  have e : (sledWrite (sledStore KV.empty h) i p).2 = sledStore KV.empty (h ++ [(i, p)]) := by
    unfold sledStore; rw [List.foldl_append]; rfl
  rw [e, C22_sled_range_read B _ i a b hs (by omega)]
  have hw : writesTo (h ++ [(i, p)]) i = writesTo h i ++ [p] := by rw [writesTo_append]; simp
  rw [hw] at hs ⊢
  rw [specRead]
  have hm : p ∈ inRange (writesTo h i ++ [p]) a b := by
    simp [inRange, ha, hb]
  have hl : (writesTo h i ++ [p]).getLast? = some p := by simp
  rcases hf : (writesTo h i ++ [p]).head? with _ | f
  · simp at hf
  · rw [hl]
    simp only []
    have hfp : f.ts.toNat ≤ p.ts.toNat := by
      cases hc : writesTo h i with
      | nil => rw [hc] at hf; simp at hf; subst hf; omega
      | cons q qs =>
        rw [hc] at hf hs
        simp at hf; subst hf
        rw [SIncr, List.cons_append, List.pairwise_cons] at hs
        have := hs.1 p (by simp); omega
    rw [if_neg (by omega)]
    exact ⟨_, rfl, hm⟩

/-- TiKV: after every history, NotFound is returned exactly for the series never written. -/
theorem C23_tikv_notFound (B : BinSearch) (pre : Str) (kv : KV) (hempty : ∀ i, kv (tikvKey pre i) = none) (h : Writes) (i a b : U64)
    (hab : a.toNat ≤ b.toNat) : tikvRead B pre (tikvStore pre kv h) i a b = .err .notFound ↔ ∀ w ∈ h, w.1 ≠ i := by
  rw [C22_tikv_range_read B pre kv hempty h i a b hab]
  have e : acceptIncreasing (writesTo h i) = [] ↔ ∀ w ∈ h, w.1 ≠ i := by
    have e1 : writesTo h i = [] ↔ ∀ w ∈ h, w.1 ≠ i := by simp [writesTo, List.filter_eq_nil_iff]
    rw [← e1]
    constructor
    · intro hh
      rcases List.eq_nil_or_concat (writesTo h i) with h0 | ⟨ps, l, h0⟩
      · exact h0
      · rw [h0, List.concat_eq_append, acceptIncreasing_append] at hh
        split at hh
        · simp at hh
        · rename_i hc
          rw [hh] at hc; simp at hc
    · intro hh; rw [hh]; rfl
  rw [← e]
  generalize acceptIncreasing (writesTo h i) = s
  cases s with
  | nil => simp [specRead]
  | cons q qs =>
    rcases hl : (q :: qs).getLast? with _ | l
    · simp at hl
    · simp only [specRead, List.head?_cons, hl, reduceCtorEq, iff_false]
      split <;> simp

/-- TiKV: a write that succeeds makes the point readable, after every history. -/
theorem C23_tikv_readable (B : BinSearch) (pre : Str) (kv : KV) (hempty : ∀ i, kv (tikvKey pre i) = none) (h : Writes) (i a b : U64)
    (p : TimePoint) (hok : (tikvWrite pre (tikvStore pre kv h) i p).1 = .ok ())
    (ha : a.toNat ≤ p.ts.toNat) (hb : p.ts.toNat ≤ b.toNat) :
    ∃ ps, tikvRead B pre (tikvWrite pre (tikvStore pre kv h) i p).2 i a b = .ok ps ∧ p ∈ ps := by
  have e : (tikvWrite pre (tikvStore pre kv h) i p).2 = tikvStore pre kv (h ++ [(i, p)]) := by
    unfold tikvStore; rw [List.foldl_append]; rfl
  have hinv := tikvWrite_inv (tikvStore_inv pre kv hempty h) i p
  rw [e, C22_tikv_range_read B pre kv hempty _ i a b (by omega)]
  have hw : writesTo (h ++ [(i, p)]) i = writesTo h i ++ [p] := by rw [writesTo_append]; simp
  rw [hw]
  have hincr := acceptIncreasing_incr (writesTo h i ++ [p])
  split at hinv
  · rename_i hc
    rw [acceptIncreasing_append, if_pos hc] at hincr ⊢
    rw [specRead]
    have hm : p ∈ inRange (acceptIncreasing (writesTo h i) ++ [p]) a b := by simp [inRange, ha, hb]
    have hl : (acceptIncreasing (writesTo h i) ++ [p]).getLast? = some p := by simp
    rcases hf : (acceptIncreasing (writesTo h i) ++ [p]).head? with _ | f
    · simp at hf
    · rw [hl]
      simp only []
      have hfp : f.ts.toNat ≤ p.ts.toNat := by
        cases hc : acceptIncreasing (writesTo h i) with
        | nil => rw [hc] at hf; simp at hf; subst hf; omega
        | cons q qs =>
          rw [hc] at hf hincr
          simp at hf; subst hf
          rw [SIncr, List.cons_append, List.pairwise_cons] at hincr
          have := hincr.1 p (by simp); omega
      rw [if_neg (by omega)]
      exact ⟨_, rfl, hm⟩
  · rw [hinv] at hok; simp at hok

example : sledRead stdBinSearch (sledStore KV.empty exWrites) 3#64 0#64 100#64 = .err .notFound :=
  (C23_sled_notFound _ _ _ _ _).mpr (by decide)
example : (tikvWrite [] (tikvStore [] KV.empty exWrites) 2#64 ⟨16#64, 0#64⟩).1 = .ok () := by decide +kernel

/-! ### C24 -/

/-- TiKV: a write after any history is rejected exactly when its timestamp does not exceed the last stored one, and then
changes nothing; otherwise the point is appended. -/
theorem C24_tikv_accepts_iff (pre : Str) (kv : KV) (hempty : ∀ i, kv (tikvKey pre i) = none) (h : Writes) (i : U64) (p : TimePoint) :
    ((tikvWrite pre (tikvStore pre kv h) i p).1 = .ok () ↔
      ∀ l, (acceptIncreasing (writesTo h i)).getLast? = some l → l.ts.toNat < p.ts.toNat) ∧
    ((tikvWrite pre (tikvStore pre kv h) i p).1 ≠ .ok () →
      tikvWrite pre (tikvStore pre kv h) i p = (.err .internal, tikvStore pre kv h)) := by
  have hinv := tikvWrite_inv (tikvStore_inv pre kv hempty h) i p
  split at hinv
  · rename_i hc
    exact ⟨⟨fun _ => hc, fun _ => hinv.1⟩, fun hn => absurd hinv.1 hn⟩
  · rename_i hc
    rw [hinv]
    exact ⟨⟨by simp, fun hh => absurd hh hc⟩, fun _ => rfl⟩

/-- TiKV: after every history the stored bytes of every series are those of a strictly increasing series: the accepted
points. -/
theorem C24_tikv_strictly_increasing (pre : Str) (kv : KV) (hempty : ∀ i, kv (tikvKey pre i) = none) (h : Writes) (i : U64) :
    SIncr (acceptIncreasing (writesTo h i)) ∧
    tikvStore pre kv h (tikvKey pre i) =
      if acceptIncreasing (writesTo h i) = [] then none else some ((acceptIncreasing (writesTo h i)).flatMap encodePoint) :=
  ⟨acceptIncreasing_incr _, tikvStore_inv pre kv hempty h i⟩

/-- TiKV: whatever was written, everything a read returns is strictly increasing. -/
theorem C24_tikv_reads_increasing (B : BinSearch) (pre : Str) (kv : KV) (hempty : ∀ i, kv (tikvKey pre i) = none) (h : Writes)
    (i a b : U64) (hab : a.toNat ≤ b.toNat) (ps : List TimePoint) (hr : tikvRead B pre (tikvStore pre kv h) i a b = .ok ps) :
    SIncr ps := by
  rw [C22_tikv_range_read B pre kv hempty h i a b hab, specRead] at hr
  split at hr
  · split at hr
    · simp at hr
    · simp only [Res.ok.injEq] at hr
      subst hr
      exact (acceptIncreasing_incr _).sublist List.filter_sublist
  · simp at hr

example : (tikvWrite [] (tikvStore [] KV.empty exWrites) 1#64 ⟨30#64, 0#64⟩).1 = .err .internal := by decide +kernel
example : acceptIncreasing (writesTo (exWrites ++ [(1#64, ⟨5#64, 0#64⟩), (1#64, ⟨31#64, 1#64⟩)]) 1#64)
    = [⟨10#64, 7#64⟩, ⟨20#64, 8#64⟩, ⟨30#64, 9#64⟩, ⟨31#64, 1#64⟩] := by decide

/-! ### C25: not true; out-of-order and repeated timestamps are accepted by sled but not readable -/

/-- A point accepted after a later one is invisible to every range that ends before the later one. -/
theorem C25_violated_out_of_order (B : BinSearch) (i a b : U64) (p q : TimePoint) (hq : b.toNat < p.ts.toNat)
    (_ha : a.toNat ≤ q.ts.toNat) (_hb : q.ts.toNat ≤ b.toNat) :
    (sledWrite (sledStore KV.empty [(i, p)]) i q).1 = .ok () ∧
    sledRead B (sledStore KV.empty [(i, p), (i, q)]) i a b = .err (.outOfRange p.ts q.ts) := by
  refine ⟨(sledWrite_inv (sledStore_inv _) i q).1, ?_⟩
  rw [sledRead_eq (sledStore_inv _)]
  have e : writesTo [(i, p), (i, q)] i = [p, q] := by simp [writesTo]
  rw [e, if_neg (by simp), readSeries]
  simp only [List.head?_cons, List.getLast?_cons_cons, List.getLast?_singleton]
  rw [if_pos (Or.inl hq)]

/-- Of any number of points with one and the same timestamp, a read at that timestamp returns exactly one. -/
theorem C25_violated_duplicates (B : BinSearch) (h : Writes) (i t : U64) (hne : writesTo h i ≠ [])
    (hsame : ∀ p ∈ writesTo h i, p.ts = t) :
    ∃ p ∈ writesTo h i, sledRead B (sledStore KV.empty h) i t t = .ok [p] := by
  rw [sledRead_eq (sledStore_inv _), if_neg hne]
  generalize writesTo h i = s at hne hsame
  have hkeys : (s.map (·.ts)).Pairwise (fun a b => a.toNat ≤ b.toNat) := by
    rw [List.pairwise_map]
    exact List.Pairwise.imp_of_mem (R := fun _ _ => True)
      (fun ha hb _ => by rw [hsame _ ha, hsame _ hb]) (List.pairwise_of_forall (fun _ _ => trivial))
  have hrun : ∃ j, B.run (s.map (·.ts)) t = (true, j) ∧ j < s.length := by
    rcases hr : B.run (s.map (·.ts)) t with ⟨f, j⟩
    cases f
    · exfalso
      obtain ⟨h1, h2, h3⟩ := B.missing _ _ _ hkeys hr
      obtain ⟨p, hp⟩ := List.exists_mem_of_ne_nil _ hne
      have hpt : t ∈ s.map (·.ts) := List.mem_map.mpr ⟨p, hp, hsame p hp⟩
      rw [← List.take_append_drop j (s.map (·.ts)), List.mem_append] at hpt
      rcases hpt with hh | hh
      · have := h2 _ hh; omega
      · have := h3 _ hh; omega
    · refine ⟨j, hr, ?_⟩
      have := B.found _ _ _ hkeys hr
      have := (List.getElem?_eq_some_iff.mp this).1
      simpa using this
  obtain ⟨j, hj, hlt⟩ := hrun
  refine ⟨s[j], List.getElem_mem _, ?_⟩
  rcases hf : s.head? with _ | f
  · rw [List.head?_eq_none_iff] at hf; exact absurd hf hne
  rcases hl : s.getLast? with _ | l
  · rw [List.getLast?_eq_none_iff] at hl; exact absurd hl hne
  have hft := hsame f (List.mem_of_head? hf)
  have hlt' := hsame l (List.mem_of_getLast? hl)
  rw [readSeries, hf, hl]
  simp only [hft, hlt']
  rw [if_neg (by omega), trimSeries, hj]
  show sliceIncl s j (some (j + 1)) = _
  unfold sliceIncl
  show (if _ then _ else _) = _
  rw [if_pos ⟨by omega, by omega⟩]
  congr 1
  rw [List.drop_take]
  simp [List.take_one, hlt]

/-- The full claim fails: there is a history of accepted writes and a range covering a written point whose read does not
return it. -/
theorem C25_violated (B : BinSearch) :
    ¬ ∀ (h : Writes) (i a b : U64) (p : TimePoint), p ∈ writesTo h i → a.toNat ≤ p.ts.toNat → p.ts.toNat ≤ b.toNat →
      ∃ ps, sledRead B (sledStore KV.empty h) i a b = .ok ps ∧ p ∈ ps := by
  intro hall
  obtain ⟨ps, h1, _⟩ := hall [(1#64, ⟨10#64, 0#64⟩), (1#64, ⟨5#64, 0#64⟩)] 1#64 0#64 7#64 ⟨5#64, 0#64⟩ (by decide) (by decide) (by decide)
  rw [(C25_violated_out_of_order B 1#64 0#64 7#64 ⟨10#64, 0#64⟩ ⟨5#64, 0#64⟩ (by decide) (by decide) (by decide)).2] at h1
  simp at h1

/-- What does hold: with strictly increasing timestamps every written point is returned by every read that covers it. (Missing
from the claim: histories with repeated or decreasing timestamps, for which it is false.) -/
theorem C25_increasing_partial (B : BinSearch) (h : Writes) (i a b : U64) (hs : SIncr (writesTo h i)) (p : TimePoint)
    (hp : p ∈ writesTo h i) (ha : a.toNat ≤ p.ts.toNat) (hb : p.ts.toNat ≤ b.toNat) :
    ∃ ps, sledRead B (sledStore KV.empty h) i a b = .ok ps ∧ p ∈ ps := by
  rw [C22_sled_range_read B h i a b hs (by omega)]
  generalize writesTo h i = s at hs hp
  have hm : p ∈ inRange s a b := by simp [inRange, ha, hb, hp]
  rcases hf : s.head? with _ | f
  · rw [List.head?_eq_none_iff] at hf; subst hf; simp at hp
  rcases hl : s.getLast? with _ | l
  · rw [List.getLast?_eq_none_iff] at hl; subst hl; simp at hp
  rw [specRead, hf, hl]
  simp only []
  have h1 : f.ts.toNat ≤ p.ts.toNat := by
    cases s with
    | nil => simp at hp
    | cons q qs =>
      simp at hf; subst hf
      rcases List.mem_cons.mp hp with rfl | hq
      · exact Nat.le_refl _
      · have := (List.pairwise_cons.mp hs).1 p hq; omega
  have h2 : p.ts.toNat ≤ l.ts.toNat := by
    rcases List.eq_nil_or_concat s with rfl | ⟨qs, q, rfl⟩
    · simp at hp
    · rw [List.concat_eq_append] at *
      simp at hl; subst hl
      rcases List.mem_append.mp hp with hq | hq
      · have := (List.pairwise_append.mp hs).2.2 p hq q (by simp); omega
      · simp at hq; subst hq; exact Nat.le_refl _
  rw [if_neg (by omega)]
  exact ⟨_, rfl, hm⟩

example : ∃ p ∈ writesTo [(1#64, ⟨9#64, 1#64⟩), (1#64, ⟨9#64, 2#64⟩), (1#64, ⟨9#64, 3#64⟩)] 1#64,
    sledRead stdBinSearch (sledStore KV.empty [(1#64, ⟨9#64, 1#64⟩), (1#64, ⟨9#64, 2#64⟩), (1#64, ⟨9#64, 3#64⟩)]) 1#64 9#64 9#64 = .ok [p] :=
  C25_violated_duplicates _ _ _ _ (by decide) (by decide)
example : ∃ ps, sledRead stdBinSearch (sledStore KV.empty exWrites) 1#64 15#64 25#64 = .ok ps ∧ (⟨20#64, 8#64⟩ : TimePoint) ∈ ps :=
  C25_increasing_partial _ _ _ _ _ exWrites_incr _ (by decide) (by decide) (by decide)

/-! ### C26: true for start <= end, violated for inverted ranges -/

/-- Exact panic condition of a sled read of an increasing series: the range is inverted, both bounds lie within the span of
the series, and a point lies strictly between them. -/
theorem C26_sled_panic_iff (B : BinSearch) (h : Writes) (i a b : U64) (hs : SIncr (writesTo h i)) :
    sledRead B (sledStore KV.empty h) i a b = .panic ↔
      ∃ f l p, (writesTo h i).head? = some f ∧ (writesTo h i).getLast? = some l ∧ p ∈ writesTo h i ∧
        f.ts.toNat ≤ b.toNat ∧ b.toNat < p.ts.toNat ∧ p.ts.toNat < a.toNat ∧ a.toNat ≤ l.ts.toNat := by
  rw [sledRead_eq (sledStore_inv h)]
  by_cases h0 : writesTo h i = []
  · rw [if_pos h0, h0]; simp
  · rw [if_neg h0]
    rcases hf : (writesTo h i).head? with _ | f
    · rw [List.head?_eq_none_iff] at hf; exact absurd hf h0
    rcases hl : (writesTo h i).getLast? with _ | l
    · rw [List.getLast?_eq_none_iff] at hl; exact absurd hl h0
    rw [readSeries_panic_iff hs hf hl]
    constructor
    · rintro ⟨h1, h2, p, hp, h3, h4⟩; exact ⟨f, l, p, rfl, rfl, hp, h1, h3, h4, h2⟩
    · rintro ⟨f', l', p, e1, e2, hp, h1, h3, h4, h2⟩
      cases e1; cases e2
      exact ⟨h1, h2, p, hp, h3, h4⟩

/-- The same for TiKV, for every history. -/
theorem C26_tikv_panic_iff (B : BinSearch) (pre : Str) (kv : KV) (hempty : ∀ i, kv (tikvKey pre i) = none) (h : Writes) (i a b : U64) :
    tikvRead B pre (tikvStore pre kv h) i a b = .panic ↔
      ∃ f l p, (acceptIncreasing (writesTo h i)).head? = some f ∧ (acceptIncreasing (writesTo h i)).getLast? = some l ∧
        p ∈ acceptIncreasing (writesTo h i) ∧
        f.ts.toNat ≤ b.toNat ∧ b.toNat < p.ts.toNat ∧ p.ts.toNat < a.toNat ∧ a.toNat ≤ l.ts.toNat := by
  rw [tikvRead_eq (tikvStore_inv pre kv hempty h)]
  have hs := acceptIncreasing_incr (writesTo h i)
  generalize acceptIncreasing (writesTo h i) = s at hs
  by_cases h0 : s = []
  · rw [if_pos h0, h0]; simp
  · rw [if_neg h0]
    rcases hf : s.head? with _ | f
    · rw [List.head?_eq_none_iff] at hf; exact absurd hf h0
    rcases hl : s.getLast? with _ | l
    · rw [List.getLast?_eq_none_iff] at hl; exact absurd hl h0
    rw [readSeries_panic_iff hs hf hl]
    constructor
    · rintro ⟨h1, h2, p, hp, h3, h4⟩; exact ⟨f, l, p, rfl, rfl, hp, h1, h3, h4, h2⟩
    · rintro ⟨f', l', p, e1, e2, hp, h1, h3, h4, h2⟩
      cases e1; cases e2
      exact ⟨h1, h2, p, hp, h3, h4⟩

/-- Reads with start <= end never panic (sled, increasing series; TiKV, all histories). -/
theorem C26_no_panic_partial (B : BinSearch) (pre : Str) (kv : KV) (hempty : ∀ i, kv (tikvKey pre i) = none) (h : Writes) (i a b : U64)
    (hab : a.toNat ≤ b.toNat) :
    (SIncr (writesTo h i) → sledRead B (sledStore KV.empty h) i a b ≠ .panic) ∧
    tikvRead B pre (tikvStore pre kv h) i a b ≠ .panic := by
  constructor
  · intro hs hp
    obtain ⟨f, l, p, _, _, _, _, h1, h2, _⟩ := (C26_sled_panic_iff B h i a b hs).mp hp
    omega
  · intro hp
    obtain ⟨f, l, p, _, _, _, _, h1, h2, _⟩ := (C26_tikv_panic_iff B pre kv hempty h i a b).mp hp
    omega

/-- The full claim fails: timestamps 10, 20, 30 read for [25, 15] panic. -/
theorem C26_violated (B : BinSearch) :
    sledRead B (sledStore KV.empty exWrites) 1#64 25#64 15#64 = .panic ∧
    tikvRead B [] (tikvStore [] KV.empty exWrites) 1#64 25#64 15#64 = .panic :=
  ⟨(C26_sled_panic_iff B exWrites 1#64 _ _ exWrites_incr).mpr ⟨⟨10#64, 7#64⟩, ⟨30#64, 9#64⟩, ⟨20#64, 8#64⟩, by decide, by decide,
      by decide, by decide, by decide, by decide, by decide⟩,
   (C26_tikv_panic_iff B [] KV.empty (by simp [KV.empty]) exWrites 1#64 _ _).mpr ⟨⟨10#64, 7#64⟩, ⟨30#64, 9#64⟩, ⟨20#64, 8#64⟩,
      by decide, by decide, by decide, by decide, by decide, by decide, by decide⟩⟩

end Verif
