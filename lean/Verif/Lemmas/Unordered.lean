import Verif.Spec.Unordered
import Verif.Lemmas.ServerLife
namespace Verif
open List

/-! ### The search of the standard library -/

theorem stdLoop_compares {l l' : List U64} {x x' : U64} (h : l.map (fun y : U64 => compare y.toNat x.toNat) = l'.map (fun y : U64 => compare y.toNat x'.toNat))
    (fuel base size : Nat) (hs : base + size ≤ l.length) : stdSearchLoop l x fuel base size = stdSearchLoop l' x' fuel base size := by
  have hlen : l.length = l'.length := by have := congrArg List.length h; simpa using this
  induction fuel generalizing base size with
  | zero => rfl
  | succ fuel ih =>
    rw [stdSearchLoop, stdSearchLoop]
    by_cases hgt : size > 1
    · rw [if_pos hgt, if_pos hgt]
      simp only []
      have hm : base + size / 2 < l.length := by omega
      have hc : compare (l[base + size / 2]).toNat x.toNat = compare (l'[base + size / 2]'(by omega)).toNat x'.toNat := by
        have := congrArg (fun m => m[base + size / 2]?) h
        simpa [hm, hlen ▸ hm] using this
      have hiff : (l[base + size / 2]?.getD 0#64).toNat > x.toNat ↔ (l'[base + size / 2]?.getD 0#64).toNat > x'.toNat := by
        rw [getD_get hm, getD_get (by omega), gt_iff_lt, gt_iff_lt, ← Nat.compare_eq_gt, ← Nat.compare_eq_gt, hc]
      by_cases hg : (l[base + size / 2]?.getD 0#64).toNat > x.toNat
      · rw [if_pos hg, if_pos (hiff.mp hg)]; exact ih _ _ (by omega)
      · rw [if_neg hg, if_neg (fun h => hg (hiff.mpr h))]; exact ih _ _ (by omega)
    · rw [if_neg hgt, if_neg hgt]

theorem stdLoop_bound (l : List U64) (x : U64) (fuel base size : Nat) (h1 : 1 ≤ size) :
    base ≤ stdSearchLoop l x fuel base size ∧ stdSearchLoop l x fuel base size < base + size := by
  induction fuel generalizing base size with
  | zero => simp only [stdSearchLoop]; omega
  | succ fuel ih =>
    rw [stdSearchLoop]
    by_cases hgt : size > 1
    · rw [if_pos hgt]
      simp only []
      split
      · have := ih base (size - size / 2) (by omega); omega
      · have := ih (base + size / 2) (size - size / 2) (by omega); omega
    · rw [if_neg hgt]; omega

/-- The loop is at an element not above the key, or where it started. -/
theorem stdLoop_le (l : List U64) (x : U64) (fuel base size : Nat) (hb : (l[base]?.getD 0#64).toNat ≤ x.toNat) :
    (l[stdSearchLoop l x fuel base size]?.getD 0#64).toNat ≤ x.toNat := by
  induction fuel generalizing base size with
  | zero => exact hb
  | succ fuel ih =>
    rw [stdSearchLoop]
    by_cases hgt : size > 1
    · rw [if_pos hgt]
      simp only []
      split
      · exact ih _ _ hb
      · exact ih _ _ (by omega)
    · rw [if_neg hgt]; exact hb

theorem stdLoop_mono (l : List U64) {a b : U64} (hab : a.toNat ≤ b.toNat) (fuel base base' size : Nat) (h1 : 1 ≤ size)
    (hbb : base = base' ∨ base + size ≤ base') : stdSearchLoop l a fuel base size ≤ stdSearchLoop l b fuel base' size := by
  rcases hbb with rfl | hlt
  · induction fuel generalizing base size with
    | zero => exact Nat.le_refl _
    | succ fuel ih =>
      rw [stdSearchLoop, stdSearchLoop]
      by_cases hgt : size > 1
      · rw [if_pos hgt, if_pos hgt]
        simp only []
        by_cases hb : (l[base + size / 2]?.getD 0#64).toNat > b.toNat
        · rw [if_pos hb, if_pos (by omega)]; exact ih _ _ (by omega)
        · rw [if_neg hb]
          by_cases ha : (l[base + size / 2]?.getD 0#64).toNat > a.toNat
          · rw [if_pos ha]
            have h2 := stdLoop_bound l a fuel base (size - size / 2) (by omega)
            have h3 := stdLoop_bound l b fuel (base + size / 2) (size - size / 2) (by omega)
            omega
          · rw [if_neg ha]; exact ih _ _ (by omega)
      · rw [if_neg hgt, if_neg hgt]
  · have h2 := stdLoop_bound l a fuel base size h1
    have h3 := stdLoop_bound l b fuel base' size h1
    omega

theorem stdBinSearch_careful : Careful stdBinSearch where
  compares := by
    intro l x l' x' h
    have hlen : l.length = l'.length := by have := congrArg List.length h; simpa using this
    show stdSearch l x = stdSearch l' x'
    unfold stdSearch
    by_cases h0 : l.length = 0
    · rw [if_pos h0, if_pos (show l'.length = 0 by omega)]
    · rw [if_neg h0, if_neg (show ¬ l'.length = 0 by omega), ← hlen, ← stdLoop_compares h l.length 0 l.length (by omega)]
      have hb := (stdLoop_bound l x l.length 0 l.length (by omega)).2
      generalize stdSearchLoop l x l.length 0 l.length = i at hb
      have hi : i < l.length := by omega
      have hc : compare (l[i]).toNat x.toNat = compare (l'[i]'(by omega)).toNat x'.toNat := by
        have := congrArg (fun m => m[i]?) h
        simpa [hi, hlen ▸ hi] using this
      have e1 : l[i] = x ↔ l'[i]'(by omega) = x' := by
        rw [← BitVec.toNat_inj, ← BitVec.toNat_inj, ← Nat.compare_eq_eq, ← Nat.compare_eq_eq, hc]
      have e2 : (l[i]).toNat < x.toNat ↔ (l'[i]'(by omega)).toNat < x'.toNat := by
        rw [← Nat.compare_eq_lt, ← Nat.compare_eq_lt, hc]
      simp only [getD_get hi, getD_get (show i < l'.length by omega), e1, e2]
  safe := by
    intro l a b f hf hfb hab
    have hpos : 0 < l.length := by cases l with
      | nil => simp at hf
      | cons _ _ => simp
    have h0 : ¬ l.length = 0 := by omega
    have hb := (stdLoop_bound l b l.length 0 l.length (by omega)).2
    have hm := stdLoop_mono l hab l.length 0 0 l.length (by omega) (Or.inl rfl)
    have hle := stdLoop_le l b l.length 0 l.length (by
      rw [List.head?_eq_getElem?] at hf; rw [hf]; exact hfb)
    refine ⟨stdSearchLoop l b l.length 0 l.length, by omega, ?_, ?_⟩
    · show (stdSearch l a).2 ≤ _
      unfold stdSearch
      rw [if_neg h0]
      simp only []
      split
      · simp only []; omega
      · simp only []; split <;> omega
    · show stdSearch l b = _ ∨ stdSearch l b = _
      unfold stdSearch
      rw [if_neg h0]
      simp only []
      by_cases hy : l[stdSearchLoop l b l.length 0 l.length]?.getD 0#64 = b
      · rw [if_pos hy]; exact Or.inl rfl
      · rw [if_neg hy]
        have : (l[stdSearchLoop l b l.length 0 l.length]?.getD 0#64).toNat ≠ b.toNat := fun e => hy (BitVec.eq_of_toNat_eq e)
        rw [if_pos (by omega)]; exact Or.inr rfl

/-! ### Reading a series -/

theorem trim_safe {B : BinSearch} (hB : Careful B) {s : List TimePoint} {a b : U64} {f : TimePoint} (hf : s.head? = some f) (hfb : f.ts.toNat ≤ b.toNat)
    (hab : a.toNat ≤ b.toNat) : ∃ l r, trimSeries B s a b = .ok ((s.take r).drop l) := by
  obtain ⟨r, h1, h2, h3⟩ := hB.safe (s.map (·.ts)) a b f.ts (by rw [List.head?_map, hf]; rfl) hfb hab
  rw [List.length_map] at h1
  refine ⟨(B.run (s.map (·.ts)) a).2, r + 1, ?_⟩
  unfold trimSeries sliceIncl
  rcases h3 with h3 | h3 <;> simp only [h3] <;> rw [if_pos ⟨by omega, h2⟩]

/-- A read never panics, and what it returns is part of the series. -/
theorem read_safe {B : BinSearch} (hB : Careful B) {s : List TimePoint} (hs : s ≠ []) {a b : U64} (hab : a.toNat ≤ b.toNat) :
    (∃ e, readSeries B s a b = .err e) ∨ ∃ l r, readSeries B s a b = .ok ((s.take r).drop l) := by
  unfold readSeries
  rcases hf : s.head? with _ | f
  · rw [List.head?_eq_none_iff] at hf; exact absurd hf hs
  rcases hl : s.getLast? with _ | l
  · rw [List.getLast?_eq_none_iff] at hl; exact absurd hl hs
  simp only []
  by_cases h : f.ts.toNat > b.toNat ∨ l.ts.toNat < a.toNat
  · rw [if_pos h]; exact Or.inl ⟨_, rfl⟩
  · rw [if_neg h]; exact Or.inr (trim_safe hB hf (by omega) hab)

/-- A range strictly around the series gives all of it, in whatever order it is. -/
theorem read_covering {B : BinSearch} (hB : Careful B) {s : List TimePoint} (hs : s ≠ []) {a b : U64}
    (h : ∀ p ∈ s, a.toNat < p.ts.toNat ∧ p.ts.toNat < b.toNat) : readSeries B s a b = .ok s := by
  have hpos : 0 < s.length := List.length_pos_iff.mpr hs
  unfold readSeries
  rcases hf : s.head? with _ | f
  · rw [List.head?_eq_none_iff] at hf; exact absurd hf hs
  rcases hl : s.getLast? with _ | l
  · rw [List.getLast?_eq_none_iff] at hl; exact absurd hl hs
  have h1 := h f (List.mem_of_mem_head? hf)
  have h2 := h l (List.mem_of_mem_getLast? hl)
  simp only []
  rw [if_neg (by omega)]
  have sorted : ∀ (n : Nat) (x : U64), (List.replicate n x).Pairwise (fun a b : U64 => a.toNat ≤ b.toNat) := by
    intro n x; rw [List.pairwise_replicate]; right; exact Nat.le_refl _
  have ea : B.run (s.map (·.ts)) a = B.run (List.replicate s.length 1#64) 0#64 := by
    apply hB.compares
    rw [List.map_map, List.map_replicate, List.map_eq_replicate_iff.mpr]
    intro p hp
    simp only [Function.comp_apply]
    rw [Nat.compare_eq_gt.mpr (h p hp).1]; rfl
  have eb : B.run (s.map (·.ts)) b = B.run (List.replicate s.length 0#64) 1#64 := by
    apply hB.compares
    rw [List.map_map, List.map_replicate, List.map_eq_replicate_iff.mpr]
    intro p hp
    simp only [Function.comp_apply]
    rw [Nat.compare_eq_lt.mpr (h p hp).2]; rfl
  have ra : (B.run (s.map (·.ts)) a).2 = 0 := by
    rw [ea]
    rcases hr : B.run (List.replicate s.length 1#64) 0#64 with ⟨f, i⟩
    cases f
    · obtain ⟨k1, k2, -⟩ := B.missing _ _ _ (sorted _ _) hr
      rcases i with _ | i
      · rfl
      · exfalso
        have := k2 1#64 (by rw [List.take_replicate]; rw [List.length_replicate] at k1; rw [Nat.min_eq_left k1]; simp)
        simp at this
    · exfalso
      have := B.found _ _ _ (sorted _ _) hr
      have := List.mem_replicate.mp (List.mem_of_getElem? this)
      simp at this
  have rb : B.run (s.map (·.ts)) b = (false, s.length) := by
    rw [eb]
    rcases hr : B.run (List.replicate s.length 0#64) 1#64 with ⟨f, i⟩
    cases f
    · obtain ⟨k1, -, k3⟩ := B.missing _ _ _ (sorted _ _) hr
      rw [List.length_replicate] at k1
      rcases Nat.lt_or_eq_of_le k1 with hlt | rfl
      · exfalso
        have := k3 0#64 (by rw [List.drop_replicate]; exact List.mem_replicate.mpr ⟨by omega, rfl⟩)
        simp at this
      · rfl
    · exfalso
      have := B.found _ _ _ (sorted _ _) hr
      have := List.mem_replicate.mp (List.mem_of_getElem? this)
      simp at this
  unfold trimSeries
  simp only [ra, rb]
  rcases hn : s.length with _ | n
  · omega
  · simp only [sliceIncl]
    rw [if_pos ⟨by omega, by omega⟩, ← hn]; simp

/-! ### Queries of chunks -/

/-- The matching series as the storage gives them out. -/
def queryBy (B : BinSearch) (a b : U64) : List Series → Res (List Series)
  | [] => .ok []
  | x :: xs => (readSeries B x.points a b).bind fun d => (queryBy B a b xs).bind fun r => .ok (if d.length = 0 then r else ⟨x.id, x.labels, d⟩ :: r)

/-- What a chunk contributes to a query. -/
def Gen.answerBy (B : BinSearch) (g : Gen) (q : Labels) (a b : U64) : List Series :=
  if overlaps g.lo g.shown a b then okSeries (queryBy B a b (matched sledAccepts g.h q)) else []

theorem readAll_by {σ : Type} {C : Comp σ} {s : σ} {B : BinSearch} {a b : U64} (l : List Series)
    (hr : ∀ x ∈ l, C.read s x.id a b = readSeries B x.points a b) : readAll C s a b (l.map fun x => (x.id, x.labels)) = queryBy B a b l := by
  induction l with
  | nil => rfl
  | cons x l ih => rw [List.map_cons, readAll, hr x (by simp), ih (fun y hy => hr y (by simp [hy]))]; rfl

theorem matched_points {h : Inserts} {q : Labels} {x : Series} (hx : x ∈ matched sledAccepts h q) :
    x.points ≠ [] ∧ ∀ p ∈ x.points, ∃ w ∈ h, w.2 = p ∧ ∃ l, x.labels = sortLabels l ∧ w.1.Perm l := by
  unfold matched at hx
  split at hx
  · simp at hx
  · obtain ⟨s, hs, rfl⟩ := List.mem_map.mp hx
    simp only [keepBy_sled]
    constructor
    · obtain ⟨w, hw, e⟩ := labelSets_mem (number_mem (List.mem_filter.mp hs).1)
      refine List.ne_nil_of_mem (a := w.2) ?_
      unfold pointsFor
      exact List.mem_map.mpr ⟨w, List.mem_filter.mpr ⟨hw, by simp [e]⟩, rfl⟩
    · intro p hp
      unfold pointsFor at hp
      obtain ⟨w, hw, rfl⟩ := List.mem_map.mp hp
      obtain ⟨h1, h2⟩ := List.mem_filter.mp hw
      exact ⟨w, h1, rfl, s.1, rfl, by simpa using h2⟩

theorem queryBy_safe {B : BinSearch} (hB : Careful B) {a b : U64} (hab : a.toNat ≤ b.toNat) (l : List Series) (hne : ∀ x ∈ l, x.points ≠ []) :
    queryBy B a b l ≠ .panic ∧ (okSeries (queryBy B a b l)).map (·.labels) <+ l.map (·.labels) ∧
    ∀ y ∈ okSeries (queryBy B a b l), ∃ x ∈ l, y.labels = x.labels ∧ y.points ≠ [] ∧ ∀ p ∈ y.points, p ∈ x.points := by
  induction l with
  | nil => exact ⟨by simp [queryBy], by simp [queryBy, okSeries], by simp [queryBy, okSeries]⟩
  | cons x l ih =>
    obtain ⟨i1, i2, i3⟩ := ih fun y hy => hne y (by simp [hy])
    rw [queryBy]
    rcases read_safe hB (hne x (by simp)) hab with ⟨e, he⟩ | ⟨lo, hi, he⟩
    · rw [he]; exact ⟨by simp [Res.bind], by simp [Res.bind, okSeries], by simp [Res.bind, okSeries]⟩
    · rw [he, Res.bind_ok]
      cases hq : queryBy B a b l with
      | panic => exact absurd hq i1
      | err e => exact ⟨by simp [Res.bind], by simp [Res.bind, okSeries], by simp [Res.bind, okSeries]⟩
      | ok r =>
        rw [hq] at i2 i3
        simp only [okSeries] at i2 i3
        rw [Res.bind_ok]
        refine ⟨by simp, ?_, ?_⟩
        · simp only [okSeries]
          split
          · rw [List.map_cons]; exact i2.cons _
          · rw [List.map_cons, List.map_cons]; exact i2.cons₂ _
        · intro y hy
          simp only [okSeries] at hy
          split at hy
          · obtain ⟨z, hz, h⟩ := i3 y hy; exact ⟨z, by simp [hz], h⟩
          · rename_i h0
            rcases List.mem_cons.mp hy with rfl | hy
            · exact ⟨x, by simp, rfl, fun h => h0 (List.length_eq_zero_iff.mpr h), fun p hp => List.mem_of_mem_take (List.mem_of_mem_drop hp)⟩
            · obtain ⟨z, hz, h⟩ := i3 y hy; exact ⟨z, by simp [hz], h⟩

theorem queryBy_covering {B : BinSearch} (hB : Careful B) {a b : U64} (l : List Series) (hne : ∀ x ∈ l, x.points ≠ [])
    (h : ∀ x ∈ l, ∀ p ∈ x.points, a.toNat < p.ts.toNat ∧ p.ts.toNat < b.toNat) : queryBy B a b l = .ok l := by
  induction l with
  | nil => rfl
  | cons x l ih =>
    rw [queryBy, read_covering hB (hne x (by simp)) (h x (by simp)), Res.bind_ok, ih (fun y hy => hne y (by simp [hy])) (fun y hy => h y (by simp [hy])), Res.bind_ok]
    have : ¬ x.points.length = 0 := by have := hne x (by simp); simpa using this
    rw [if_neg this]

theorem answerBy_nodup {B : BinSearch} (hB : Careful B) (g : Gen) (q : Labels) {a b : U64} (hab : a.toNat ≤ b.toNat) :
    ((g.answerBy B q a b).map (·.labels)).Nodup := by
  unfold Gen.answerBy
  split
  · exact List.Nodup.sublist (queryBy_safe hB hab _ fun x hx => (matched_points hx).1).2.1 (matched_nodup _ _ _)
  · simp

/-- Everything a chunk reports was accepted by it, with these labels. -/
theorem answerBy_held {B : BinSearch} (hB : Careful B) {g : Gen} (hwf : ∀ w ∈ g.h, WFSet w.1) {q : Labels} {a b : U64} (hab : a.toNat ≤ b.toNat) {y : Series}
    (hy : y ∈ g.answerBy B q a b) : y.points ≠ [] ∧ ∀ p ∈ y.points, ∃ w ∈ g.h, w.2 = p ∧ sortLabels w.1 = y.labels := by
  unfold Gen.answerBy at hy
  split at hy
  · obtain ⟨x, hx, e, hn, hs⟩ := (queryBy_safe hB hab _ fun x hx => (matched_points hx).1).2.2 y hy
    refine ⟨hn, fun p hp => ?_⟩
    obtain ⟨w, hw, h1, l, h2, h3⟩ := (matched_points hx).2 p (hs p hp)
    exact ⟨w, hw, h1, by rw [e, h2]; exact sortLabels_perm_eq (hwf w hw).distinct h3⟩
  · simp at hy

theorem answerBy_labels {B : BinSearch} (hB : Careful B) {g : Gen} (hwf : ∀ w ∈ g.h, WFSet w.1) {q : Labels} {a b : U64} (hab : a.toNat ≤ b.toNat) {y : Series}
    (hy : y ∈ g.answerBy B q a b) : ∃ w ∈ g.h, sortLabels w.1 = y.labels := by
  obtain ⟨h1, h2⟩ := answerBy_held hB hwf hab hy
  obtain ⟨p, hp⟩ := List.exists_mem_of_ne_nil _ h1
  obtain ⟨w, hw, -, e⟩ := h2 p hp
  exact ⟨w, hw, e⟩

theorem shows_any {B : BinSearch} (hB : Careful B) {c : Chunk SledStores} {g : Gen} (h : Shows B c g) (hlen : g.h.length + 1 < 2 ^ 64) (hwf : ∀ w ∈ g.h, WFSet w.1)
    {q : Labels} (hq : ∀ l ∈ q, WFLabel l) {a b : U64} (hab : a.toNat ≤ b.toNat) :
    (c.view (sledComp B)).query q a b ≠ .panic ∧ okSeries ((c.view (sledComp B)).query q a b) = g.answerBy B q a b ∧
    (if (c.view (sledComp B)).within a b then okSeries ((c.view (sledComp B)).query q a b) else []) = g.answerBy B q a b := by
  have hll := labelSets_length g.h
  have hqy : c.query (sledComp B) q a b =
      if overlaps g.lo g.shown a b then queryBy B a b (matched sledAccepts g.h q) else .err (.outOfRange g.lo g.shown) := by
    unfold Chunk.query
    rw [Chunk.isWithRange_eq]
    rw [h.ok, h.start_, h.end_]
    simp only [Bool.false_eq_true, if_false]
    by_cases ho : overlaps g.lo g.shown a b
    · simp only [ho, if_true]
      obtain ⟨hids, -⟩ := number_ids (l := labelSets g.h) (by omega)
      rw [← numbered_eq] at hids
      have hwf' : ∀ x ∈ numbered g.h, WFSet x.1 := by
        intro x hx
        obtain ⟨w, hw, e⟩ := labelSets_mem (number_mem hx)
        rw [← e]; exact hwf w hw
      rw [(sledRefines B).metadata h.holds hwf' hids hq, Res.bind_ok]
      have e : specMetadata (numbered g.h) q = (matched sledAccepts g.h q).map fun x => (x.id, x.labels) := by
        unfold specMetadata matched
        by_cases hk : knownLabels (numbered g.h) q = []
        · simp [hk]
        · rw [if_neg hk, if_neg hk, List.map_map]; rfl
      rw [e, readAll_by]
      intro x hx
      have hne := (matched_points hx).1
      unfold matched at hx
      split at hx
      · simp at hx
      · obtain ⟨s, hs, rfl⟩ := List.mem_map.mp hx
        have := seriesOf_mem (acc := sledAccepts) (h := g.h) (by omega) (List.mem_filter.mp hs).1
        simp only [sledComp] at hne ⊢
        rw [sledRead_eq h.holds.2, this, if_neg hne]
    · simp [ho]
  have hw : (c.view (sledComp B)).within a b = overlaps g.lo g.shown a b := by
    show c.isWithRange a b = _
    rw [Chunk.isWithRange_eq, h.start_, h.end_]
  show c.query (sledComp B) q a b ≠ .panic ∧ okSeries (c.query (sledComp B) q a b) = _ ∧
    (if (c.view (sledComp B)).within a b then okSeries (c.query (sledComp B) q a b) else []) = _
  rw [hqy, hw]
  unfold Gen.answerBy
  by_cases ho : overlaps g.lo g.shown a b
  · simp only [ho, if_true]
    exact ⟨(queryBy_safe hB hab _ fun x hx => (matched_points hx).1).1, trivial, trivial⟩
  · simp only [ho]
    exact ⟨by simp, rfl, rfl⟩

theorem any_query {B : BinSearch} (hB : Careful B) (H : Hash) {db : LiveDb} {g : Gens} (h : LifeRep B db g) (hlen : ∀ c ∈ g.all, c.h.length + 1 < 2 ^ 64)
    (hwf : ∀ c ∈ g.all, ∀ w ∈ c.h, WFSet w.1) {q : Labels} (hq : ∀ l ∈ q, WFLabel l)
    {a b : U64} (hab : a.toNat ≤ b.toNat) (hg : H.Good fun ls => ∃ c ∈ g.all, ∃ w ∈ c.h, sortLabels w.1 = ls) :
    ∃ r, db.query B H q a b = .ok r ∧ IsMerge (g.all.map fun c => c.answerBy B q a b) r := by
  have hcur : Shows B db.cur g.cur := ⟨h.cur.start_, h.cur.end_.trans h.shown.symm, h.cur.ok, h.cur.rep⟩
  have hsec := h.secondary
  have hca := shows_any hB hcur (hlen _ (by simp [Gens.all])) (hwf _ (by simp [Gens.all])) hq hab
  have hall : ∀ c x, Shows B c x → x ∈ g.old → _ := fun c x hs hx =>
    shows_any hB hs (hlen _ (by simp [Gens.all, hx])) (hwf _ (by simp [Gens.all, hx])) hq hab
  have hu : usedResults (db.cur.view (sledComp B)) (db.secondary.map fun c => c.view (sledComp B)) q a b = g.all.map fun c => c.answerBy B q a b := by
    unfold usedResults Gens.all
    rw [List.map_append, List.map_map]
    congr 1
    · have hs := hsec
      clear hsec
      revert hall
      generalize db.secondary = l at hs
      generalize g.old = m at hs
      intro hall
      induction hs with
      | nil => rfl
      | cons h1 _ ih =>
        rw [List.map_cons, List.map_cons, ih fun c x hs hx => hall c x hs (by simp [hx])]
        congr 1
        exact (hall _ _ h1 (by simp)).2.2
    · rw [List.map_singleton]; congr 1; exact hca.2.1
  rw [← hu]
  refine dbQuery_merge H _ _ q a b hca.1 ?_ hg ?_ ?_
  · intro v hv _
    obtain ⟨c, hc, rfl⟩ := List.mem_map.mp hv
    obtain ⟨x, hx, hs⟩ := forall₂_get hsec.flip c hc
    exact (hall c x hs hx).1
  · intro v hv s hs
    rcases List.mem_cons.mp hv with rfl | hv
    · rw [hca.2.1] at hs
      obtain ⟨w, hw, e⟩ := answerBy_labels hB (hwf _ (by simp [Gens.all])) hab hs
      exact ⟨g.cur, by simp [Gens.all], w, hw, e⟩
    · obtain ⟨c, hc, rfl⟩ := List.mem_map.mp hv
      obtain ⟨x, hx, hsh⟩ := forall₂_get hsec.flip c hc
      rw [(hall c x hsh hx).2.1] at hs
      obtain ⟨w, hw, e⟩ := answerBy_labels hB (hwf x (by simp [Gens.all, hx])) hab hs
      exact ⟨x, by simp [Gens.all, hx], w, hw, e⟩
  · intro r hr
    rw [hu, List.mem_map] at hr
    obtain ⟨c, hc, rfl⟩ := hr
    exact answerBy_nodup hB _ _ hab

/-! ### The server -/

/-- The result of a query in wire form. -/
def IsResultBy (B : BinSearch) (g : Gens) (q : PQuery) (r : List PSeries) : Prop :=
  ∃ es, IsMerge (g.all.map fun c => c.answerBy B (q.matchers.map fun x => ⟨x.name, x.value⟩) (asU64 q.start_) (asU64 q.end_)) es ∧
    r = es.map fun e => ⟨e.1, e.2.map asReported⟩

/-- The response to a happening. -/
def AnsweredBy (B : BinSearch) (sn : Snappy) (utf8 : Str → Bool) (s : Site) : Happening → Option Response → Prop
  | .call (.read qs), x =>
    if s.up then ∃ body out, x = some ⟨200, body⟩ ∧ sn.decompress body = some out ∧
          ∃ rs : List (List PSeries), List.Forall₂ (IsResultBy B s.g) qs rs ∧ (out.length < 2 ^ 32 → ∀ m, IsResponse utf8 m out ↔ m = rs)
    else x = none
  | e, x => Answered sn utf8 s e x

theorem read_any {B : BinSearch} (hB : Careful B) (H : Hash) {rt : PbRt} {n : Nat} (hn : n + 1 < 2 ^ 64) {h : Host} {s : Site} (hr : HostRep B rt n h s)
    {qs : List PQuery}
    (hq : ∀ q ∈ qs, (∀ x ∈ q.matchers, WFLabel ⟨x.name, x.value⟩) ∧ (asU64 q.start_).toNat ≤ (asU64 q.end_).toNat ∧
            H.Good fun ls => ∃ c ∈ s.g.all, ∃ w ∈ c.h, sortLabels w.1 = ls) :
    ∃ rs, serverQuery (liveApi B H) h.db qs = .ok rs ∧ Forall₂ (IsResultBy B s.g) qs (rs.map (·.map wireSeries)) ∧ ∀ r ∈ rs, ∀ x ∈ r, SeriesOk rt.utf8 x := by
  unfold serverQuery
  induction qs with
  | nil => exact ⟨[], rfl, .nil, by simp⟩
  | cons q qs ih =>
    obtain ⟨rs, h1, h2, h3⟩ := ih fun x hx => hq x (by simp [hx])
    obtain ⟨q1, q2, q3⟩ := hq q (by simp)
    obtain ⟨r, e1, e2⟩ := any_query hB H hr.life (fun c hc => by have := hr.len c hc; omega) hr.wf (q := q.matchers.map fun x => ⟨x.name, x.value⟩)
      (by intro l hl; obtain ⟨x, hx, rfl⟩ := List.mem_map.mp hl; exact q1 x hx) q2 q3
    have ha : answerQuery (liveApi B H) h.db q = .ok (r.map toSeries) := by
      unfold answerQuery
      show (match h.db.query B H (q.matchers.map fun x => (⟨x.name, x.value⟩ : Label)) (asU64 q.start_) (asU64 q.end_) with
        | .ok r => Res.ok (r.map toSeries) | .err _ => .ok [] | .panic => .panic) = _
      rw [e1]
    refine ⟨r.map toSeries :: rs, by rw [Res.mapM, ha, Res.bind_ok, h1, Res.bind_ok], .cons ⟨r, e2, ?_⟩ h2, ?_⟩
    · simp only []
      rw [List.map_map]
      refine List.map_congr_left fun e _ => ?_
      show wireSeries (toSeries e) = _
      unfold wireSeries toSeries
      simp only [List.map_map]
      rfl
    · intro r' hr' x hx
      rcases List.mem_cons.mp hr' with rfl | hr'
      · obtain ⟨⟨ls, ps⟩, he, rfl⟩ := List.mem_map.mp hx
        refine toSeries_ok ?_
        obtain ⟨hne, -⟩ := (e2.entries ls ps).mp he
        obtain ⟨y, hy⟩ := List.exists_mem_of_ne_nil _ hne
        unfold seriesWith at hy
        obtain ⟨z, hz, hyz⟩ := List.mem_flatMap.mp hy
        obtain ⟨c, hc, rfl⟩ := List.mem_map.mp hz
        rw [List.mem_filter, decide_eq_true_eq] at hyz
        obtain ⟨hya, rfl⟩ := hyz
        obtain ⟨w, hw, e⟩ := answerBy_labels hB (hr.wf c hc) q2 hya
        intro l hl
        have hl : l ∈ y.labels := hl
        rw [← e] at hl
        exact hr.utf8 c hc w hw l ((sortLabels_mem _ _).mp hl)
      · exact h3 r' hr' x hx

/-- One happening. -/
theorem HostRep.step_any {B : BinSearch} (hB : Careful B) (H : Hash) {rt : PbRt} (sn : Snappy) {P : Paths} (hP : P.read ≠ P.write) {base : Str}
    (hb : ∀ b ∈ base, isCont b = false) {size : U64} {n : Nat} {h : Host} {s : Site} (hr : HostRep B rt n h s) {e : HostEvent} {e' : Happening}
    (hm : Means sn rt.utf8 P e e') (hp : ProperAny H rt size s e') (hlen : n + sent [e'] < 2 ^ 64 - 1) :
    ∃ x h', h.step B H (pbFormats sn rt) P base size e = (x, h') ∧ AnsweredBy B sn rt.utf8 s e' x ∧ HostRep B rt (n + sent [e']) h' (s.next size e') := by
  have old : (∀ qs, e' ≠ .call (.read qs)) →
      ∃ x h', h.step B H (pbFormats sn rt) P base size e = (x, h') ∧ AnsweredBy B sn rt.utf8 s e' x ∧ HostRep B rt (n + sent [e']) h' (s.next size e') := by
    intro hne
    have hp' : Proper H rt size s e' := by
      rcases e' with (_ | qs | _ | _ | _) | _ | _
      all_goals first | exact hp | exact absurd rfl (hne qs)
    obtain ⟨x, h', e1, e2, e3⟩ := hr.step H sn hP hb hm hp' hlen
    refine ⟨x, h', e1, ?_, e3⟩
    rcases e' with (_ | qs | _ | _ | _) | _ | _
    all_goals first | exact e2 | exact absurd rfl (hne qs)
  rcases e' with (_ | qs | _ | _ | _) | _ | _
  case call.read =>
    cases e with
    | tick => exact hm.elim
    | restart => exact hm.elim
    | request r =>
      obtain ⟨hu, db⟩ := h
      obtain ⟨su, g⟩ := s
      have hup : hu = su := hr.up
      subst hup
      have more : ∀ k, HostRep B rt (n + k) ⟨hu, db⟩ ⟨hu, g⟩ := fun k => ⟨rfl, hr.life, hr.wf, hr.utf8, fun c hc => by have := hr.len c hc; omega⟩
      cases hu with
      | false => exact ⟨_, _, rfl, rfl, more _⟩
      | true =>
        obtain ⟨url, rb⟩ := r
        obtain ⟨hurl, body, bytes, hbody, hd, hw⟩ := hm
        simp only [] at hurl hbody
        subst hurl hbody
        obtain ⟨p1, p3⟩ := hp rfl
        obtain ⟨rs, e1, e2, e3⟩ := read_any hB H (by omega) hr p3
        have hpr := C47_response (liveApi B H) (pbFormats sn rt) P db body bytes ⟨qs, false⟩ rs hd (C59_read sn rt hw p1) rfl e1
        refine ⟨some ⟨200, sn.compress (encResponse rs)⟩, ⟨true, db⟩, ?_, ?_, more _⟩
        · simp only [Host.step, if_true]
          rw [hpr]
          rfl
        · refine ⟨_, encResponse rs, rfl, sn.undo _, _, e2, fun hl => ?_⟩
          obtain ⟨out, o1, o2⟩ := C60_response_partial sn rt rs e3 hl
          have : out = encResponse rs := by
            have : sn.decompress (sn.compress (encResponse rs)) = some out := o1
            rw [sn.undo] at this
            exact (Option.some.inj this).symm
          rw [← this]
          exact o2
  all_goals exact old (by intro qs; simp)

/-- A history. -/
theorem HostRep.run_any {B : BinSearch} (hB : Careful B) (H : Hash) {rt : PbRt} (sn : Snappy) {P : Paths} (hP : P.read ≠ P.write) {base : Str}
    (hb : ∀ b ∈ base, isCont b = false)
    {size : U64} {es : List HostEvent} {hs : List Happening} (hm : Forall₂ (Means sn rt.utf8 P) es hs) {n : Nat} {h : Host} {s : Site}
    (hr : HostRep B rt n h s) (hp : ProperAnyAll H rt size s hs) (hlen : n + sent hs < 2 ^ 64 - 1) :
    ∃ xs h', h.run B H (pbFormats sn rt) P base size es = (xs, h') ∧ xs.length = hs.length ∧
      (∀ (i : Nat) (hi : i < hs.length) (hx : i < xs.length), AnsweredBy B sn rt.utf8 (s.after size (hs.take i)) hs[i] xs[i]) := by
  induction hm generalizing n h s with
  | nil => exact ⟨[], h, rfl, rfl, by simp⟩
  | @cons e e' es hs h1 _ ih =>
    rw [sent_cons] at hlen
    obtain ⟨x, h', e1, e2, e3⟩ := hr.step_any hB H sn hP hb h1 hp.1 (by omega)
    obtain ⟨xs, h'', i1, i2, i3⟩ := ih e3 hp.2 (by omega)
    refine ⟨x :: xs, h'', by simp [Host.run, e1, i1], by simp [i2], ?_⟩
    intro i hi hx
    cases i with
    | zero => exact e2
    | succ i => exact i3 i (by simpa using hi) (by simpa using hx)

/-! ### Facts about the specification -/

theorem ProperAnyAll.take {H : Hash} {rt : PbRt} {size : U64} {hs : List Happening} {s : Site} (h : ProperAnyAll H rt size s hs) (n : Nat) :
    ProperAnyAll H rt size s (hs.take n) := by
  induction hs generalizing s n with
  | nil => simpa using h
  | cons e es ih =>
    cases n with
    | zero => exact True.intro
    | succ n => exact ⟨h.1, ih h.2 n⟩

/-- Stored points have well-formed labels and lie in the window of their chunk. -/
theorem Site.after_sound_any {H : Hash} {rt : PbRt} {size : U64} {hs : List Happening} {s : Site} (hp : ProperAnyAll H rt size s hs)
    (h : ∀ c ∈ s.g.all, ∀ w ∈ c.h, WFSet w.1 ∧ inside c.lo c.hi w.2 = true) :
    ∀ c ∈ (s.after size hs).g.all, ∀ w ∈ c.h, WFSet w.1 ∧ inside c.lo c.hi w.2 = true := by
  induction hs generalizing s with
  | nil => exact h
  | cons e es ih =>
    refine ih hp.2 fun c hc w hw => ?_
    rcases Site.next_chunk hc with ⟨c0, hc0, e1, e2, h3⟩ | h0
    · rw [e1, e2]
      rcases h3 w hw with h4 | ⟨m, rfl, hu, rfl, h4⟩
      · exact h c0 hc0 w h4
      · obtain ⟨x, hx, y, -, rfl, hi⟩ := newPoints_mem.mp h4
        exact ⟨hp.1 hu x (takeUntil_mem hx), hi⟩
    · rw [h0] at hw; simp at hw

/-- What a chunk contributes to a query around everything it holds: for a label set with the labels of the query, all its points in the order
of arrival. -/
theorem answerBy_covering {B : BinSearch} (hB : Careful B) {c : Gen} (hs : ∀ w ∈ c.h, WFSet w.1 ∧ inside c.lo c.hi w.2 = true)
    {q : Labels} (hq : q ≠ []) {b : U64} (hb : ∀ w ∈ c.h, w.2.ts.toNat < b.toNat) {ls : Labels} (hls : WFSet ls) (hsub : ∀ l ∈ q, l ∈ ls) :
    (((c.answerBy B q 0#64 b).filter fun s => decide (s.labels = sortLabels ls)).flatMap (·.points)) = pointsFor c.h ls := by
  have hcov : ∀ w ∈ c.h, (0#64).toNat < w.2.ts.toNat ∧ w.2.ts.toNat < b.toNat := by
    intro w hw
    have h1 := (hs w hw).2
    simp only [inside, Bool.and_eq_true, decide_eq_true_eq] at h1
    exact ⟨by simp; omega, hb w hw⟩
  have hm : okSeries (queryBy B 0#64 b (matched sledAccepts c.h q)) = matched sledAccepts c.h q := by
    rw [queryBy_covering hB _ (fun x hx => (matched_points hx).1) (fun x hx p hp => by
      obtain ⟨w, hw, rfl, -⟩ := (matched_points hx).2 p hp
      exact hcov w hw)]
    rfl
  unfold Gen.answerBy
  rw [hm]
  have hpn : pointsFor c.h ls = [] → ∀ x ∈ matched sledAccepts c.h q, x.labels ≠ sortLabels ls := by
    intro h0 x hx e
    obtain ⟨p, hp⟩ := List.exists_mem_of_ne_nil _ (matched_points hx).1
    obtain ⟨w, hw, -, l, h1, h2⟩ := (matched_points hx).2 p hp
    have h3 : w.1.Perm ls := h2.trans (perm_of_sortLabels_eq (h1.symm.trans e))
    have : w.2 ∈ pointsFor c.h ls := by
      unfold pointsFor
      exact List.mem_map.mpr ⟨w, List.mem_filter.mpr ⟨hw, by simpa using h3⟩, rfl⟩
    rw [h0] at this; simp at this
  by_cases h0 : pointsFor c.h ls = []
  · rw [h0]
    have : (if overlaps c.lo c.shown 0#64 b = true then matched sledAccepts c.h q else []).filter (fun s => decide (s.labels = sortLabels ls)) = [] := by
      rw [List.filter_eq_nil_iff]
      intro x hx
      split at hx
      · simpa using hpn h0 x hx
      · simp at hx
    rw [this]; rfl
  · obtain ⟨p, hp⟩ := List.exists_mem_of_ne_nil _ h0
    unfold pointsFor at hp
    obtain ⟨w, hw, rfl⟩ := List.mem_map.mp hp
    obtain ⟨hw, hperm⟩ := List.mem_filter.mp hw
    have hperm : w.1.Perm ls := by simpa using hperm
    have hov : overlaps c.lo c.shown 0#64 b = true := by
      have h1 := (hs _ hw).2
      have h2 := hb _ hw
      simp only [inside, Bool.and_eq_true, decide_eq_true_eq] at h1
      unfold overlaps
      simp; omega
    rw [if_pos hov]
    obtain ⟨ls', hls', hperm'⟩ := labelSets_complete hw
    rw [← number_fst (labelSets c.h)] at hls'
    obtain ⟨⟨ls'', id⟩, hn, rfl⟩ := List.mem_map.mp hls'
    change (ls'', id) ∈ numbered c.h at hn
    change ls''.Perm w.1 at hperm'
    have hpp : ls''.Perm ls := hperm'.trans hperm
    have hkn : knownLabels (numbered c.h) q = q := by
      unfold knownLabels
      rw [List.filter_eq_self]
      intro l hl
      rw [List.any_eq_true]
      exact ⟨_, hn, by simpa using hpp.mem_iff.mpr (hsub l hl)⟩
    have hpf : pointsFor c.h ls'' = pointsFor c.h ls := by
      unfold pointsFor
      congr 1
      apply List.filter_congr
      intro v _
      simp only [decide_eq_decide]
      exact ⟨fun h => h.trans hpp, fun h => h.trans hpp.symm⟩
    have hmem : (⟨id, sortLabels ls'', pointsFor c.h ls''⟩ : Series) ∈ matched sledAccepts c.h q := by
      unfold matched
      rw [hkn, if_neg hq]
      refine List.mem_map.mpr ⟨(ls'', id), List.mem_filter.mpr ⟨hn, ?_⟩, by rw [keepBy_sled]⟩
      rw [List.all_eq_true]
      intro l hl
      simpa using hpp.mem_iff.mpr (hsub l hl)
    have hsl : sortLabels ls'' = sortLabels ls := (sortLabels_perm_eq hls.distinct hpp.symm).symm
    rw [hsl, hpf] at hmem
    have one : ∀ (l : List Series) (y : Series), (l.map (·.labels)).Nodup → y ∈ l → l.filter (fun s => decide (s.labels = y.labels)) = [y] := by
      intro l y
      induction l with
      | nil => simp
      | cons x l ih =>
        intro hnd hy
        rw [List.map_cons, List.nodup_cons] at hnd
        rcases List.mem_cons.mp hy with rfl | hy
        · rw [List.filter_cons, if_pos (by simp), List.filter_eq_nil_iff.mpr]
          intro z hz
          have : z.labels ≠ y.labels := fun e => hnd.1 (e ▸ List.mem_map_of_mem (f := fun s : Series => s.labels) hz)
          simpa using this
        · have : x.labels ≠ y.labels := fun e => hnd.1 (e ▸ List.mem_map_of_mem (f := fun s : Series => s.labels) hy)
          rw [List.filter_cons, if_neg (by simpa using this)]
          exact ih hnd.2 hy
    rw [one _ _ (matched_nodup _ _ _) hmem]
    simp

theorem mergedPoints_map {α : Type} (l : List α) (f : α → List Series) (ls : Labels) :
    mergedPoints (l.map f) ls = l.flatMap fun c => ((f c).filter fun s => decide (s.labels = ls)).flatMap (·.points) := by
  unfold mergedPoints seriesWith
  induction l with
  | nil => rfl
  | cons x l ih => rw [List.map_cons, List.flatMap_cons, List.flatMap_append, List.flatMap_cons, ih]

end Verif
