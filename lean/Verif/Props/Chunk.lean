import Verif.Lemmas.Chunk
import Verif.Props.Indexer
/-! Properties C27 - C31 and C34: chunks, one call at a time. -/
namespace Verif
open List

/-- A new sled-backed chunk on empty directories. -/
def newSled (lo hi : U64) : Chunk SledStores := Chunk.new ⟨KV.empty, KV.empty⟩ lo hi

/-- A TiKV store in which a chunk with these identifiers has no entries yet. -/
def Unused (ipre spre : Str) (kv : KV) : Prop := (∀ k, kv (ipre ++ k) = none) ∧ ∀ i, kv (tikvKey spre i) = none

theorem newSled_rep (B : BinSearch) (lo hi : U64) : ChunkRep (sledRefines B) lo hi [] (newSled lo hi) :=
  ⟨rfl, rfl, rfl, rfl, IndexInv.empty sledCodec KV.empty (fun _ => rfl), fun _ => rfl⟩

theorem newTikv_rep (B : BinSearch) {ipre spre : Str} (hp : spre.length + 8 ≤ ipre.length) {kv : KV} (hk : Unused ipre spre kv)
    (lo hi : U64) : ChunkRep (tikvRefines B ipre spre hp) lo hi [] (Chunk.new kv lo hi) :=
  ⟨rfl, rfl, rfl, rfl, IndexInv.empty (tikvCodec ipre) kv hk.1, fun i => by show kv _ = _; rw [hk.2 i]; rfl⟩

/-- Well-formed history of inserts (and fewer than 2^64 - 2 of them, so that ids do not wrap). -/
structure Fine (h : Inserts) : Prop where
  wf : ∀ w ∈ h, WFSet w.1
  len : h.length + 1 < 2 ^ 64 - 1

theorem sled_rep (B : BinSearch) (lo hi : U64) {h : Inserts} (hf : Fine h) :
    ChunkRep (sledRefines B) lo hi (insideOnly lo hi h) ((newSled lo hi).insertAll (sledComp B) h) :=
  (insertAll_rep (newSled_rep B lo hi) h (by have := hf.len; omega) hf.wf).1

theorem tikv_rep (B : BinSearch) {ipre spre : Str} (hp : spre.length + 8 ≤ ipre.length) {kv : KV} (hk : Unused ipre spre kv)
    (lo hi : U64) {h : Inserts} (hf : Fine h) :
    ChunkRep (tikvRefines B ipre spre hp) lo hi (insideOnly lo hi h) ((Chunk.new kv lo hi).insertAll (tikvComp B ipre spre) h) :=
  (insertAll_rep (newTikv_rep B hp hk lo hi) h (by have := hf.len; omega) hf.wf).1

theorem insideOnly_length (lo hi : U64) (h : Inserts) : (insideOnly lo hi h).length ≤ h.length := List.length_filter_le _ _

theorem incr_pointsFor {h : Inserts} (hs : SIncr (h.map (·.2))) (ls : Labels) : SIncr (pointsFor h ls) :=
  List.Pairwise.sublist (List.filter_sublist.map _) hs

/-- Example history: two series in window (0, 1000), one point outside. -/
def exIns : Inserts :=
  [([lbl "a" "1"], ⟨10#64, 5#64⟩), ([lbl "a" "1", lbl "b" "2"], ⟨100#64, 6#64⟩), ([lbl "a" "1"], ⟨1000#64, 0#64⟩),
   ([lbl "b" "2", lbl "a" "1"], ⟨200#64, 7#64⟩)]

theorem exIns_fine : Fine exIns := by
  refine ⟨?_, by decide⟩
  intro w hw
  simp only [exIns, List.mem_cons, List.not_mem_nil, or_false] at hw
  rcases hw with rfl | rfl | rfl | rfl <;> exact wfSet_of (by decide +kernel)

theorem exIns_incr (ls : Labels) : SIncr (pointsFor (insideOnly 0#64 1000#64 exIns) ls) :=
  incr_pointsFor (by unfold SIncr; decide +kernel) ls

/-! ### C27 -/

/-- Outside the open window an insert fails with the window in the error and changes nothing: every chunk, backend, label
set and point. -/
theorem C27_outside_rejected {σ : Type} (C : Comp σ) (c : Chunk σ) (hp : c.poisoned = false) (ls : Labels) (p : TimePoint)
    (h : ¬ (c.start_.toNat < p.ts.toNat ∧ p.ts.toNat < c.end_.toNat)) :
    c.insert C ls p = (.err (.outOfRange c.start_ c.end_), c) := by
  unfold Chunk.insert
  rw [hp, inside_iff rfl rfl]
  have : inside c.start_ c.end_ p = false := by
    simp only [inside, Bool.and_eq_false_iff, decide_eq_false_iff_not]; omega
  rw [this]; rfl

/-- On a sled chunk built by any history of inserts, an insert is accepted exactly when strictly inside the window. -/
theorem C27_sled_accepts_iff (B : BinSearch) (lo hi : U64) (h : Inserts) (hf : Fine h) (ls : Labels) (hls : WFSet ls) (p : TimePoint) :
    (((newSled lo hi).insertAll (sledComp B) h).insert (sledComp B) ls p).1 = .ok () ↔ lo.toNat < p.ts.toNat ∧ p.ts.toNat < hi.toNat := by
  have hl := insideOnly_length lo hi h
  have := (sled_rep B lo hi hf).insert (by have := hf.len; omega) hls p
  by_cases hin : inside lo hi p
  · rw [if_pos hin] at this
    simp only [inside, Bool.and_eq_true, decide_eq_true_eq] at hin
    exact ⟨fun _ => hin, fun _ => this.1⟩
  · rw [if_neg hin] at this
    rw [this]
    simp only [inside, Bool.and_eq_true, decide_eq_true_eq] at hin
    exact ⟨by simp, fun h => absurd h hin⟩

/-- The same for a TiKV chunk. -/
theorem C27_tikv_accepts_iff (B : BinSearch) (ipre spre : Str) (hp : spre.length + 8 ≤ ipre.length) (kv : KV) (hk : Unused ipre spre kv)
    (lo hi : U64) (h : Inserts) (hf : Fine h) (ls : Labels) (hls : WFSet ls) (p : TimePoint) :
    (((Chunk.new kv lo hi).insertAll (tikvComp B ipre spre) h).insert (tikvComp B ipre spre) ls p).1 = .ok () ↔
      lo.toNat < p.ts.toNat ∧ p.ts.toNat < hi.toNat := by
  have hl := insideOnly_length lo hi h
  have := (tikv_rep B hp hk lo hi hf).insert (by have := hf.len; omega) hls p
  by_cases hin : inside lo hi p
  · rw [if_pos hin] at this
    simp only [inside, Bool.and_eq_true, decide_eq_true_eq] at hin
    exact ⟨fun _ => hin, fun _ => this.1⟩
  · rw [if_neg hin] at this
    rw [this]
    simp only [inside, Bool.and_eq_true, decide_eq_true_eq] at hin
    exact ⟨by simp, fun h => absurd h hin⟩

example : (((newSled 0#64 1000#64).insertAll (sledComp stdBinSearch) exIns).insert (sledComp stdBinSearch) [lbl "x" "y"] ⟨999#64, 1#64⟩).1 = .ok () :=
  (C27_sled_accepts_iff _ _ _ _ exIns_fine _ (wfSet_of (by decide +kernel)) _).mpr (by decide)
example : (((newSled 0#64 1000#64).insertAll (sledComp stdBinSearch) exIns).insert (sledComp stdBinSearch) [lbl "x" "y"] ⟨1000#64, 1#64⟩).1
    = .err (.outOfRange 0#64 1000#64) := by
  have h := (sled_rep stdBinSearch 0#64 1000#64 exIns_fine)
  have := C27_outside_rejected (sledComp stdBinSearch) ((newSled 0#64 1000#64).insertAll (sledComp stdBinSearch) exIns) h.ok
    [lbl "x" "y"] ⟨1000#64, 1#64⟩ (by rw [h.start_, h.end_]; decide)
  rw [this, h.start_, h.end_]
example : Unused (List.replicate 32 1#8) [] KV.empty := ⟨fun _ => rfl, fun _ => rfl⟩

/-! ### C28 -/

/-- Exact lookup on a sled chunk after any history finds the id given to the label set: 1, 2, ... in order of first
(accepted) insertion. -/
theorem C28_sled_lookup (B : BinSearch) (lo hi : U64) (h : Inserts) (hf : Fine h) (ls : Labels) (hls : WFSet ls) :
    sledByLabels ((newSled lo hi).insertAll (sledComp B) h).store.idx ls = .ok (specByLabels (numbered (insideOnly lo hi h)) ls) :=
  (sledRefines B).byLabels (sled_rep B lo hi hf).rep hls

/-- After any history the stored bytes under every id decode to the accepted points of its label set in order of
insertion, and nothing is stored under other ids. -/
theorem C28_sled_stored (B : BinSearch) (lo hi : U64) (h : Inserts) (hf : Fine h) (i : U64) :
    ((newSled lo hi).insertAll (sledComp B) h).store.ser (sledKey i) =
      match (numbered (insideOnly lo hi h)).find? fun s => decide (s.2 = i) with
      | some s => some ((pointsFor (insideOnly lo hi h) s.1).flatMap encodePoint)
      | none => none := by
  have hr := (sled_rep B lo hi hf).rep.2 i
  rw [hr]
  unfold seriesOf
  rcases hfd : (numbered (insideOnly lo hi h)).find? (fun s => decide (s.2 = i)) with _ | s
  · rw [hfd]; rfl
  · rw [hfd]
    have e : keepBy sledAccepts (pointsFor (insideOnly lo hi h) s.1) = pointsFor (insideOnly lo hi h) s.1 := keepBy_sled _
    show (if keepBy sledAccepts (pointsFor (insideOnly lo hi h) s.1) = [] then none
      else some ((keepBy sledAccepts (pointsFor (insideOnly lo hi h) s.1)).flatMap encodePoint)) =
      some ((pointsFor (insideOnly lo hi h) s.1).flatMap encodePoint)
    rw [e]
    refine if_neg ?_
    intro h0
    obtain ⟨w, hw, e⟩ := labelSets_mem (number_mem (List.mem_of_find?_eq_some hfd))
    have : w.2 ∈ pointsFor (insideOnly lo hi h) s.1 :=
      List.mem_map.mpr ⟨w, List.mem_filter.mpr ⟨hw, by rw [e]; simp⟩, rfl⟩
    rw [h0] at this; simp at this

/-- The decoding of those bytes gives back the points. -/
theorem C28_decodes (ps : List TimePoint) : decodeSeries (ps.flatMap encodePoint) = .ok ps := decodeSeries_points ps

/-- TiKV: the same ids, and under every id the accepted points that were later than their predecessors. -/
theorem C28_tikv_stored (B : BinSearch) (ipre spre : Str) (hp : spre.length + 8 ≤ ipre.length) (kv : KV) (hk : Unused ipre spre kv)
    (lo hi : U64) (h : Inserts) (hf : Fine h) :
    (∀ ls, WFSet ls → tikvByLabels ipre ((Chunk.new kv lo hi).insertAll (tikvComp B ipre spre) h).store ls =
      .ok (specByLabels (numbered (insideOnly lo hi h)) ls)) ∧
    ∀ s ∈ numbered (insideOnly lo hi h), ((Chunk.new kv lo hi).insertAll (tikvComp B ipre spre) h).store (tikvKey spre s.2) =
      some ((acceptIncreasing (pointsFor (insideOnly lo hi h) s.1)).flatMap encodePoint) := by
  have hr := tikv_rep B hp hk lo hi hf
  refine ⟨fun ls hls => (tikvRefines B ipre spre hp).byLabels hr.rep hls, ?_⟩
  intro s hs
  have hlen := insideOnly_length lo hi h
  have := hr.rep.2 s.2
  rw [this, seriesOf_mem (by have := hf.len; omega) hs, keepBy_tikv, if_neg]
  intro h0
  obtain ⟨w, hw, e⟩ := labelSets_mem (number_mem hs)
  have hne : pointsFor (insideOnly lo hi h) s.1 ≠ [] := by
    intro h1
    have : w.2 ∈ pointsFor (insideOnly lo hi h) s.1 :=
      List.mem_map.mpr ⟨w, List.mem_filter.mpr ⟨hw, by rw [e]; simp⟩, rfl⟩
    rw [h1] at this; simp at this
  rcases List.eq_nil_or_concat (pointsFor (insideOnly lo hi h) s.1) with h1 | ⟨ps, l, h1⟩
  · exact hne h1
  · rw [h1, List.concat_eq_append, acceptIncreasing_append] at h0
    split at h0
    · simp at h0
    · rename_i hc; rw [h0] at hc; simp at hc

/-- The numbering used above is what it should be: it lists exactly the label sets inserted, each once up to the order of
its labels, numbered 1, 2, ... -/
theorem C28_numbering (h : Inserts) (hl : h.length < 2 ^ 64 - 1) :
    (∀ w ∈ h, ∃ s ∈ numbered h, s.1.Perm w.1) ∧ (∀ s ∈ numbered h, ∃ w ∈ h, w.1 = s.1) ∧
    ((numbered h).Pairwise fun s t => ¬ s.1.Perm t.1) ∧
    (numbered h).map (fun s => s.2.toNat) = List.range' 1 (numbered h).length := by
  have hll := labelSets_length h
  refine ⟨?_, ?_, number_fresh (labelSets_fresh h), ?_⟩
  · intro w hw
    obtain ⟨ls, hls, hp⟩ := labelSets_complete hw
    rw [← number_fst (labelSets h)] at hls
    obtain ⟨s, hs, rfl⟩ := List.mem_map.mp hls
    exact ⟨s, hs, hp⟩
  · intro s hs
    obtain ⟨w, hw, e⟩ := labelSets_mem (number_mem hs)
    exact ⟨w, hw, e⟩
  · rw [numbered_eq]
    have : (labelSets h).length < 2 ^ 64 - 1 := by omega
    generalize labelSets h = l at this
    induction l using List.reverseRecOn with
    | nil => rfl
    | append_singleton l x ih =>
      simp only [List.length_append, List.length_cons, List.length_nil] at this
      have hn : (number l).length = l.length := by rw [← List.length_map (f := (·.1)), number_fst]
      rw [number_append, List.map_append, ih (by omega), List.length_append]
      simp only [List.map_cons, List.map_nil, List.length_cons, List.length_nil, BitVec.toNat_ofNat]
      rw [List.range'_concat, hn, Nat.mod_eq_of_lt (by omega)]
      simp [Nat.add_comm]

example : numbered (insideOnly 0#64 1000#64 exIns) = [([lbl "a" "1"], 1#64), ([lbl "a" "1", lbl "b" "2"], 2#64)] ∧
    pointsFor (insideOnly 0#64 1000#64 exIns) [lbl "a" "1", lbl "b" "2"] = [⟨100#64, 6#64⟩, ⟨200#64, 7#64⟩] := by
  constructor <;> decide +kernel

/-! ### C30: what a chunk query returns -/

/-- Sled chunk built by any history with increasing timestamps per series: exact result of every query. -/
theorem C30_sled_query (B : BinSearch) (lo hi : U64) (h : Inserts) (hf : Fine h)
    (hincr : ∀ ls, SIncr (pointsFor (insideOnly lo hi h) ls)) (q : Labels) (hq : ∀ l ∈ q, WFLabel l) (a b : U64) (hab : a.toNat ≤ b.toNat) :
    ((newSled lo hi).insertAll (sledComp B) h).query (sledComp B) q a b =
      if overlaps lo hi a b then specQuery a b (matched sledAccepts (insideOnly lo hi h) q) else .err (.outOfRange lo hi) :=
  (sled_rep B lo hi hf).query (by have := hf.len; have := insideOnly_length lo hi h; omega)
    (fun w hw => hf.wf w (List.mem_filter.mp hw).1) (fun ls => by rw [keepBy_sled]; exact hincr ls) hq hab

/-- TiKV chunk built by any history whatsoever. -/
theorem C30_tikv_query (B : BinSearch) (ipre spre : Str) (hp : spre.length + 8 ≤ ipre.length) (kv : KV) (hk : Unused ipre spre kv)
    (lo hi : U64) (h : Inserts) (hf : Fine h) (q : Labels) (hq : ∀ l ∈ q, WFLabel l) (a b : U64) (hab : a.toNat ≤ b.toNat) :
    ((Chunk.new kv lo hi).insertAll (tikvComp B ipre spre) h).query (tikvComp B ipre spre) q a b =
      if overlaps lo hi a b then specQuery a b (matched tikvAccepts (insideOnly lo hi h) q) else .err (.outOfRange lo hi) :=
  (tikv_rep B hp hk lo hi hf).query (by have := hf.len; have := insideOnly_length lo hi h; omega)
    (fun w hw => hf.wf w (List.mem_filter.mp hw).1) (fun ls => by rw [keepBy_tikv]; exact acceptIncreasing_incr _) hq hab

/-- If no matched series lies outside the range, the query succeeds with exactly the matched series that have points in
range; if one does, the query fails with that series' span. -/
theorem C30_cases (a b : U64) (ss : List Series) :
    ((∀ s ∈ ss, outside a b s = false) → specQuery a b ss = .ok (restrict a b ss)) ∧
    ∀ pre s post, ss = pre ++ s :: post → (∀ t ∈ pre, outside a b t = false) → outside a b s = true →
      specQuery a b ss = .err (spanError s) := by
  constructor
  · intro hall
    have : ss.find? (outside a b) = none := List.find?_eq_none.mpr (fun s hs => by simp [hall s hs])
    unfold specQuery; rw [this]
  · rintro pre s post rfl hpre hs
    have : (pre ++ s :: post).find? (outside a b) = some s := by
      rw [List.find?_append, List.find?_eq_none.mpr (fun t ht => by simp [hpre t ht]), List.find?_cons_of_pos hs]; rfl
    unfold specQuery; rw [this]

theorem exQ_wf : ∀ l ∈ [lbl "a" "1"], WFLabel l := by
  intro l hl
  simp only [List.mem_singleton] at hl
  subst hl
  exact wfLabel_of (by decide +kernel)

example : ((newSled 0#64 1000#64).insertAll (sledComp stdBinSearch) exIns).query (sledComp stdBinSearch) [lbl "a" "1"] 5#64 150#64 =
    .ok [⟨1#64, [lbl "a" "1"], [⟨10#64, 5#64⟩]⟩, ⟨2#64, [lbl "a" "1", lbl "b" "2"], [⟨100#64, 6#64⟩]⟩] := by
  rw [C30_sled_query _ _ _ _ exIns_fine exIns_incr _ exQ_wf _ _ (by decide)]; decide +kernel

/-! ### C29: not true -/

/-- What C29 promises: the series containing all requested labels, restricted to the range. -/
def promised (h : Inserts) (q : Labels) (a b : U64) : List Series :=
  restrict a b (((numbered h).filter fun s => q.all fun l => decide (l ∈ s.1)).map fun s => ⟨s.2, sortLabels s.1, pointsFor h s.1⟩)

/-- A query fails as a whole although one series has a point in range, because another matching series has none. -/
theorem C29_violated (B : BinSearch) :
    ¬ ∀ (lo hi : U64) (h : Inserts), Fine h → (∀ ls, SIncr (pointsFor (insideOnly lo hi h) ls)) → ∀ q : Labels, (∀ l ∈ q, WFLabel l) →
      ∀ a b : U64, a.toNat ≤ b.toNat → overlaps lo hi a b →
        ((newSled lo hi).insertAll (sledComp B) h).query (sledComp B) q a b = .ok (promised (insideOnly lo hi h) q a b) := by
  intro hall
  have := hall 0#64 1000#64 exIns exIns_fine exIns_incr [lbl "a" "1"] exQ_wf 5#64 50#64 (by decide) (by decide)
  rw [C30_sled_query _ _ _ _ exIns_fine exIns_incr _ exQ_wf _ _ (by decide)] at this
  revert this
  decide +kernel

/-- Second reason: a requested label that no series of the chunk has is ignored instead of excluding every series. -/
theorem C29_violated_unknown_label (B : BinSearch) :
    ((newSled 0#64 1000#64).insertAll (sledComp B) exIns).query (sledComp B) [lbl "a" "1", lbl "zone" "eu"] 5#64 150#64 =
      .ok [⟨1#64, [lbl "a" "1"], [⟨10#64, 5#64⟩]⟩, ⟨2#64, [lbl "a" "1", lbl "b" "2"], [⟨100#64, 6#64⟩]⟩] := by
  have hq : ∀ l ∈ [lbl "a" "1", lbl "zone" "eu"], WFLabel l := by
    intro l hl
    simp only [List.mem_cons, List.not_mem_nil, or_false] at hl
    rcases hl with rfl | rfl <;> exact wfLabel_of (by decide +kernel)
  rw [C30_sled_query _ _ _ _ exIns_fine exIns_incr _ hq _ _ (by decide)]; decide +kernel

/-- The part that holds: if every requested label occurs in the chunk (and there is one) and no series with all of them
lies entirely outside the range, the query returns exactly what is promised. (Missing: the other cases, in which the claim
is false; C30 describes them.) -/
theorem C29_partial (B : BinSearch) (lo hi : U64) (h : Inserts) (hf : Fine h)
    (hincr : ∀ ls, SIncr (pointsFor (insideOnly lo hi h) ls)) (q : Labels) (hq : ∀ l ∈ q, WFLabel l) (hne : q ≠ [])
    (hknown : ∀ l ∈ q, ∃ w ∈ insideOnly lo hi h, l ∈ w.1) (a b : U64) (hab : a.toNat ≤ b.toNat) (ho : overlaps lo hi a b = true)
    (hin : ∀ s ∈ numbered (insideOnly lo hi h), (∀ l ∈ q, l ∈ s.1) →
      ∃ x ∈ pointsFor (insideOnly lo hi h) s.1, ∃ y ∈ pointsFor (insideOnly lo hi h) s.1, x.ts.toNat ≤ b.toNat ∧ a.toNat ≤ y.ts.toNat) :
    ((newSled lo hi).insertAll (sledComp B) h).query (sledComp B) q a b = .ok (promised (insideOnly lo hi h) q a b) := by
  rw [C30_sled_query B lo hi h hf hincr q hq a b hab, if_pos ho]
  generalize insideOnly lo hi h = k at *
  have hk : knownLabels (numbered k) q = q := by
    unfold knownLabels
    rw [List.filter_eq_self]
    intro l hl
    obtain ⟨w, hw, hlw⟩ := hknown l hl
    obtain ⟨ls, hls, hp⟩ := labelSets_complete hw
    rw [← number_fst (labelSets k)] at hls
    obtain ⟨s, hs, rfl⟩ := List.mem_map.mp hls
    rw [List.any_eq_true]
    exact ⟨s, hs, by simpa using hp.mem_iff.mpr hlw⟩
  have hm : matched sledAccepts k q =
      ((numbered k).filter fun s => q.all fun l => decide (l ∈ s.1)).map fun s => ⟨s.2, sortLabels s.1, pointsFor k s.1⟩ := by
    unfold matched
    rw [hk, if_neg hne]
    simp only [keepBy_sled]
  rw [hm, promised]
  apply (C30_cases a b _).1
  intro s hs
  obtain ⟨t, ht, rfl⟩ := List.mem_map.mp hs
  obtain ⟨ht1, ht2⟩ := List.mem_filter.mp ht
  obtain ⟨x, hx, y, hy, hxb, hya⟩ := hin t ht1 (by simpa [List.all_eq_true] using ht2)
  have hinc := hincr t.1
  generalize pointsFor k t.1 = ps at *
  unfold outside
  rcases hfd : ps.head? with _ | f
  · rw [List.head?_eq_none_iff] at hfd; subst hfd; simp at hx
  rcases hld : ps.getLast? with _ | l
  · rw [List.getLast?_eq_none_iff] at hld; subst hld; simp at hx
  simp only [Bool.or_eq_false_iff, decide_eq_false_iff_not]
  constructor
  · cases ps with
    | nil => simp at hx
    | cons z zs =>
      simp at hfd; subst hfd
      rcases List.mem_cons.mp hx with rfl | hx'
      · omega
      · have := (List.pairwise_cons.mp hinc).1 x hx'; omega
  · rcases List.eq_nil_or_concat ps with rfl | ⟨zs, z, rfl⟩
    · simp at hy
    · rw [List.concat_eq_append] at *
      simp at hld; subst hld
      rcases List.mem_append.mp hy with hy' | hy'
      · have := (List.pairwise_append.mp hinc).2.2 y hy' z (by simp); omega
      · simp at hy'; subst hy'; omega

example : ((newSled 0#64 1000#64).insertAll (sledComp stdBinSearch) exIns).query (sledComp stdBinSearch) [lbl "a" "1"] 5#64 150#64 =
    .ok (promised (insideOnly 0#64 1000#64 exIns) [lbl "a" "1"] 5#64 150#64) := by
  apply C29_partial _ _ _ _ exIns_fine exIns_incr _ exQ_wf (by simp) _ _ _ (by decide) (by decide)
  · decide +kernel
  · intro l hl
    simp only [List.mem_singleton] at hl
    subst hl
    exact ⟨_, List.mem_cons_self, by decide +kernel⟩

/-! ### C31: true for sled, violated for TiKV -/

/-- Sled: an insert that returns Ok has appended the point to its series (any history before). -/
theorem C31_sled_stored (B : BinSearch) (lo hi : U64) (h : Inserts) (hf : Fine h) (ls : Labels) (hls : WFSet ls) (p : TimePoint)
    (hok : (((newSled lo hi).insertAll (sledComp B) h).insert (sledComp B) ls p).1 = .ok ()) :
    ∃ i, sledByLabels (((newSled lo hi).insertAll (sledComp B) h).insert (sledComp B) ls p).2.store.idx ls = .ok (some i) ∧
      (((newSled lo hi).insertAll (sledComp B) h).insert (sledComp B) ls p).2.store.ser (sledKey i) =
        some ((pointsFor (insideOnly lo hi h) ls ++ [p]).flatMap encodePoint) := by
  have hl := insideOnly_length lo hi h
  have hin := (C27_sled_accepts_iff B lo hi h hf ls hls p).mp hok
  have hin' : inside lo hi p = true := by simpa [inside] using hin
  have := (sled_rep B lo hi hf).insert (by have := hf.len; omega) hls p
  rw [if_pos hin'] at this
  obtain ⟨-, hrep, -⟩ := this
  have hb := (sledRefines B).byLabels hrep.rep hls
  have hlen : (insideOnly lo hi h ++ [(ls, p)]).length < 2 ^ 64 - 1 := by
    have := hf.len; simp only [List.length_append, List.length_cons, List.length_nil]; omega
  obtain ⟨x, hx, hxp⟩ := (C28_numbering _ hlen).1 (ls, p) (by simp)
  have hsome : specByLabels (numbered (insideOnly lo hi h ++ [(ls, p)])) ls = some x.2 := by
    unfold specByLabels
    rcases hfd : (numbered (insideOnly lo hi h ++ [(ls, p)])).find? (fun s => decide (s.1.Perm ls)) with _ | y
    · rw [List.find?_eq_none] at hfd
      exact absurd hxp (by simpa using hfd x hx)
    · rw [hfd]
      have hy := List.mem_of_find?_eq_some hfd
      have hyp : y.1.Perm ls := by simpa using List.find?_some hfd
      rw [perm_unique hy hx (hyp.trans hxp.symm)]; rfl
  refine ⟨x.2, by rw [← hsome]; exact hb, ?_⟩
  have hst := hrep.rep.2 x.2
  rw [hst, seriesOf_mem hlen hx, keepBy_sled, pointsFor_append, if_pos hxp.symm, if_neg (by simp)]
  have : pointsFor (insideOnly lo hi h) x.1 = pointsFor (insideOnly lo hi h) ls := by
    unfold pointsFor
    congr 1
    apply List.filter_congr
    intro w _
    have : w.1.Perm x.1 ↔ w.1.Perm ls := ⟨fun h => h.trans hxp, fun h => h.trans hxp.symm⟩
    simp [this]
  rw [this]

/-- TiKV: inserting a point not later than the last stored point of its series returns Ok and stores nothing, for every
history. -/
theorem C31_tikv_violated (B : BinSearch) (ipre spre : Str) (hp : spre.length + 8 ≤ ipre.length) (kv : KV) (hk : Unused ipre spre kv)
    (lo hi : U64) (h : Inserts) (hf : Fine h) (ls : Labels) (hls : WFSet ls) (p : TimePoint) (hin : inside lo hi p = true)
    (l : TimePoint) (hlast : (acceptIncreasing (pointsFor (insideOnly lo hi h) ls)).getLast? = some l) (hle : p.ts.toNat ≤ l.ts.toNat) :
    (((Chunk.new kv lo hi).insertAll (tikvComp B ipre spre) h).insert (tikvComp B ipre spre) ls p).1 = .ok () ∧
    (((Chunk.new kv lo hi).insertAll (tikvComp B ipre spre) h).insert (tikvComp B ipre spre) ls p).2.store =
      ((Chunk.new kv lo hi).insertAll (tikvComp B ipre spre) h).store := by
  have hlen := insideOnly_length lo hi h
  have hc := tikv_rep B hp hk lo hi hf
  refine ⟨(C27_tikv_accepts_iff B ipre spre hp kv hk lo hi h hf ls hls p).mpr (by simpa [inside] using hin), ?_⟩
  generalize (Chunk.new kv lo hi).insertAll (tikvComp B ipre spre) h = c at hc
  have hne : pointsFor (insideOnly lo hi h) ls ≠ [] := by
    intro h0; rw [h0] at hlast; simp [acceptIncreasing] at hlast
  obtain ⟨x, hx, hxp⟩ : ∃ x ∈ numbered (insideOnly lo hi h), x.1.Perm ls := by
    obtain ⟨y, hy⟩ := List.exists_mem_of_ne_nil _ hne
    obtain ⟨w, hw, -⟩ := List.mem_map.mp hy
    obtain ⟨hw1, hw2⟩ := List.mem_filter.mp hw
    obtain ⟨x, hx, hxw⟩ := (C28_numbering (insideOnly lo hi h) (by have := hf.len; omega)).1 w hw1
    exact ⟨x, hx, hxw.trans (by simpa using hw2)⟩
  have hpts : pointsFor (insideOnly lo hi h) x.1 = pointsFor (insideOnly lo hi h) ls := by
    unfold pointsFor
    congr 1
    apply List.filter_congr
    intro w _
    have : w.1.Perm x.1 ↔ w.1.Perm ls := ⟨fun h => h.trans hxp, fun h => h.trans hxp.symm⟩
    simp [this]
  have hsome : specByLabels (numbered (insideOnly lo hi h)) ls = some x.2 := by
    unfold specByLabels
    rcases hfd : (numbered (insideOnly lo hi h)).find? (fun s => decide (s.1.Perm ls)) with _ | y
    · rw [List.find?_eq_none] at hfd
      exact absurd hxp (by simpa using hfd x hx)
    · rw [hfd]
      have hy := List.mem_of_find?_eq_some hfd
      have hyp : y.1.Perm ls := by simpa using List.find?_some hfd
      rw [perm_unique hy hx (hyp.trans hxp.symm)]; rfl
  have hw := (tikvRefines B ipre spre hp).writeNo (i := x.2) (p := p) hc.rep (by
    rw [seriesOf_mem (by have := hf.len; omega) hx, keepBy_tikv, hpts, tikvAccepts, hlast]
    simp only [decide_eq_false_iff_not]; omega)
  unfold Chunk.insert
  rw [hc.ok, inside_iff hc.start_ hc.end_, hin]
  unfold Chunk.insertBody
  rw [(tikvRefines B ipre spre hp).byLabels hc.rep hls, hsome]
  simp only [hw, Chunk.seal, Bool.false_eq_true, if_false, if_true]

/-- TiKV, the part that holds: an insert that returns Ok with a point later than all points stored for its label set is
stored. (Missing: points not later than the last stored one, which are acknowledged and lost.) -/
theorem C31_tikv_partial (B : BinSearch) (ipre spre : Str) (hp : spre.length + 8 ≤ ipre.length) (kv : KV) (hk : Unused ipre spre kv)
    (lo hi : U64) (h : Inserts) (hf : Fine h) (ls : Labels) (hls : WFSet ls) (p : TimePoint)
    (hok : (((Chunk.new kv lo hi).insertAll (tikvComp B ipre spre) h).insert (tikvComp B ipre spre) ls p).1 = .ok ())
    (hlate : ∀ x ∈ pointsFor (insideOnly lo hi h) ls, x.ts.toNat < p.ts.toNat) :
    ∃ i, tikvByLabels ipre (((Chunk.new kv lo hi).insertAll (tikvComp B ipre spre) h).insert (tikvComp B ipre spre) ls p).2.store ls =
        .ok (some i) ∧
      (((Chunk.new kv lo hi).insertAll (tikvComp B ipre spre) h).insert (tikvComp B ipre spre) ls p).2.store (tikvKey spre i) =
        some ((acceptIncreasing (pointsFor (insideOnly lo hi h) ls) ++ [p]).flatMap encodePoint) := by
  have hl := insideOnly_length lo hi h
  have hin := (C27_tikv_accepts_iff B ipre spre hp kv hk lo hi h hf ls hls p).mp hok
  have hin' : inside lo hi p = true := by simpa [inside] using hin
  have hflen := hf.len
  have := (tikv_rep B hp hk lo hi hf).insert (by omega) hls p
  rw [if_pos hin'] at this
  obtain ⟨-, hrep, -⟩ := this
  have hb := (tikvRefines B ipre spre hp).byLabels hrep.rep hls
  have hlen : (insideOnly lo hi h ++ [(ls, p)]).length < 2 ^ 64 - 1 := by
    simp only [List.length_append, List.length_cons, List.length_nil]; omega
  obtain ⟨x, hx, hxp⟩ := (C28_numbering _ hlen).1 (ls, p) (by simp)
  have hsome : specByLabels (numbered (insideOnly lo hi h ++ [(ls, p)])) ls = some x.2 := by
    unfold specByLabels
    rcases hfd : (numbered (insideOnly lo hi h ++ [(ls, p)])).find? (fun s => decide (s.1.Perm ls)) with _ | y
    · rw [List.find?_eq_none] at hfd
      exact absurd hxp (by simpa using hfd x hx)
    · rw [hfd]
      have hy := List.mem_of_find?_eq_some hfd
      have hyp : y.1.Perm ls := by simpa using List.find?_some hfd
      rw [perm_unique hy hx (hyp.trans hxp.symm)]; rfl
  refine ⟨x.2, by rw [← hsome]; exact hb, ?_⟩
  have hpts : pointsFor (insideOnly lo hi h) x.1 = pointsFor (insideOnly lo hi h) ls := by
    unfold pointsFor
    congr 1
    apply List.filter_congr
    intro w _
    have : w.1.Perm x.1 ↔ w.1.Perm ls := ⟨fun h => h.trans hxp, fun h => h.trans hxp.symm⟩
    simp [this]
  have hst := hrep.rep.2 x.2
  rw [hst, seriesOf_mem hlen hx, keepBy_tikv, pointsFor_append, if_pos hxp.symm, hpts, acceptIncreasing_append]
  have hcond : ∀ l, (acceptIncreasing (pointsFor (insideOnly lo hi h) ls)).getLast? = some l → l.ts.toNat < p.ts.toNat := by
    intro l hl
    have hsub : ∀ (ps : List TimePoint), ∀ y ∈ acceptIncreasing ps, y ∈ ps := by
      intro ps
      induction ps using List.reverseRecOn with
      | nil => intro y hy; simp [acceptIncreasing] at hy
      | append_singleton ps q ih =>
        intro y hy
        rw [acceptIncreasing_append] at hy
        split at hy
        · rcases List.mem_append.mp hy with hy | hy
          · exact List.mem_append_left _ (ih y hy)
          · exact List.mem_append_right _ hy
        · exact List.mem_append_left _ (ih y hy)
    exact hlate l (hsub _ l (List.mem_of_getLast? hl))
  rw [if_pos hcond]
  exact if_neg (by simp)

example : (((Chunk.new KV.empty 0#64 1000#64).insertAll (tikvComp stdBinSearch (List.replicate 32 1#8) []) exIns).insert
      (tikvComp stdBinSearch (List.replicate 32 1#8) []) [lbl "a" "1"] ⟨9#64, 0#64⟩).2.store =
    ((Chunk.new KV.empty 0#64 1000#64).insertAll (tikvComp stdBinSearch (List.replicate 32 1#8) []) exIns).store :=
  (C31_tikv_violated _ _ _ (by decide) _ ⟨fun _ => rfl, fun _ => rfl⟩ _ _ _ exIns_fine _ (wfSet_of (by decide +kernel)) _ (by decide)
    ⟨10#64, 5#64⟩ (by decide +kernel) (by decide)).2

/-! ### C34: not true -/

/-- Closing has no influence on inserts: every insert after close has the result and the effect on the stores it would have
had without it, for every backend. -/
theorem C34_violated {σ : Type} (C : Comp σ) (c : Chunk σ) (hc : c.poisoned = false) (ls : Labels) (p : TimePoint) :
    c.close.1 = .ok () ∧ c.close.2.closed = true ∧ (c.close.2.insert C ls p).1 = (c.insert C ls p).1 ∧
    (c.close.2.insert C ls p).2.store = (c.insert C ls p).2.store := by
  have e : c.close = (.ok (), { c with closed := true }) := by unfold Chunk.close; rw [hc]; rfl
  rw [e]
  refine ⟨rfl, rfl, ?_⟩
  unfold Chunk.insert
  show (if c.poisoned = true then _ else _ : Res Unit × Chunk σ).1 = _ ∧ (if c.poisoned = true then _ else _ : Res Unit × Chunk σ).2.store = _
  rw [hc]
  simp only [Bool.false_eq_true, if_false]
  show (if c.isInRange p.ts = true then _ else _ : Res Unit × Chunk σ).1 = _ ∧ (if c.isInRange p.ts = true then _ else _ : Res Unit × Chunk σ).2.store = _
  by_cases hin : c.isInRange p.ts = true
  · simp only [hin, if_true]
    unfold Chunk.insertBody
    rcases C.byLabels c.store ls with (_ | i) | e | _
    · simp only []
      rcases C.create c.store ls (idNext c.nextId).1 with ⟨r, s⟩
      rcases r with _ | e | _
      · simp only []
        rcases C.write s (idNext c.nextId).1 p with ⟨r2, s2⟩
        rcases r2 with _ | e | _ <;> exact ⟨rfl, rfl⟩
      · exact ⟨rfl, rfl⟩
      · exact ⟨rfl, rfl⟩
    · simp only []
      rcases C.write c.store i p with ⟨r2, s2⟩
      rcases r2 with _ | e | _ <;> exact ⟨rfl, rfl⟩
    · exact ⟨rfl, rfl⟩
    · exact ⟨rfl, rfl⟩
  · simp only [hin]
    exact ⟨rfl, rfl⟩

/-- Witness: a closed chunk accepts a point. -/
theorem C34_violated_witness (B : BinSearch) :
    (((newSled 0#64 1000#64).close.2).insert (sledComp B) [lbl "a" "1"] ⟨10#64, 5#64⟩).1 = .ok () := by
  rw [(C34_violated (sledComp B) (newSled 0#64 1000#64) rfl _ _).2.2.1]
  exact (C27_sled_accepts_iff B 0#64 1000#64 [] ⟨by simp, by decide⟩ _ (wfSet_of (by decide +kernel)) _).mpr (by decide)

end Verif
