import Verif.Lemmas.DbWrite
import Verif.Lemmas.DbSwap
import Verif.Props.ChunkConc
/-! Properties of the database (src/db.rs). -/
namespace Verif

/-! ### C37: batch writes -/

/-- The inserts of a batch. -/
def asInserts (ls : Labels) (ps : List TimePoint) : Inserts := ps.map fun p => (ls, p)

/-- Any backend: unless an insert panics, the batch performs exactly the inserts of the kept points in order (also after a
failed one), and reports success exactly when each of them succeeded; otherwise an error. -/
theorem C37_batch {σ : Type} (C : Comp σ) (c : Chunk σ) (ls : Labels) (ps : List TimePoint)
    (hp : ∀ pre p post, keptPoints c.start_ c.end_ ps = pre ++ p :: post →
      ((c.insertAll C (asInserts ls pre)).insert C ls p).1 ≠ .panic) :
    (writeTimePoints C c ls ps).2 = c.insertAll C (asInserts ls (keptPoints c.start_ c.end_ ps)) ∧
    ((writeTimePoints C c ls ps).1 = .ok () ↔ ∀ pre p post, keptPoints c.start_ c.end_ ps = pre ++ p :: post →
      ((c.insertAll C (asInserts ls pre)).insert C ls p).1 = .ok ()) ∧
    ((writeTimePoints C c ls ps).1 = .ok () ∨ (writeTimePoints C c ls ps).1 = .err .internal) := by
  obtain ⟨n, h1, h2⟩ := insertEach_spec C ls (keptPoints c.start_ c.end_ ps) c hp
  unfold writeTimePoints
  rw [filter_keep, h1]
  cases n with
  | zero => exact ⟨rfl, ⟨fun _ => h2.mp rfl, fun _ => rfl⟩, Or.inl rfl⟩
  | succ n =>
    refine ⟨rfl, ⟨fun h => by simp at h, fun h => absurd (h2.mpr h) (by omega)⟩, Or.inr rfl⟩

theorem keptPoints_none {lo hi : U64} {ps : List TimePoint} (h : ∀ p ∈ ps, p.ts.toNat < lo.toNat ∨ hi.toNat < p.ts.toNat ∨ p.ts.toNat = 0) :
    keptPoints lo hi ps = [] := by
  unfold keptPoints
  rw [List.filter_eq_nil_iff]
  intro p hp
  have := h p hp
  simp only [decide_eq_true_eq]; omega

/-- Dropped points are silent: a batch with only such points succeeds and changes nothing, whatever the chunk's state. -/
theorem C37_dropped_silently {σ : Type} (C : Comp σ) (c : Chunk σ) (ls : Labels) (ps : List TimePoint)
    (h : ∀ p ∈ ps, p.ts.toNat < c.start_.toNat ∨ c.end_.toNat < p.ts.toNat ∨ p.ts.toNat = 0) :
    writeTimePoints C c ls ps = (.ok (), c) := by
  unfold writeTimePoints
  rw [filter_keep, keptPoints_none h]; rfl

/-- What a batch of inserts does on a chunk holding the accepted inserts `h`. -/
theorem batch_rep {σ : Type} {C : Comp σ} {acc : List TimePoint → TimePoint → Bool} {R : Refines C acc} {lo hi : U64} {h : Inserts}
    {c : Chunk σ} (hc : ChunkRep R lo hi h c) {ls : Labels} (hls : WFSet ls) (ps : List TimePoint) (hlen : h.length + ps.length < 2 ^ 64 - 1) :
    ChunkRep R lo hi (h ++ insideOnly lo hi (asInserts ls ps)) (c.insertAll C (asInserts ls ps)) := by
  induction ps using List.reverseRecOn with
  | nil => rw [show asInserts ls [] = [] from rfl, show insideOnly lo hi [] = [] from rfl, List.append_nil]; exact hc
  | append_singleton ps p ih =>
    simp only [List.length_append, List.length_cons, List.length_nil] at hlen
    have ih := ih (by omega)
    have e : asInserts ls (ps ++ [p]) = asInserts ls ps ++ [(ls, p)] := by simp [asInserts]
    have hl : (insideOnly lo hi (asInserts ls ps)).length ≤ ps.length := by
      have := insideOnly_length lo hi (asInserts ls ps); simpa [asInserts] using this
    have hi' := ih.insert (by simp only [List.length_append]; omega) hls p
    have e2 : c.insertAll C (asInserts ls (ps ++ [p])) = ((c.insertAll C (asInserts ls ps)).insert C ls p).2 := by
      rw [e]; unfold Chunk.insertAll; rw [List.foldl_append]; rfl
    rw [e2, e, insideOnly_append]
    by_cases hin : inside lo hi p
    · rw [if_pos hin] at hi'
      simp only [hin, if_true]
      rw [← List.append_assoc]; exact hi'.2.1
    · rw [if_neg hin] at hi'
      rw [if_neg hin]
      rw [hi']; exact ih

/-- The point is kept but lies on the boundary of the window. -/
def onBoundary (lo hi : U64) (p : TimePoint) : Prop := (p.ts = lo ∨ p.ts = hi) ∧ p.ts ≠ 0#64 ∧ lo.toNat ≤ hi.toNat

instance (lo hi : U64) (p : TimePoint) : Decidable (onBoundary lo hi p) := by unfold onBoundary; infer_instance

theorem not_inside_kept {lo hi : U64} {p : TimePoint} {ps : List TimePoint} (hp : p ∈ keptPoints lo hi ps) :
    inside lo hi p = false ↔ onBoundary lo hi p := by
  unfold keptPoints at hp
  rw [List.mem_filter] at hp
  have h := hp.2
  simp only [decide_eq_true_eq] at h
  have t : ∀ x y : U64, x = y ↔ x.toNat = y.toNat := fun x y => ⟨fun e => by rw [e], BitVec.eq_of_toNat_eq⟩
  unfold inside onBoundary
  rw [t, t, Ne, t]
  simp only [Bool.and_eq_false_iff, decide_eq_false_iff_not]
  simp only [BitVec.toNat_ofNat, Nat.zero_mod]
  omega

theorem onBoundary_kept {lo hi : U64} {p : TimePoint} {ps : List TimePoint} (hp : p ∈ ps) (hb : onBoundary lo hi p) :
    p ∈ keptPoints lo hi ps := by
  unfold keptPoints
  rw [List.mem_filter]
  refine ⟨hp, ?_⟩
  obtain ⟨h1, h2, h3⟩ := hb
  have h0 : p.ts.toNat ≠ 0 := fun e => h2 (BitVec.eq_of_toNat_eq (by simpa using e))
  simp only [decide_eq_true_eq]
  rcases h1 with h1 | h1 <;> rw [h1] at h0 ⊢ <;> omega

theorem writeTimePoints_rep {σ : Type} {C : Comp σ} {acc : List TimePoint → TimePoint → Bool} {R : Refines C acc} {lo hi : U64} {h : Inserts}
    {c : Chunk σ} (hc : ChunkRep R lo hi h c) {ls : Labels} (hls : WFSet ls) (ps : List TimePoint) (hlen : h.length + ps.length < 2 ^ 64 - 1) :
    (writeTimePoints C c ls ps).2 = c.insertAll C (asInserts ls (keptPoints lo hi ps)) ∧
    ((∀ p ∈ ps, ¬ onBoundary lo hi p) → (writeTimePoints C c ls ps).1 = .ok ()) ∧
    ((∃ p ∈ ps, onBoundary lo hi p) → (writeTimePoints C c ls ps).1 = .err .internal) := by
  have hins : ∀ pre p post, keptPoints lo hi ps = pre ++ p :: post →
      if inside lo hi p then ((c.insertAll C (asInserts ls pre)).insert C ls p).1 = .ok () else
        ((c.insertAll C (asInserts ls pre)).insert C ls p).1 = .err (.outOfRange lo hi) := by
    intro pre p post e
    have hl : (keptPoints lo hi ps).length ≤ ps.length := List.length_filter_le _ _
    rw [e] at hl
    simp only [List.length_append, List.length_cons] at hl
    have hr := batch_rep hc hls pre (by omega)
    have hl2 : (insideOnly lo hi (asInserts ls pre)).length ≤ pre.length := by
      have := insideOnly_length lo hi (asInserts ls pre); simpa [asInserts] using this
    have := hr.insert (by simp only [List.length_append]; omega) hls p
    by_cases hin : inside lo hi p
    · rw [if_pos hin] at this ⊢; exact this.1
    · rw [if_neg hin] at this ⊢; rw [this]
  have hb := C37_batch C c ls ps (by
    rw [hc.start_, hc.end_]
    intro pre p post e
    have := hins pre p post e
    by_cases hin : inside lo hi p
    · rw [if_pos hin] at this; rw [this]; simp
    · rw [if_neg hin] at this; rw [this]; simp)
  rw [hc.start_, hc.end_] at hb
  refine ⟨hb.1, ?_, ?_⟩
  · intro hno
    rw [hb.2.1]
    intro pre p post e
    have hm : p ∈ keptPoints lo hi ps := by rw [e]; simp
    have := hins pre p post e
    rw [if_pos] at this
    · exact this
    · by_contra hni
      exact hno p (List.mem_filter.mp hm).1 ((not_inside_kept hm).mp (by simpa using hni))
  · rintro ⟨p, hp, hbd⟩
    rcases hb.2.2 with h | h
    · have hm := onBoundary_kept hp hbd
      obtain ⟨pre, post, e⟩ := List.append_of_mem hm
      have h1 := (hb.2.1.mp h) pre p post e
      have h2 := hins pre p post e
      rw [(not_inside_kept hm).mpr hbd] at h2
      rw [h1] at h2
      simp at h2
    · exact h

/-- Sled: after any history of accepted and rejected inserts, a batch fails exactly when some point lies exactly on the
start or end of the window (and not at time 0); all other points inside the window are stored either way. -/
theorem C37_sled (B : BinSearch) (lo hi : U64) (h : Inserts) (ls : Labels) (hls : WFSet ls) (ps : List TimePoint)
    (hf : ∀ w ∈ h, WFSet w.1) (hlen : h.length + ps.length + 1 < 2 ^ 64 - 1) :
    (writeTimePoints (sledComp B) ((newSled lo hi).insertAll (sledComp B) h) ls ps).1 =
      (if ∃ p ∈ ps, onBoundary lo hi p then .err .internal else .ok ()) ∧
    (writeTimePoints (sledComp B) ((newSled lo hi).insertAll (sledComp B) h) ls ps).2 =
      (newSled lo hi).insertAll (sledComp B) (h ++ asInserts ls (keptPoints lo hi ps)) := by
  have hl := insideOnly_length lo hi h
  obtain ⟨h1, h2, h3⟩ := writeTimePoints_rep (sled_rep B lo hi (h := h) ⟨hf, by omega⟩) hls ps (by omega)
  refine ⟨?_, ?_⟩
  · by_cases he : ∃ p ∈ ps, onBoundary lo hi p
    · rw [if_pos he]; exact h3 he
    · rw [if_neg he]; exact h2 fun p hp hb => he ⟨p, hp, hb⟩
  · rw [h1]; unfold Chunk.insertAll; rw [List.foldl_append]

/-- TiKV: the same. -/
theorem C37_tikv (B : BinSearch) (ipre spre : Str) (hp : spre.length + 8 ≤ ipre.length) (kv : KV) (hk : Unused ipre spre kv)
    (lo hi : U64) (h : Inserts) (ls : Labels) (hls : WFSet ls) (ps : List TimePoint)
    (hf : ∀ w ∈ h, WFSet w.1) (hlen : h.length + ps.length + 1 < 2 ^ 64 - 1) :
    (writeTimePoints (tikvComp B ipre spre) ((Chunk.new kv lo hi).insertAll (tikvComp B ipre spre) h) ls ps).1 =
      (if ∃ p ∈ ps, onBoundary lo hi p then .err .internal else .ok ()) ∧
    (writeTimePoints (tikvComp B ipre spre) ((Chunk.new kv lo hi).insertAll (tikvComp B ipre spre) h) ls ps).2 =
      (Chunk.new kv lo hi).insertAll (tikvComp B ipre spre) (h ++ asInserts ls (keptPoints lo hi ps)) := by
  have hl := insideOnly_length lo hi h
  obtain ⟨h1, h2, h3⟩ := writeTimePoints_rep (tikv_rep B hp hk lo hi (h := h) ⟨hf, by omega⟩) hls ps (by omega)
  refine ⟨?_, ?_⟩
  · by_cases he : ∃ p ∈ ps, onBoundary lo hi p
    · rw [if_pos he]; exact h3 he
    · rw [if_neg he]; exact h2 fun p hp hb => he ⟨p, hp, hb⟩
  · rw [h1]; unfold Chunk.insertAll; rw [List.foldl_append]

-- a batch with a good point, a boundary point and a dropped one: fails, yet stores the good points around the failure
example : (writeTimePoints (sledComp stdBinSearch) ((newSled 100#64 1000#64).insertAll (sledComp stdBinSearch) []) [lbl "a" "1"]
      [⟨200#64, 1#64⟩, ⟨1000#64, 2#64⟩, ⟨300#64, 3#64⟩, ⟨5#64, 4#64⟩]).1 = .err .internal := by
  rw [(C37_sled stdBinSearch 100#64 1000#64 [] [lbl "a" "1"] (wfSet_of (by decide +kernel))
      [⟨200#64, 1#64⟩, ⟨1000#64, 2#64⟩, ⟨300#64, 3#64⟩, ⟨5#64, 4#64⟩] (by simp) (by decide)).1]
  rw [if_pos ⟨⟨1000#64, 2#64⟩, by simp, Or.inr rfl, by decide, by decide⟩]
example : keptPoints 100#64 1000#64 [⟨200#64, 1#64⟩, ⟨1000#64, 2#64⟩, ⟨300#64, 3#64⟩, ⟨5#64, 4#64⟩] =
    [⟨200#64, 1#64⟩, ⟨1000#64, 2#64⟩, ⟨300#64, 3#64⟩] := by decide
example : writeTimePoints (sledComp stdBinSearch) (newSled 100#64 1000#64) [] [⟨5#64, 4#64⟩, ⟨0#64, 1#64⟩] = (.ok (), newSled 100#64 1000#64) :=
  C37_dropped_silently _ _ _ _ (by decide)

/-! ### C38: not true; C39 -/

/-- The window accepts the timestamp (strictly inside, C27). -/
def accepts (w : Nat × Nat) (t : Nat) : Prop := w.1 < t ∧ t < w.2

theorem windows_cons (size t0 r : Nat) (rs : List Nat) : ∃ w, windows size t0 (r :: rs) = (t0, t0 + size) :: (r + 1, r + 1 + size) :: w ∧
    windows size (r + 1) rs = (r + 1, r + 1 + size) :: w := ⟨_, rfl, rfl⟩

/-- All windows of a run are non-overlapping and in order: each ends at or before the start of every later one. The bound on
the first tick is used with one extra millisecond of slack for later ones. -/
theorem windows_ordered_aux (size : Nat) (ticks : List Nat) (r : Nat) (h : TimerRun size r ticks) :
    (∀ x ∈ ticks.map (fun r => (r + 1, r + 1 + size)), r + size < x.1) ∧
    (ticks.map fun r => (r + 1, r + 1 + size)).Pairwise fun w v => w.2 ≤ v.1 := by
  induction ticks generalizing r with
  | nil => simp
  | cons x xs ih =>
    obtain ⟨h1, h2⟩ := h
    obtain ⟨i1, i2⟩ := ih x h2
    refine ⟨?_, ?_⟩
    · intro y hy
      rw [List.map_cons, List.mem_cons] at hy
      rcases hy with rfl | hy
      · show r + size < x + 1; omega
      · have := i1 y hy; omega
    · rw [List.map_cons, List.pairwise_cons]
      refine ⟨?_, i2⟩
      intro y hy
      have := i1 y hy
      show x + 1 + size ≤ y.1
      omega

/-- C39: the windows of a run are ordered. -/
theorem C39_ordered (size t0 : Nat) (ticks : List Nat) (h : TimerRun size t0 ticks) :
    (windows size t0 ticks).Pairwise fun w v => w.2 ≤ v.1 := by
  obtain ⟨h1, h2⟩ := windows_ordered_aux size ticks t0 h
  unfold windows
  rw [List.pairwise_cons]
  exact ⟨fun x hx => Nat.le_of_lt (h1 x hx), h2⟩

/-- C39: no timestamp is accepted by two of them. -/
theorem C39_disjoint (size t0 : Nat) (ticks : List Nat) (h : TimerRun size t0 ticks) (i j : Nat) (w v : Nat × Nat)
    (hi : (windows size t0 ticks)[i]? = some w) (hj : (windows size t0 ticks)[j]? = some v) (t : Nat) (hw : accepts w t) (hv : accepts v t) :
    i = j := by
  have hp := List.pairwise_iff_getElem.mp (C39_ordered size t0 ticks h)
  obtain ⟨hi', rfl⟩ := List.getElem?_eq_some_iff.mp hi
  obtain ⟨hj', rfl⟩ := List.getElem?_eq_some_iff.mp hj
  unfold accepts at hw hv
  rcases Nat.lt_trichotomy i j with hlt | heq | hgt
  · have := hp i j hi' hj' hlt; omega
  · exact heq
  · have := hp j i hj' hi' hgt; omega

-- a run with jittering ticks meets the hypothesis
example : TimerRun 1000 5000 [6000, 7003, 8003] := by simp [TimerRun]
example : windows 1000 5000 [6000, 7003, 8003] = [(5000, 6000), (6001, 7001), (7004, 8004), (8004, 9004)] := rfl

/-- C38 fails in every run with at least one swap: the end of the first window and the start of the next one, and all
timestamps between them, are accepted by no chunk of the whole run; so are the starts of all windows. -/
theorem C38_violated (size t0 r : Nat) (ticks : List Nat) (h : TimerRun size t0 (r :: ticks)) (t : Nat) (h1 : t0 + size ≤ t) (h2 : t ≤ r + 1) :
    ∀ w ∈ windows size t0 (r :: ticks), ¬ accepts w t := by
  have ho := C39_ordered size t0 (r :: ticks) h
  intro w hw ⟨ha, hb⟩
  unfold windows at ho hw
  rw [List.mem_cons] at hw
  rw [List.map_cons] at hw ho
  rcases hw with rfl | hw
  · simp only [] at hb; omega
  · rw [List.mem_cons] at hw
    rcases hw with rfl | hw
    · simp only [] at ha; omega
    · have h3 := (List.pairwise_cons.mp (List.pairwise_cons.mp ho).2).1 w hw
      simp only [] at h3
      omega

/-- The same for every pair of consecutive windows of a run: nothing from the end of one to the start of the next (both
included) is accepted by any chunk of the run. -/
theorem C38_violated_gaps (size t0 : Nat) (ticks : List Nat) (h : TimerRun size t0 ticks) (pre post : List (Nat × Nat)) (w v : Nat × Nat)
    (hs : windows size t0 ticks = pre ++ w :: v :: post) (t : Nat) (h1 : w.2 ≤ t) (h2 : t ≤ v.1) :
    ∀ x ∈ windows size t0 ticks, ¬ accepts x t := by
  have ho := C39_ordered size t0 ticks h
  have hle : ∀ x ∈ windows size t0 ticks, x.1 ≤ x.2 := by
    unfold windows
    intro x hx
    rw [List.mem_cons, List.mem_map] at hx
    rcases hx with rfl | ⟨r, -, rfl⟩ <;> simp
  rw [hs] at ho hle ⊢
  obtain ⟨-, hb, hc⟩ := List.pairwise_append.mp ho
  rw [List.pairwise_cons, List.pairwise_cons] at hb
  intro x hx ⟨ha, hb'⟩
  have hwle := hle w (by simp)
  rw [List.mem_append, List.mem_cons, List.mem_cons] at hx
  rcases hx with hx | rfl | rfl | hx
  · have := hc x hx w (by simp); omega
  · omega
  · omega
  · have := hb.2.1 x hx
    have := hle v (by simp)
    omega

/-- The property as listed is false: after one swap, a timestamp between the first start and the current end is accepted by
no chunk. -/
theorem C38_violated_statement : ¬ ∀ (size t0 : Nat) (ticks : List Nat), TimerRun size t0 ticks → ∀ t, t0 < t →
    (∃ w ∈ windows size t0 ticks, t < w.2) → ∃ w ∈ windows size t0 ticks, accepts w t := by
  intro hall
  obtain ⟨w, hw, ha⟩ := hall 1000 5000 [6000] (by simp [TimerRun]) 6000 (by omega) ⟨(6001, 7001), by simp [windows], by omega⟩
  exact C38_violated 1000 5000 6000 [] (by simp [TimerRun]) 6000 (by omega) (by omega) w hw ha

/-- What does hold: from the start of the first window to the end of the last, a timestamp is accepted by a chunk unless it
is the first start or lies in a gap from the end of one window to the start of the next. With ideal ticks (each exactly
`size` after the previous window's start) a gap has only these two end points. -/
theorem C38_partial (size t0 : Nat) (ticks : List Nat) (t : Nat) (ht : t0 < t) (hend : ∃ w ∈ windows size t0 ticks, t < w.2) :
    (∃ w ∈ windows size t0 ticks, accepts w t) ∨
    ∃ pre w v post, windows size t0 ticks = pre ++ w :: v :: post ∧ w.2 ≤ t ∧ t ≤ v.1 := by
  induction ticks generalizing t0 with
  | nil =>
    obtain ⟨w, hw, hlt⟩ := hend
    simp only [windows, List.map_nil, List.mem_singleton] at hw
    subst hw
    exact Or.inl ⟨(t0, t0 + size), by simp [windows], ht, hlt⟩
  | cons r rs ih =>
    obtain ⟨ws, e1, e2⟩ := windows_cons size t0 r rs
    by_cases h1 : t < t0 + size
    · exact Or.inl ⟨(t0, t0 + size), by simp [windows], ht, h1⟩
    · by_cases h2 : t ≤ r + 1
      · exact Or.inr ⟨[], (t0, t0 + size), (r + 1, r + 1 + size), ws, e1, by simp only []; omega, h2⟩
      · have hend' : ∃ w ∈ windows size (r + 1) rs, t < w.2 := by
          obtain ⟨w, hw, hlt⟩ := hend
          rw [e1, List.mem_cons] at hw
          rcases hw with rfl | hw
          · simp only [] at hlt; omega
          · exact ⟨w, by rw [e2]; exact hw, hlt⟩
        rcases ih (r + 1) (by omega) hend' with ⟨w, hw, ha⟩ | ⟨pre, w, v, post, e, h3, h4⟩
        · exact Or.inl ⟨w, by rw [e1, List.mem_cons]; right; rw [← e2]; exact hw, ha⟩
        · exact Or.inr ⟨(t0, t0 + size) :: pre, w, v, post, by rw [e1, ← e2, e]; rfl, h3, h4⟩

example : (∃ w ∈ windows 1000 5000 [6000, 7003], accepts w 6500) ∨
    ∃ pre w v post, windows 1000 5000 [6000, 7003] = pre ++ w :: v :: post ∧ w.2 ≤ 6500 ∧ 6500 ≤ v.1 :=
  C38_partial 1000 5000 [6000, 7003] 6500 (by omega) ⟨(6001, 7001), by simp [windows], by omega⟩

/-! ### C40: merging -/

/-- The description of a chunk made with window `(lo, hi)` after attempts `h`: it holds those inside. -/
def made (d : Desc) : Desc := ⟨d.lo, d.hi, insideOnly d.lo d.hi d.h⟩

/-- A sled chunk after attempts `d.h`. -/
def sledChunk (B : BinSearch) (d : Desc) : Chunk SledStores := (newSled d.lo d.hi).insertAll (sledComp B) d.h

/-- A database query over sled chunks, with a map that never compares label sets of which one is a proper prefix of the
other: one entry per label set, holding the concatenation in chunk order of what the chunks contribute; and if the windows
are in order every entry is sorted by time and within the range. -/
theorem C40_sled (B : BinSearch) (H : Hash) (secondary : List Desc) (cur : Desc) (hf : ∀ d ∈ secondary ++ [cur], Fine d.h)
    (hincr : ∀ d ∈ secondary ++ [cur], ∀ ls, SIncr (pointsFor (insideOnly d.lo d.hi d.h) ls)) (q : Labels) (hq : ∀ l ∈ q, WFLabel l)
    (a b : U64) (hab : a.toNat ≤ b.toNat)
    (hg : H.Good fun ls => ∃ d ∈ secondary ++ [cur], ∃ s ∈ (made d).answer sledAccepts q a b, s.labels = ls) :
    ∃ r, dbQuery H ((sledChunk B cur).view (sledComp B)) (secondary.map fun d => (sledChunk B d).view (sledComp B)) q a b = .ok r ∧
      IsMerge ((secondary ++ [cur]).map fun d => (made d).answer sledAccepts q a b) r ∧
      ((secondary ++ [cur]).Pairwise (fun d e => d.hi.toNat ≤ e.lo.toNat) →
        ∀ e ∈ r, SIncr e.2 ∧ ∀ p ∈ e.2, a.toNat ≤ p.ts.toNat ∧ p.ts.toNat ≤ b.toNat) := by
  have hlen : ∀ d ∈ secondary ++ [cur], (made d).h.length < 2 ^ 64 - 1 := fun d hd => by
    have := insideOnly_length d.lo d.hi d.h
    have := (hf d hd).len
    show (insideOnly d.lo d.hi d.h).length < _
    omega
  have hi' : ∀ d ∈ secondary ++ [cur], ∀ ls, SIncr (keepBy sledAccepts (pointsFor (made d).h ls)) := fun d hd ls => by
    rw [keepBy_sled]; exact hincr d hd ls
  have hwf : ∀ d ∈ secondary ++ [cur], ∀ w ∈ (made d).h, WFSet w.1 := fun d hd w hw => (hf d hd).wf w (List.mem_filter.mp hw).1
  have hv : ∀ d ∈ secondary ++ [cur], _ := fun d hd =>
    view_answer (d := made d) (sled_rep B d.lo d.hi (hf d hd)) (hlen d hd) (hwf d hd) (hi' d hd) hq hab
  obtain ⟨r, hr, hm⟩ : ∃ r, dbQuery H ((sledChunk B cur).view (sledComp B)) (secondary.map fun d => (sledChunk B d).view (sledComp B)) q a b =
      .ok r ∧ IsMerge ((secondary ++ [cur]).map fun d => (made d).answer sledAccepts q a b) r :=
    dbQuery_views H (fun d => (sledChunk B d).view (sledComp B)) (fun d => (made d).answer sledAccepts q a b) secondary cur q a b
      hv (fun d _ => answer_nodup _ _ _ _ _) hg
  refine ⟨r, hr, hm, fun hord => ?_⟩
  rintro ⟨ls, ps⟩ he
  obtain ⟨-, e⟩ := (hm.entries ls ps).mp he
  have e2 : ((secondary ++ [cur]).map fun d => (made d).answer sledAccepts q a b) =
      ((secondary ++ [cur]).map made).map fun d => d.answer sledAccepts q a b := by rw [List.map_map]; rfl
  simp only []
  rw [e, e2]
  refine ⟨?_, ?_⟩
  · apply merged_sorted
    · intro d hd ls
      obtain ⟨d', hd', rfl⟩ := List.mem_map.mp hd
      exact hi' d' hd' ls
    · rw [List.pairwise_map]; exact hord
    · intro d hd w hw
      obtain ⟨d', hd', rfl⟩ := List.mem_map.mp hd
      exact (List.mem_filter.mp hw).2
  · rw [← e2]
    intro p hp
    unfold mergedPoints seriesWith at hp
    obtain ⟨s, hs, hps⟩ := List.mem_flatMap.mp hp
    obtain ⟨x, hx, hs'⟩ := List.mem_flatMap.mp hs
    obtain ⟨d, hd, rfl⟩ := List.mem_map.mp hx
    have := (answer_points (hi' d hd) (List.mem_filter.mp hs').1).2 p hps
    exact ⟨this.1, this.2.1⟩

/-- Any backend and any chunks: if no chunk query panics and no chunk reports a label set twice, the query succeeds with the
merge of the chunk results (chunks whose window does not overlap or whose query fails contribute nothing). -/
theorem C40_general (H : Hash) (cur : View) (secondary : List View) (q : Labels) (a b : U64)
    (hp : cur.query q a b ≠ .panic) (hps : ∀ v ∈ secondary, v.within a b = true → v.query q a b ≠ .panic)
    (hg : H.Good fun ls => ∃ v ∈ cur :: secondary, ∃ s ∈ okSeries (v.query q a b), s.labels = ls)
    (hd : DistinctPerChunk (usedResults cur secondary q a b)) :
    ∃ r, dbQuery H cur secondary q a b = .ok r ∧ IsMerge (usedResults cur secondary q a b) r :=
  dbQuery_merge H cur secondary q a b hp hps hg (fun v hv s hs => ⟨v, hv, s, hs, rfl⟩) hd

/-- A hash map that compares only equal keys. -/
def idealHash : Hash := ⟨fun k k' => decide (k = k'), by simp, id, fun _ => List.Perm.refl _⟩
/-- A hash map in which all keys have the same hash. -/
def constHash : Hash := ⟨fun _ _ => true, by simp, id, fun _ => List.Perm.refl _⟩

theorem idealHash_good (K : Labels → Prop) : idealHash.Good K := by
  intro k k' _ _ h
  have e : k = k' := by simpa [idealHash] using h
  subst e
  exact ⟨fun h => h.2 rfl, fun h => h.2 rfl⟩

/-- Example: an older chunk (0, 1000) with the history `exIns` and the current chunk (1000, 2000). -/
def exOld : Desc := ⟨0#64, 1000#64, exIns⟩
def exCur : Desc := ⟨1000#64, 2000#64, [([lbl "a" "1"], ⟨1500#64, 8#64⟩), ([lbl "a" "1"], ⟨1600#64, 9#64⟩)]⟩

theorem exCur_fine : Fine exCur.h := by
  refine ⟨?_, by decide⟩
  intro w hw
  simp only [exCur, List.mem_cons, List.not_mem_nil, or_false] at hw
  rcases hw with rfl | rfl <;> exact wfSet_of (by decide +kernel)

theorem exDescs_fine : ∀ d ∈ [exOld] ++ [exCur], Fine d.h := by
  intro d hd
  simp only [List.cons_append, List.nil_append, List.mem_cons, List.not_mem_nil, or_false] at hd
  rcases hd with rfl | rfl
  · exact exIns_fine
  · exact exCur_fine

theorem exDescs_incr : ∀ d ∈ [exOld] ++ [exCur], ∀ ls, SIncr (pointsFor (insideOnly d.lo d.hi d.h) ls) := by
  intro d hd ls
  simp only [List.cons_append, List.nil_append, List.mem_cons, List.not_mem_nil, or_false] at hd
  rcases hd with rfl | rfl
  · exact exIns_incr ls
  · exact incr_pointsFor (by unfold SIncr; decide +kernel) ls

-- the merged query of the two example chunks, over [5, 1550]
example : ∃ r, dbQuery idealHash ((sledChunk stdBinSearch exCur).view (sledComp stdBinSearch))
      [(sledChunk stdBinSearch exOld).view (sledComp stdBinSearch)] [lbl "a" "1"] 5#64 1550#64 = .ok r ∧
    ([lbl "a" "1"], [⟨10#64, 5#64⟩, ⟨1500#64, 8#64⟩]) ∈ r ∧
    ([lbl "a" "1", lbl "b" "2"], [⟨100#64, 6#64⟩, ⟨200#64, 7#64⟩]) ∈ r := by
  obtain ⟨r, h1, h2, -⟩ := C40_sled stdBinSearch idealHash [exOld] exCur exDescs_fine exDescs_incr [lbl "a" "1"] exQ_wf 5#64 1550#64 (by decide)
    (idealHash_good _)
  exact ⟨r, h1, (h2.entries _ _).mpr (by decide +kernel), (h2.entries _ _).mpr (by decide +kernel)⟩
example : ([exOld] ++ [exCur]).Pairwise (fun d e => d.hi.toNat ≤ e.lo.toNat) := by simp [exOld, exCur]

/-! ### C41: not true -/

theorem order_nil (H : Hash) : H.order [] = [] := List.perm_nil.mp (H.perm [])
theorem order_one (H : Hash) (k : Labels) : H.order [k] = [k] := List.perm_singleton.mp (H.perm [k])

theorem sledView_query (B : BinSearch) (d : Desc) (hf : Fine d.h) (hincr : ∀ ls, SIncr (pointsFor (insideOnly d.lo d.hi d.h) ls)) (q : Labels)
    (hq : ∀ l ∈ q, WFLabel l) (a b : U64) (hab : a.toNat ≤ b.toNat) :
    ((sledChunk B d).view (sledComp B)).query q a b =
      if overlaps d.lo d.hi a b then specQuery a b (matched sledAccepts (insideOnly d.lo d.hi d.h) q) else .err (.outOfRange d.lo d.hi) :=
  C30_sled_query B d.lo d.hi d.h hf hincr q hq a b hab

theorem sledView_within (B : BinSearch) (d : Desc) (hf : Fine d.h) (a b : U64) :
    ((sledChunk B d).view (sledComp B)).within a b = overlaps d.lo d.hi a b := by
  have hr := sled_rep B d.lo d.hi hf
  show (sledChunk B d).isWithRange a b = _
  rw [Chunk.isWithRange_eq]
  unfold sledChunk
  rw [hr.start_, hr.end_]

/-- In every hash map in which `{a=1,b=2}` is compared with a stored `{a=1}` (equal short hashes), a query on a chunk with
series `{a=1}` and `{a=1,b=2}` panics. -/
theorem C41_violated_panic (B : BinSearch) (H : Hash) (ht : H.tag [lbl "a" "1", lbl "b" "2"] [lbl "a" "1"] = true) :
    dbQuery H ((sledChunk B exOld).view (sledComp B)) [] [lbl "a" "1"] 5#64 150#64 = .panic := by
  have hq : ((sledChunk B exOld).view (sledComp B)).query [lbl "a" "1"] 5#64 150#64 =
      .ok [⟨1#64, [lbl "a" "1"], [⟨10#64, 5#64⟩]⟩, ⟨2#64, [lbl "a" "1", lbl "b" "2"], [⟨100#64, 6#64⟩]⟩] := by
    rw [sledView_query B exOld exIns_fine exIns_incr [lbl "a" "1"] exQ_wf 5#64 150#64 (by decide)]
    decide +kernel
  unfold dbQuery queryCurrent
  rw [hq]
  have hl : labelsEq [lbl "a" "1", lbl "b" "2"] [lbl "a" "1"] = none := by decide +kernel
  simp [addSeries, HMap.insert, HMap.find, order_nil, order_one, Hash.scan, ht, hl]

/-- An older chunk with `{a=1}` and a current one with `{a=1,b=2}`. -/
def exShort : Desc := ⟨0#64, 1000#64, [([lbl "a" "1"], ⟨10#64, 5#64⟩)]⟩
def exLong : Desc := ⟨1000#64, 2000#64, [([lbl "a" "1", lbl "b" "2"], ⟨1500#64, 8#64⟩)]⟩

theorem exShort_fine : Fine exShort.h := by
  refine ⟨?_, by decide⟩
  intro w hw
  simp only [exShort, List.mem_cons, List.not_mem_nil, or_false] at hw
  subst hw; exact wfSet_of (by decide +kernel)

theorem exLong_fine : Fine exLong.h := by
  refine ⟨?_, by decide⟩
  intro w hw
  simp only [exLong, List.mem_cons, List.not_mem_nil, or_false] at hw
  subst hw; exact wfSet_of (by decide +kernel)

/-- In every hash map in which `{a=1}` is compared with a stored `{a=1,b=2}`, a query over these two chunks returns the
point of `{a=1}` as a point of `{a=1,b=2}`, and no `{a=1}`. -/
theorem C41_violated_mixes (B : BinSearch) (H : Hash) (ht : H.tag [lbl "a" "1"] [lbl "a" "1", lbl "b" "2"] = true) :
    dbQuery H ((sledChunk B exLong).view (sledComp B)) [(sledChunk B exShort).view (sledComp B)] [lbl "a" "1"] 5#64 1600#64 =
      .ok [([lbl "a" "1", lbl "b" "2"], [⟨10#64, 5#64⟩, ⟨1500#64, 8#64⟩])] := by
  have hq1 : ((sledChunk B exLong).view (sledComp B)).query [lbl "a" "1"] 5#64 1600#64 =
      .ok [⟨1#64, [lbl "a" "1", lbl "b" "2"], [⟨1500#64, 8#64⟩]⟩] := by
    rw [sledView_query B exLong exLong_fine (fun ls => incr_pointsFor (by unfold SIncr; decide +kernel) ls) [lbl "a" "1"] exQ_wf 5#64 1600#64 (by decide)]
    decide +kernel
  have hq2 : ((sledChunk B exShort).view (sledComp B)).query [lbl "a" "1"] 5#64 1600#64 =
      .ok [⟨1#64, [lbl "a" "1"], [⟨10#64, 5#64⟩]⟩] := by
    rw [sledView_query B exShort exShort_fine (fun ls => incr_pointsFor (by unfold SIncr; decide +kernel) ls) [lbl "a" "1"] exQ_wf 5#64 1600#64 (by decide)]
    decide +kernel
  have hw : ((sledChunk B exShort).view (sledComp B)).within 5#64 1600#64 = true := by
    rw [sledView_within B exShort exShort_fine]; decide
  unfold dbQuery queryCurrent
  rw [hq1]
  have hl : labelsEq [lbl "a" "1"] [lbl "a" "1", lbl "b" "2"] = some true := by decide +kernel
  have hl2 := labelsEq_self [lbl "a" "1", lbl "b" "2"]
  have hr := H.refl [lbl "a" "1", lbl "b" "2"]
  simp [addSeries, HMap.insert, HMap.find, order_nil, order_one, Hash.scan, querySecondary, hw, hq2, HMap.append, ht, hl, HMap.modify, collectKeys,
    hr, hl2, Res.ofPanic]

/-- The property as listed is false: not every hash map gives the merge. -/
theorem C41_violated (B : BinSearch) : ¬ ∀ (H : Hash) (secondary : List Desc) (cur : Desc), (∀ d ∈ secondary ++ [cur], Fine d.h) →
    (∀ d ∈ secondary ++ [cur], ∀ ls, SIncr (pointsFor (insideOnly d.lo d.hi d.h) ls)) → ∀ q : Labels, (∀ l ∈ q, WFLabel l) →
    ∀ a b : U64, a.toNat ≤ b.toNat →
      ∃ r, dbQuery H ((sledChunk B cur).view (sledComp B)) (secondary.map fun d => (sledChunk B d).view (sledComp B)) q a b = .ok r := by
  intro hall
  obtain ⟨r, hr⟩ := hall constHash [] exOld (by simpa [exOld] using exIns_fine) (by simpa [exOld] using exIns_incr) [lbl "a" "1"] exQ_wf 5#64 150#64 (by decide)
  rw [List.map_nil, C41_violated_panic B constHash rfl] at hr
  cases hr

/-- What holds: if the hash map never compares two reported label sets of which one is a proper prefix of the other (always
so for an ideal hash, `idealHash_good`), nothing is mixed and nothing panics. -/
theorem C41_partial (H : Hash) (cur : View) (secondary : List View) (q : Labels) (a b : U64)
    (hp : cur.query q a b ≠ .panic) (hps : ∀ v ∈ secondary, v.within a b = true → v.query q a b ≠ .panic)
    (hpre : ∀ k k', (∃ v ∈ cur :: secondary, ∃ s ∈ okSeries (v.query q a b), s.labels = k) →
      (∃ v ∈ cur :: secondary, ∃ s ∈ okSeries (v.query q a b), s.labels = k') → H.tag k k' = true → k ≠ k' → ¬ k <+: k' ∧ ¬ k' <+: k)
    (hd : DistinctPerChunk (usedResults cur secondary q a b)) :
    ∃ r, dbQuery H cur secondary q a b = .ok r ∧ ∀ ls ps, (ls, ps) ∈ r → ∀ p ∈ ps, ∃ s ∈ seriesWith (usedResults cur secondary q a b) ls, p ∈ s.points := by
  have hg : H.Good fun ls => ∃ v ∈ cur :: secondary, ∃ s ∈ okSeries (v.query q a b), s.labels = ls := by
    intro k k' hk hk' ht
    by_cases e : k = k'
    · subst e; exact ⟨fun h => h.2 rfl, fun h => h.2 rfl⟩
    · have := hpre k k' hk hk' ht e
      exact ⟨fun h => this.1 h.1, fun h => this.2 h.1⟩
  obtain ⟨r, h1, h2⟩ := C40_general H cur secondary q a b hp hps hg hd
  refine ⟨r, h1, ?_⟩
  intro ls ps he p hp
  obtain ⟨-, e⟩ := (h2.entries ls ps).mp he
  rw [e] at hp
  obtain ⟨s, hs, hps⟩ := List.mem_flatMap.mp hp
  exact ⟨s, hs, hps⟩

example : constHash.tag [lbl "a" "1"] [lbl "a" "1", lbl "b" "2"] = true ∧ constHash.tag [lbl "a" "1", lbl "b" "2"] [lbl "a" "1"] = true := ⟨rfl, rfl⟩

/-! ### C42: swaps do not hide data; C43: they duplicate it -/

/-- Chunks in which a query outside the window finds nothing: all chunks (`view_sound`). -/
def View.Sound (v : View) : Prop := ∀ q a b, v.within a b = false → okSeries (v.query q a b) = []

theorem view_sound {σ : Type} (C : Comp σ) (c : Chunk σ) : (c.view C).Sound := by
  intro q a b hw
  show okSeries (c.query C q a b) = []
  unfold Chunk.query
  have : c.isWithRange a b = false := hw
  rw [this]
  split <;> rfl

/-- The series a chunk contributes. -/
def View.answer (v : View) (q : Labels) (a b : U64) : List Series := okSeries (v.query q a b)

theorem used_eq {cur : View} {secondary : List View} (hs : ∀ v ∈ secondary, v.Sound) (q : Labels) (a b : U64) :
    usedResults cur secondary q a b = (secondary ++ [cur]).map fun v => v.answer q a b := by
  unfold usedResults
  rw [List.map_append]
  congr 1
  apply List.map_congr_left
  intro v hv
  by_cases h : v.within a b = true
  · rw [if_pos h]; rfl
  · rw [if_neg h]; exact (hs v hv q a b (by simpa using h)).symm

/-- What a query returns next to any number of swaps, for every schedule: the merge over the chunks `0 .. n-1` (oldest first)
and the chunk `k` read as the current one, `k` being at most `n` and at least the chunk that was current at the beginning. -/
theorem C42_result (H : Hash) (q : Labels) (a b : U64) (s0 : DbState) (news : List View) (sched : List Bool)
    (res : Res (List (Labels × List TimePoint))) (h : (interleave sched (dbQueryProc H q a b) (swapsProc news) s0).1 = .ret res) :
    ∃ k n cur, s0.secondary.length ≤ k ∧ k ≤ n ∧ (s0.secondary ++ s0.current :: news)[k]? = some cur ∧
      n ≤ (s0.secondary ++ s0.current :: news).length ∧ res = dbQuery H cur ((s0.secondary ++ s0.current :: news).take n) q a b :=
  query_swap H q a b news s0 sched h

/-- No data is hidden: for every interleaving of a query with any number of swaps, the query succeeds, and every label set
and every point that the query would have returned had no swap happened is returned, in order. -/
theorem C42_nothing_hidden (H : Hash) (q : Labels) (a b : U64) (s0 : DbState) (news : List View)
    (hv : ∀ v ∈ s0.secondary ++ s0.current :: news, v.Sound ∧ v.query q a b ≠ .panic ∧ ((v.answer q a b).map (·.labels)).Nodup)
    (hg : H.Good fun ls => ∃ v ∈ s0.secondary ++ s0.current :: news, ∃ s ∈ v.answer q a b, s.labels = ls)
    (sched : List Bool) (res : Res (List (Labels × List TimePoint)))
    (h : (interleave sched (dbQueryProc H q a b) (swapsProc news) s0).1 = .ret res) :
    ∃ r0 r, dbQuery H s0.current s0.secondary q a b = .ok r0 ∧ res = .ok r ∧
      ∀ ls ps0, (ls, ps0) ∈ r0 → ∃ ps, (ls, ps) ∈ r ∧ ps0.Sublist ps := by
  obtain ⟨k, n, cur, h1, h2, h3, -, rfl⟩ := C42_result H q a b s0 news sched res h
  have hcur : cur ∈ s0.secondary ++ s0.current :: news := List.mem_of_getElem? h3
  have hmerge : ∀ (c : View) (sec : List View), (∀ v ∈ sec ++ [c], v ∈ s0.secondary ++ s0.current :: news) →
      ∃ r, dbQuery H c sec q a b = .ok r ∧ IsMerge ((sec ++ [c]).map fun v => v.answer q a b) r := by
    intro c sec hsub
    rw [← used_eq (fun v hv' => (hv v (hsub v (by simp [hv']))).1)]
    apply dbQuery_merge H c sec q a b (hv c (hsub c (by simp))).2.1 (fun v hv' _ => (hv v (hsub v (by simp [hv']))).2.1) hg
    · intro v hv' s hs
      rw [List.mem_cons] at hv'
      exact ⟨v, hsub v (by rcases hv' with rfl | hv' <;> simp [*]), s, hs, rfl⟩
    · intro x hx
      rw [used_eq (fun v hv' => (hv v (hsub v (by simp [hv']))).1)] at hx
      obtain ⟨v, hv', rfl⟩ := List.mem_map.mp hx
      exact (hv v (hsub v hv')).2.2
  obtain ⟨r0, e0, m0⟩ := hmerge s0.current s0.secondary (by intro v hv'; simp only [List.mem_append, List.mem_singleton] at hv'; simp only [List.mem_append, List.mem_cons]; tauto)
  obtain ⟨r, e1, m1⟩ := hmerge cur ((s0.secondary ++ s0.current :: news).take n) (by
    intro v hv'
    rw [List.mem_append, List.mem_singleton] at hv'
    rcases hv' with hv' | rfl
    · exact List.mem_of_mem_take hv'
    · exact hcur)
  refine ⟨r0, r, e0, e1, ?_⟩
  intro ls ps0 hin
  obtain ⟨hne, rfl⟩ := (m0.entries ls ps0).mp hin
  have hsub : (seriesWith ((s0.secondary ++ [s0.current]).map fun v => v.answer q a b) ls).Sublist
      (seriesWith ((((s0.secondary ++ s0.current :: news).take n) ++ [cur]).map fun v => v.answer q a b) ls) :=
    sublist_flatMap ((query_swap_covers h1 h2 h3).map _) _
  refine ⟨_, (m1.entries ls _).mpr ⟨?_, rfl⟩, sublist_flatMap hsub _⟩
  intro e
  rw [e] at hsub
  exact hne (List.sublist_nil.mp hsub)

/-- C43 fails for every database: if the query reads the current chunk, then the swap pushes it to the older chunks, then the
query reads those, the query is answered as if the current chunk existed twice. -/
theorem C43_violated (H : Hash) (q : Labels) (a b : U64) (s0 : DbState) (new : View) (news : List View) (hok : queryCurrent H s0.current q a b ≠ none) :
    (interleave [false, true, false] (dbQueryProc H q a b) (swapsProc (new :: news)) s0).1 =
      .ret (dbQuery H s0.current (s0.secondary ++ [s0.current]) q a b) := by
  unfold dbQueryProc swapsProc swapProc
  rcases hm : queryCurrent H s0.current q a b with _ | m
  · exact absurd hm hok
  · simp only [interleave, Proc.get, Proc.put, id, hm]
    unfold dbQuery
    rw [hm]
    simp only []
    rcases querySecondary H q a b (s0.secondary ++ [s0.current]).reverse m with _ | m' <;> rfl

/-- Witness: one sled chunk with one point at time 10; the query returns it twice. -/
theorem C43_violated_witness (B : BinSearch) (new : View) :
    ∃ res r, (interleave [false, true, false] (dbQueryProc idealHash [lbl "a" "1"] 5#64 50#64) (swapsProc [new])
        ⟨(sledChunk B exShort).view (sledComp B), []⟩).1 = .ret res ∧ res = .ok r ∧
      ([lbl "a" "1"], [⟨10#64, 5#64⟩, ⟨10#64, 5#64⟩]) ∈ r := by
  have hincr : ∀ ls, SIncr (pointsFor (insideOnly exShort.lo exShort.hi exShort.h) ls) := fun ls => incr_pointsFor (by unfold SIncr; decide +kernel) ls
  have hq : ((sledChunk B exShort).view (sledComp B)).query [lbl "a" "1"] 5#64 50#64 = .ok [⟨1#64, [lbl "a" "1"], [⟨10#64, 5#64⟩]⟩] := by
    rw [sledView_query B exShort exShort_fine hincr [lbl "a" "1"] exQ_wf 5#64 50#64 (by decide)]
    decide +kernel
  have hok : queryCurrent idealHash ((sledChunk B exShort).view (sledComp B)) [lbl "a" "1"] 5#64 50#64 ≠ none := by
    unfold queryCurrent
    rw [hq]
    simp [addSeries, HMap.insert, HMap.find, order_nil, Hash.scan]
  obtain ⟨r, h1, h2, -⟩ := C40_sled B idealHash [exShort] exShort
    (by intro d hd; simp only [List.cons_append, List.nil_append, List.mem_cons, List.not_mem_nil, or_false, or_self] at hd; subst hd; exact exShort_fine)
    (by intro d hd; simp only [List.cons_append, List.nil_append, List.mem_cons, List.not_mem_nil, or_false, or_self] at hd; subst hd; exact hincr)
    [lbl "a" "1"] exQ_wf 5#64 50#64 (by decide) (idealHash_good _)
  refine ⟨_, r, C43_violated idealHash _ _ _ ⟨(sledChunk B exShort).view (sledComp B), []⟩ new [] hok, h1, (h2.entries _ _).mpr ?_⟩
  decide +kernel

/-- What holds, 1: in every interleaving at most one chunk is counted twice (see `C42_result`: the chunks `0 .. n-1` once
each, and chunk `k`); it is the chunk that was current when the query started reading, and it is not counted twice if
`k = n`. Here: a query that does not overlap a swap (it runs between two swaps, after `2 * j` steps of the swap thread)
sees every chunk exactly once. -/
theorem C43_partial (H : Hash) (q : Labels) (a b : U64) (s0 : DbState) (news : List View) (j : Nat) (hj : j ≤ news.length) (rest : List Bool)
    (res : Res (List (Labels × List TimePoint)))
    (h : (interleave (List.replicate (2 * j) true ++ false :: false :: rest) (dbQueryProc H q a b) (swapsProc news) s0).1 = .ret res) :
    ∃ cur, (s0.secondary ++ s0.current :: news)[s0.secondary.length + j]? = some cur ∧
      res = dbQuery H cur ((s0.secondary ++ s0.current :: news).take (s0.secondary.length + j)) q a b := by
  have key : ∀ (m : Nat) (w : Proc DbState Unit) (s : DbState) (rest : List Bool),
      interleave (List.replicate m true ++ rest) (dbQueryProc H q a b) w s = interleave rest (dbQueryProc H q a b) (w.rest m s) (w.upTo m s) := by
    intro m
    induction m with
    | zero => intro w s rest; rfl
    | succ m ih =>
      intro w s rest
      rw [List.replicate_succ, List.cons_append]
      cases w with
      | ret u =>
        rw [interleave, ih]
        cases m <;> rfl
      | act u k => rw [interleave, ih]; rfl
  rw [key] at h
  obtain ⟨c1, c2⟩ := swaps_upTo news s0 (2 * j)
  have e1 : min (2 * j) (2 * news.length) / 2 = j := by omega
  have e2 : (min (2 * j) (2 * news.length) + 1) / 2 = j := by omega
  rw [e1] at c1
  rw [e2] at c2
  refine ⟨_, c1, ?_⟩
  generalize (swapsProc news).upTo (2 * j) s0 = s at h c2
  generalize (swapsProc news).rest (2 * j) s0 = w at h
  have c2' : s.secondary = (s0.secondary ++ s0.current :: news).take (s0.secondary.length + j) := c2
  rw [← c2']
  unfold dbQueryProc at h
  unfold dbQuery
  rcases hm : queryCurrent H s.current q a b with _ | m
  · simp only [interleave, Proc.get, id, hm] at h
    rw [interleave_ret] at h
    cases h; rfl
  · simp only [interleave, Proc.get, id, hm] at h
    simp only []
    rcases hr : querySecondary H q a b s.secondary.reverse m with _ | m'
    · simp only [hr] at h; rw [interleave_ret] at h; cases h; rfl
    · simp only [hr] at h; rw [interleave_ret] at h; cases h; rfl

/-- What holds, 2: next to any number of swaps, under every schedule, at most one chunk is counted twice: the points of a label set are
those of the chunks `0 .. n-1`, once each and in order, followed by those of one chunk `k ≤ n` of the run, the one that was current when
the query read it. So if no point is in two places of the database, none is returned more than twice. -/
theorem C43_twice_partial (H : Hash) (q : Labels) (a b : U64) (s0 : DbState) (news : List View)
    (hv : ∀ v ∈ s0.secondary ++ s0.current :: news, v.Sound ∧ v.query q a b ≠ .panic ∧ ((v.answer q a b).map (·.labels)).Nodup)
    (hg : H.Good fun ls => ∃ v ∈ s0.secondary ++ s0.current :: news, ∃ s ∈ v.answer q a b, s.labels = ls)
    (sched : List Bool) (res : Res (List (Labels × List TimePoint)))
    (h : (interleave sched (dbQueryProc H q a b) (swapsProc news) s0).1 = .ret res) :
    ∃ r k n cur, res = .ok r ∧ s0.secondary.length ≤ k ∧ k ≤ n ∧ (s0.secondary ++ s0.current :: news)[k]? = some cur ∧
      (∀ ls ps, (ls, ps) ∈ r → ps = mergedPoints (((s0.secondary ++ s0.current :: news).take n).map fun v => v.answer q a b) ls ++
        mergedPoints [cur.answer q a b] ls) ∧
      ∀ ls ps, (ls, ps) ∈ r → (mergedPoints ((s0.secondary ++ s0.current :: news).map fun v => v.answer q a b) ls).Nodup →
        ∀ p, ps.count p ≤ 2 := by
  obtain ⟨k, n, cur, h1, h2, h3, -, rfl⟩ := C42_result H q a b s0 news sched res h
  have hcur : cur ∈ s0.secondary ++ s0.current :: news := List.mem_of_getElem? h3
  have hsub : ∀ v ∈ (s0.secondary ++ s0.current :: news).take n ++ [cur], v ∈ s0.secondary ++ s0.current :: news := by
    intro v hv'
    rw [List.mem_append, List.mem_singleton] at hv'
    rcases hv' with hv' | rfl
    · exact List.mem_of_mem_take hv'
    · exact hcur
  have hmerge : ∃ r, dbQuery H cur ((s0.secondary ++ s0.current :: news).take n) q a b = .ok r ∧
      IsMerge (((s0.secondary ++ s0.current :: news).take n ++ [cur]).map fun v => v.answer q a b) r := by
    rw [← used_eq (fun v hv' => (hv v (hsub v (by simp [hv']))).1)]
    apply dbQuery_merge H cur _ q a b (hv cur hcur).2.1 (fun v hv' _ => (hv v (List.mem_of_mem_take hv')).2.1) hg
    · intro v hv' s hs
      rw [List.mem_cons] at hv'
      exact ⟨v, hsub v (by rcases hv' with rfl | hv' <;> simp [*]), s, hs, rfl⟩
    · intro x hx
      rw [used_eq (fun v hv' => (hv v (hsub v (by simp [hv']))).1)] at hx
      obtain ⟨v, hv', rfl⟩ := List.mem_map.mp hx
      exact (hv v (hsub v hv')).2.2
  obtain ⟨r, e1, m1⟩ := hmerge
  have hps : ∀ ls ps, (ls, ps) ∈ r → ps = mergedPoints (((s0.secondary ++ s0.current :: news).take n).map fun v => v.answer q a b) ls ++
      mergedPoints [cur.answer q a b] ls := by
    intro ls ps hin
    rw [((m1.entries ls ps).mp hin).2]
    unfold mergedPoints seriesWith
    simp only [List.map_append, List.flatMap_append, List.map_cons, List.map_nil]
  refine ⟨r, k, n, cur, e1, h1, h2, h3, hps, ?_⟩
  intro ls ps hin hnd p
  rw [hps ls ps hin, List.count_append]
  have hc : ∀ l : List View, l.Sublist (s0.secondary ++ s0.current :: news) → (mergedPoints (l.map fun v => v.answer q a b) ls).count p ≤ 1 := by
    intro l hl
    have hs : (mergedPoints (l.map fun v => v.answer q a b) ls).Sublist
        (mergedPoints ((s0.secondary ++ s0.current :: news).map fun v => v.answer q a b) ls) :=
      sublist_flatMap (sublist_flatMap (hl.map _) _) _
    exact List.nodup_iff_count_le_one.mp (hnd.sublist hs) p
  have c1 := hc _ (List.take_sublist n _)
  have c2 := hc [cur] (List.singleton_sublist.mpr hcur)
  simp only [List.map_cons, List.map_nil] at c2
  omega

-- a schedule with one complete swap, then the query
example (H : Hash) (q : Labels) (a b : U64) (s0 : DbState) (v : View) (hv : queryCurrent H v q a b ≠ none) :
    ∃ res, (interleave [true, true, false, false] (dbQueryProc H q a b) (swapsProc [v]) s0).1 = .ret res := by
  rcases hm : queryCurrent H v q a b with _ | m
  · exact absurd hm hv
  · simp only [interleave, swapsProc, swapProc, dbQueryProc, Proc.get, Proc.put, id, hm]
    rcases querySecondary H q a b (s0.secondary ++ [s0.current]).reverse m with _ | m' <;> exact ⟨_, rfl⟩
-- hypotheses of C42 hold for sled chunks
example (B : BinSearch) : ∀ v ∈ [(sledChunk B exShort).view (sledComp B)], v.Sound ∧ v.query [lbl "a" "1"] 5#64 1600#64 ≠ .panic ∧
    ((v.answer [lbl "a" "1"] 5#64 1600#64).map (·.labels)).Nodup := by
  intro v hv
  rw [List.mem_singleton] at hv
  subst hv
  have hq := sledView_query B exShort exShort_fine (fun ls => incr_pointsFor (by unfold SIncr; decide +kernel) ls) [lbl "a" "1"] exQ_wf 5#64 1600#64 (by decide)
  refine ⟨view_sound _ _, ?_, ?_⟩
  · rw [hq]; decide +kernel
  · unfold View.answer; rw [hq]; decide +kernel

/-! ### C44 -/

/-- The results of a sequence of open attempts (storage type, indexer type), and the file at the end. -/
def openAll (f : MetaFile) : List (Str × Str) → List (Res Unit) × MetaFile
  | [] => ([], f)
  | p :: ps => ((openCheck f p.1 p.2).1 :: (openAll (openCheck f p.1 p.2).2 ps).1, (openAll (openCheck f p.1 p.2).2 ps).2)

theorem openCheck_recorded (s i s' i' : Str) :
    openCheck (.text (some ⟨s, i⟩)) s' i' = (if (s', i') = (s, i) then .ok () else .err .optionErr, .text (some ⟨s, i⟩)) := by
  unfold openCheck readOrCreateMeta
  by_cases h : (s', i') = (s, i)
  · rw [if_pos h]
    simp only [Prod.mk.injEq] at h
    exact if_neg (by rw [h.1, h.2]; simp)
  · rw [if_neg h]
    simp only [Prod.mk.injEq] at h
    refine if_pos ?_
    by_contra hn
    exact h ⟨by by_contra e; exact hn (Or.inl fun e' => e e'.symm), by by_contra e; exact hn (Or.inr fun e' => e e'.symm)⟩

theorem openAll_recorded (s i : Str) (ps : List (Str × Str)) :
    openAll (.text (some ⟨s, i⟩)) ps = (ps.map fun p => if p = (s, i) then .ok () else .err .optionErr, .text (some ⟨s, i⟩)) := by
  induction ps with
  | nil => rfl
  | cons p ps ih => unfold openAll; rw [openCheck_recorded]; simp only []; rw [ih]; rfl

/-- On a directory without readable metadata file the first attempt passes the check and records its pair of types; every
later attempt passes exactly when its pair is the recorded one; the record never changes again. -/
theorem C44_open_partial (s i : Str) (ps : List (Str × Str)) :
    (openAll .unreadable ((s, i) :: ps)).1 = .ok () :: ps.map (fun p => if p = (s, i) then .ok () else .err .optionErr) ∧
    (openAll .unreadable ((s, i) :: ps)).2 = .text (some ⟨s, i⟩) := by
  have e : openCheck .unreadable s i = (.ok (), .text (some ⟨s, i⟩)) := rfl
  unfold openAll
  rw [e]
  simp only []
  rw [openAll_recorded]
  exact ⟨rfl, rfl⟩

/-- The naming part fails: with different type names the record has the storage type under `indexer_type` and the indexer type
under `storage_type`. -/
theorem C44_violated (s i : Str) (h : s ≠ i) : ∃ m, (openCheck .unreadable s i).2 = .text (some m) ∧ m.indexerType = s ∧ m.storageType = i ∧
    m.indexerType ≠ i ∧ m.storageType ≠ s := ⟨⟨s, i⟩, rfl, rfl, rfl, h, fun e => h e.symm⟩

/-- So a directory whose metadata file names the types as the property says cannot be opened with these types. -/
theorem C44_violated_correct_record (s i : Str) (h : s ≠ i) :
    openCheck (.text (some { indexerType := i, storageType := s })) s i =
      (.err .optionErr, .text (some { indexerType := i, storageType := s })) := by
  unfold openCheck readOrCreateMeta
  exact if_pos (Or.inl fun e => h e.symm)

/-- A metadata file with text that is not a record makes every attempt fail, for ever. -/
theorem C44_corrupt_record (ps : List (Str × Str)) : openAll (.text none) ps = (ps.map fun _ => .err .serdeErr, .text none) := by
  induction ps with
  | nil => rfl
  | cons p ps ih =>
    have e : openCheck (.text none) p.1 p.2 = (.err .serdeErr, .text none) := rfl
    unfold openAll; rw [e]; simp only []; rw [ih]; rfl

example : (ascii "SledStorage".toList) ≠ ascii "SledIndexer".toList := by decide +kernel
example : (openAll .unreadable [(ascii "SledStorage".toList, ascii "SledIndexer".toList), (ascii "TiKvStorage".toList, ascii "TiKvIndexer".toList), (ascii "SledStorage".toList, ascii "SledIndexer".toList)]).1 =
    [.ok (), .err .optionErr, .ok ()] := by decide +kernel

end Verif
