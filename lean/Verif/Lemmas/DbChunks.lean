import Verif.Lemmas.Db
namespace Verif
open List

/-! ### What a chunk contributes -/

theorem nodup_map_of_pairwise {α β : Type} {f : α → β} {l : List α} (h : l.Pairwise fun a b => f a ≠ f b) : (l.map f).Nodup := by
  unfold List.Nodup; rw [List.pairwise_map]; exact h

theorem matched_nodup (acc : List TimePoint → TimePoint → Bool) (h : Inserts) (q : Labels) : ((matched acc h q).map (·.labels)).Nodup := by
  unfold matched
  split
  · simp
  · rw [List.map_map]
    apply nodup_map_of_pairwise
    have hf := number_fresh (labelSets_fresh h)
    rw [← numbered_eq] at hf
    refine (hf.sublist List.filter_sublist).imp ?_
    intro x y hxy e
    exact hxy (perm_of_sortLabels_eq e)

theorem restrict_labels (a b : U64) (ss : List Series) : ((restrict a b ss).map (·.labels)).Sublist (ss.map (·.labels)) := by
  unfold restrict
  have : (ss.map (·.labels)) = ((ss.map fun s => { s with points := inRange s.points a b }).map (·.labels)) := by
    rw [List.map_map]; rfl
  rw [this]
  exact List.filter_sublist.map _

theorem answer_nodup (acc : List TimePoint → TimePoint → Bool) (d : Desc) (q : Labels) (a b : U64) :
    ((d.answer acc q a b).map (·.labels)).Nodup := by
  unfold Desc.answer
  split
  · unfold specQuery
    split
    · simp [okSeries]
    · exact List.Nodup.sublist (restrict_labels a b _) (matched_nodup acc d.h q)
  · simp

theorem answer_mem {acc : List TimePoint → TimePoint → Bool} {d : Desc} {q : Labels} {a b : U64} {s : Series} (hs : s ∈ d.answer acc q a b) :
    ∃ ls, s.points = inRange (keepBy acc (pointsFor d.h ls)) a b := by
  unfold Desc.answer at hs
  split at hs
  · unfold specQuery at hs
    split at hs
    · simp [okSeries] at hs
    · simp only [okSeries, restrict] at hs
      obtain ⟨x, hx, rfl⟩ := List.mem_map.mp (List.mem_filter.mp hs).1
      unfold matched at hx
      split at hx
      · simp at hx
      · obtain ⟨y, -, rfl⟩ := List.mem_map.mp hx
        exact ⟨y.1, rfl⟩
  · simp at hs

theorem keepBy_sub (acc : List TimePoint → TimePoint → Bool) (ps : List TimePoint) : (keepBy acc ps).Sublist ps := by
  induction ps using List.reverseRecOn with
  | nil => exact List.Sublist.refl _
  | append_singleton ps p ih =>
    rw [keepBy_append]
    split
    · exact ih.append (List.Sublist.refl _)
    · exact ih.trans (List.sublist_append_left _ _)

theorem answer_points {acc : List TimePoint → TimePoint → Bool} {d : Desc} {q : Labels} {a b : U64}
    (hincr : ∀ ls, SIncr (keepBy acc (pointsFor d.h ls))) {s : Series} (hs : s ∈ d.answer acc q a b) :
    SIncr s.points ∧ ∀ p ∈ s.points, a.toNat ≤ p.ts.toNat ∧ p.ts.toNat ≤ b.toNat ∧ ∃ w ∈ d.h, w.2 = p := by
  obtain ⟨ls, e⟩ := answer_mem hs
  rw [e]
  refine ⟨List.Pairwise.sublist List.filter_sublist (hincr ls), ?_⟩
  intro p hp
  have h1 := (List.mem_filter.mp hp).2
  simp only [Bool.and_eq_true, decide_eq_true_eq] at h1
  refine ⟨h1.1, h1.2, ?_⟩
  have h2 := (keepBy_sub acc _).subset (List.mem_filter.mp hp).1
  obtain ⟨w, hw, e⟩ := List.mem_map.mp h2
  exact ⟨w, (List.mem_filter.mp hw).1, e⟩

theorem view_answer {σ : Type} {C : Comp σ} {acc : List TimePoint → TimePoint → Bool} {R : Refines C acc} {d : Desc}
    {c : Chunk σ} (hc : ChunkRep R d.lo d.hi d.h c) (hlen : d.h.length < 2 ^ 64 - 1) (hwf : ∀ w ∈ d.h, WFSet w.1)
    (hincr : ∀ ls, SIncr (keepBy acc (pointsFor d.h ls))) {q : Labels} (hq : ∀ l ∈ q, WFLabel l) {a b : U64} (hab : a.toNat ≤ b.toNat) :
    (c.view C).query q a b ≠ .panic ∧ okSeries ((c.view C).query q a b) = d.answer acc q a b ∧
    (if (c.view C).within a b then okSeries ((c.view C).query q a b) else []) = d.answer acc q a b := by
  have hqy := hc.query hlen hwf hincr hq hab
  have hw : (c.view C).within a b = overlaps d.lo d.hi a b := by
    show c.isWithRange a b = _
    rw [Chunk.isWithRange_eq, hc.start_, hc.end_]
  show c.query C q a b ≠ .panic ∧ okSeries (c.query C q a b) = _ ∧ (if (c.view C).within a b then okSeries (c.query C q a b) else []) = _
  rw [hqy, hw]
  unfold Desc.answer
  by_cases ho : overlaps d.lo d.hi a b
  · simp only [ho, if_true]
    refine ⟨?_, trivial, trivial⟩
    unfold specQuery
    split <;> simp
  · simp only [ho]
    exact ⟨by simp, rfl, rfl⟩

/-! ### Sortedness of the merge -/

theorem merged_sorted {acc : List TimePoint → TimePoint → Bool} (ds : List Desc) (hincr : ∀ d ∈ ds, ∀ ls, SIncr (keepBy acc (pointsFor d.h ls)))
    (hord : ds.Pairwise fun d e => d.hi.toNat ≤ e.lo.toNat) (hin : ∀ d ∈ ds, ∀ w ∈ d.h, inside d.lo d.hi w.2 = true) (q : Labels) (a b : U64)
    (ls : Labels) : SIncr (mergedPoints (ds.map fun d => d.answer acc q a b) ls) := by
  have hmem : ∀ d ∈ ds, ∀ s ∈ d.answer acc q a b, ∀ p ∈ s.points, d.lo.toNat < p.ts.toNat ∧ p.ts.toNat < d.hi.toNat := by
    intro d hd s hs p hp
    obtain ⟨-, h2⟩ := answer_points (hincr d hd) hs
    obtain ⟨-, -, w, hw, e⟩ := h2 p hp
    have := hin d hd w hw
    rw [e] at this
    unfold inside at this
    simpa using this
  induction ds with
  | nil => simp [mergedPoints, seriesWith, SIncr]
  | cons d ds ih =>
    rw [List.pairwise_cons] at hord
    have ih := ih (fun x hx => hincr x (by simp [hx])) hord.2 (fun x hx => hin x (by simp [hx])) (fun x hx => hmem x (by simp [hx]))
    have e : mergedPoints ((d :: ds).map fun d => d.answer acc q a b) ls =
        ((d.answer acc q a b).filter fun s => decide (s.labels = ls)).flatMap (·.points) ++ mergedPoints (ds.map fun d => d.answer acc q a b) ls := by
      unfold mergedPoints seriesWith
      rw [List.map_cons, List.flatMap_cons, List.flatMap_append]
    rw [e]
    unfold SIncr
    rw [List.pairwise_append]
    refine ⟨?_, ih, ?_⟩
    · have hn := answer_nodup acc d q a b
      have hp : ∀ s ∈ d.answer acc q a b, SIncr s.points := fun s hs => (answer_points (hincr d (by simp)) hs).1
      generalize d.answer acc q a b = l at hn hp
      clear e ih hmem
      induction l with
      | nil => simp
      | cons s l ihl =>
        rw [List.map_cons, List.nodup_cons] at hn
        rw [List.filter_cons]
        split
        · rename_i h
          simp only [decide_eq_true_eq] at h
          have : (l.filter fun s => decide (s.labels = ls)) = [] := by
            rw [List.filter_eq_nil_iff]
            intro x hx hx'
            simp only [decide_eq_true_eq] at hx'
            exact hn.1 (by rw [h, ← hx']; exact List.mem_map_of_mem hx)
          rw [this]
          have h1 := hp s (by simp)
          unfold SIncr at h1
          simpa using h1
        · exact ihl hn.2 fun x hx => hp x (by simp [hx])
    · intro x hx y hy
      obtain ⟨s, hs, hxs⟩ := List.mem_flatMap.mp hx
      have h1 := hmem d (by simp) s (List.mem_filter.mp hs).1 x hxs
      unfold mergedPoints seriesWith at hy
      obtain ⟨s', hs', hys⟩ := List.mem_flatMap.mp hy
      obtain ⟨r, hr, hs''⟩ := List.mem_flatMap.mp hs'
      obtain ⟨d', hd', rfl⟩ := List.mem_map.mp hr
      have h2 := hmem d' (by simp [hd']) s' (List.mem_filter.mp hs'').1 y hys
      have h3 := hord.1 d' hd'
      omega

/-- The database query over chunks with known answers. -/
theorem dbQuery_views {α : Type} (H : Hash) (view : α → View) (ans : α → List Series) (secondary : List α) (cur : α) (q : Labels) (a b : U64)
    (hv : ∀ d ∈ secondary ++ [cur], (view d).query q a b ≠ .panic ∧ okSeries ((view d).query q a b) = ans d ∧
      (if (view d).within a b then okSeries ((view d).query q a b) else []) = ans d)
    (hn : ∀ d ∈ secondary ++ [cur], ((ans d).map (·.labels)).Nodup)
    (hg : H.Good fun ls => ∃ d ∈ secondary ++ [cur], ∃ s ∈ ans d, s.labels = ls) :
    ∃ r, dbQuery H (view cur) (secondary.map view) q a b = .ok r ∧ IsMerge ((secondary ++ [cur]).map ans) r := by
  have hu : usedResults (view cur) (secondary.map view) q a b = (secondary ++ [cur]).map ans := by
    unfold usedResults
    rw [List.map_append, List.map_map]
    congr 1
    · apply List.map_congr_left
      intro d hd
      exact (hv d (by simp [hd])).2.2
    · rw [(hv cur (by simp)).2.1]; rfl
  rw [← hu]
  apply dbQuery_merge H _ _ q a b (hv cur (by simp)).1 _ hg
  · intro v hv' s hs
    rw [List.mem_cons, List.mem_map] at hv'
    rcases hv' with rfl | ⟨d, hd, rfl⟩
    · rw [(hv cur (by simp)).2.1] at hs
      exact ⟨cur, by simp, s, hs, rfl⟩
    · rw [(hv d (by simp [hd])).2.1] at hs
      exact ⟨d, by simp [hd], s, hs, rfl⟩
  · intro r hr
    rw [hu, List.mem_map] at hr
    obtain ⟨d, hd, rfl⟩ := hr
    exact hn d hd
  · intro v hv' _
    obtain ⟨d, hd, rfl⟩ := List.mem_map.mp hv'
    exact (hv d (by simp [hd])).1

end Verif
