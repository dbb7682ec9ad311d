import Verif.Model.Db
import Verif.Spec.Db
import Verif.Lemmas.ChunkCrash
namespace Verif
open List

/-! ### Labels::eq -/

theorem labelsEq_self (k : Labels) : labelsEq k k = some true := by
  induction k with
  | nil => rfl
  | cons a k ih => simp [labelsEq, ih]

theorem labelsEq_true {k k' : Labels} : labelsEq k k' = some true ↔ k <+: k' := by
  induction k generalizing k' with
  | nil => simp [labelsEq]
  | cons a k ih =>
    cases k' with
    | nil => simp [labelsEq]
    | cons b k' =>
      simp only [labelsEq]
      by_cases h : a = b
      · rw [if_pos h, ih]; subst h; exact (List.prefix_cons_inj a).symm
      · rw [if_neg h]
        constructor
        · intro h'; cases h'
        · intro h'; exact absurd (List.cons_prefix_cons.mp h').1 h

theorem labelsEq_none {k k' : Labels} : labelsEq k k' = none ↔ k' <+: k ∧ k' ≠ k := by
  induction k generalizing k' with
  | nil =>
    simp only [labelsEq]
    constructor
    · intro h; cases h
    · rintro ⟨h, hne⟩; exact absurd (List.prefix_nil.mp h) hne
  | cons a k ih =>
    cases k' with
    | nil => simp [labelsEq]
    | cons b k' =>
      simp only [labelsEq]
      by_cases h : a = b
      · rw [if_pos h, ih]; subst h
        rw [List.prefix_cons_inj a]
        constructor
        · rintro ⟨h1, h2⟩; exact ⟨h1, fun e => h2 (List.cons.inj e).2⟩
        · rintro ⟨h1, h2⟩; exact ⟨h1, fun e => h2 (by rw [e])⟩
      · rw [if_neg h]
        constructor
        · intro h'; cases h'
        · rintro ⟨h', -⟩; exact absurd (List.cons_prefix_cons.mp h').1.symm h

/-! ### The map -/

/-- Keys that are compared are equal or not prefixes of one another. -/
def Hash.Good (H : Hash) (K : Labels → Prop) : Prop :=
  ∀ k k', K k → K k' → H.tag k k' = true → ¬ ProperPrefix k k' ∧ ¬ ProperPrefix k' k

theorem labelsEq_good {H : Hash} {K : Labels → Prop} (hg : H.Good K) {k k' : Labels} (hk : K k) (hk' : K k') (ht : H.tag k k' = true) :
    labelsEq k k' = some (decide (k = k')) := by
  obtain ⟨h1, h2⟩ := hg k k' hk hk' ht
  by_cases h : k = k'
  · subst h; simp [labelsEq_self]
  · rcases he : labelsEq k k' with _ | b
    · rw [labelsEq_none] at he; exact absurd ⟨he.1, he.2⟩ h2
    · cases b with
      | true => rw [labelsEq_true] at he; exact absurd ⟨he, h⟩ h1
      | false => simp [h]

theorem scan_good {H : Hash} {K : Labels → Prop} (hg : H.Good K) {k : Labels} (hk : K k) (ks : List Labels) (hks : ∀ k' ∈ ks, K k') :
    H.scan k ks = some (if k ∈ ks then some k else none) := by
  induction ks with
  | nil => rfl
  | cons k' ks ih =>
    have ih := ih (fun x hx => hks x (by simp [hx]))
    rw [Hash.scan]
    by_cases ht : H.tag k k' = true
    · rw [if_pos ht, labelsEq_good hg hk (hks k' (by simp)) ht]
      by_cases h : k = k'
      · subst h; simp
      · simp only [h, decide_false]
        rw [ih]; simp [h]
    · rw [if_neg ht, ih]
      have h : k ≠ k' := by intro e; rw [e] at ht; exact ht (H.refl k')
      simp [h]

theorem find_good {H : Hash} {K : Labels → Prop} (hg : H.Good K) {k : Labels} (hk : K k) (m : HMap) (hm : ∀ e ∈ m, K e.1) :
    m.find H k = some (if k ∈ m.map (·.1) then some k else none) := by
  unfold HMap.find
  have hp := H.perm (m.map (·.1))
  rw [scan_good hg hk]
  · simp only [hp.mem_iff]
  · intro k' hk'
    obtain ⟨e, he, rfl⟩ := List.mem_map.mp (hp.mem_iff.mp hk')
    exact hm e he

/-- The map holds these values. -/
structure Holds (K : Labels → Prop) (f : Labels → Option (List TimePoint)) (m : HMap) : Prop where
  nodup : (m.map (·.1)).Nodup
  keys : ∀ e ∈ m, K e.1
  vals : ∀ k v, (k, v) ∈ m ↔ f k = some v

theorem Holds.mem_keys {K : Labels → Prop} {f : Labels → Option (List TimePoint)} {m : HMap} (h : Holds K f m) (k : Labels) :
    k ∈ m.map (·.1) ↔ f k ≠ none := by
  constructor
  · intro hk
    obtain ⟨e, he, rfl⟩ := List.mem_map.mp hk
    rw [(h.vals e.1 e.2).mp he]; simp
  · intro hk
    obtain ⟨v, hv⟩ := Option.ne_none_iff_exists'.mp hk
    exact List.mem_map.mpr ⟨(k, v), (h.vals k v).mpr hv, rfl⟩

theorem Holds.modify {K : Labels → Prop} {f : Labels → Option (List TimePoint)} {m : HMap} (h : Holds K f m) (k : Labels)
    (g : List TimePoint → List TimePoint) : Holds K (fun x => if x = k then (f k).map g else f x) (m.modify k g) := by
  have hkeys : (m.modify k g).map (·.1) = m.map (·.1) := by
    unfold HMap.modify; rw [List.map_map]; apply List.map_congr_left; intro e _; simp only [Function.comp]; split <;> rfl
  refine ⟨by rw [hkeys]; exact h.nodup, ?_, ?_⟩
  · intro e he
    have : e.1 ∈ (m.modify k g).map (·.1) := List.mem_map_of_mem he
    rw [hkeys] at this
    obtain ⟨e', he', e0⟩ := List.mem_map.mp this
    rw [← e0]; exact h.keys e' he'
  · intro x v
    unfold HMap.modify
    simp only [List.mem_map]
    constructor
    · rintro ⟨e, he, e1⟩
      have h1 := (h.vals e.1 e.2).mp he
      by_cases hx : e.1 = k
      · rw [if_pos hx] at e1
        cases e1
        rw [if_pos hx, ← hx, h1]; rfl
      · rw [if_neg hx] at e1
        subst e1
        rw [if_neg hx]; exact h1
    · intro hx
      by_cases hxk : x = k
      · rw [if_pos hxk] at hx
        obtain ⟨u, hu, e⟩ := Option.map_eq_some_iff.mp hx
        refine ⟨(k, u), (h.vals k u).mpr hu, ?_⟩
        simp [e, hxk]
      · rw [if_neg hxk] at hx
        exact ⟨(x, v), (h.vals x v).mpr hx, by simp [hxk]⟩

theorem Holds.add {K : Labels → Prop} {f : Labels → Option (List TimePoint)} {m : HMap} (h : Holds K f m) {k : Labels} (hk : K k)
    (hn : f k = none) (v : List TimePoint) : Holds K (fun x => if x = k then some v else f x) (m ++ [(k, v)]) := by
  have hnot : k ∉ m.map (·.1) := by rw [h.mem_keys]; simp [hn]
  refine ⟨?_, ?_, ?_⟩
  · rw [List.map_append, List.nodup_append]
    refine ⟨h.nodup, by simp, ?_⟩
    intro a ha b hb e
    simp only [List.map_cons, List.map_nil, List.mem_singleton] at hb
    exact hnot (by rw [← hb, ← e]; exact ha)
  · intro e he
    rcases List.mem_append.mp he with he | he
    · exact h.keys e he
    · rw [List.mem_singleton.mp he]; exact hk
  · intro x u
    rw [List.mem_append, h.vals, List.mem_singleton]
    by_cases hx : x = k
    · subst hx; simp [hn, eq_comm]
    · simp [hx]

theorem Holds.insert {H : Hash} {K : Labels → Prop} (hg : H.Good K) {f : Labels → Option (List TimePoint)} {m : HMap} (h : Holds K f m)
    {k : Labels} (hk : K k) (v : List TimePoint) : ∃ m', m.insert H k v = some m' ∧ Holds K (fun x => if x = k then some v else f x) m' := by
  unfold HMap.insert
  rw [find_good hg hk m h.keys]
  by_cases hm : k ∈ m.map (·.1)
  · rw [if_pos hm]
    refine ⟨_, rfl, ?_⟩
    have hn := (h.mem_keys k).mp hm
    have := h.modify k fun _ => v
    rcases hfk : f k with _ | u
    · exact absurd hfk hn
    · rw [hfk] at this; exact this
  · rw [if_neg hm]
    refine ⟨_, rfl, h.add hk ?_ v⟩
    by_contra hn
    exact hm ((h.mem_keys k).mpr hn)

theorem Holds.append {H : Hash} {K : Labels → Prop} (hg : H.Good K) {f : Labels → Option (List TimePoint)} {m : HMap} (h : Holds K f m)
    {k : Labels} (hk : K k) (v : List TimePoint) :
    ∃ m', m.append H k v = some m' ∧ Holds K (fun x => if x = k then some ((f k).getD [] ++ v) else f x) m' := by
  unfold HMap.append
  rw [find_good hg hk m h.keys]
  by_cases hm : k ∈ m.map (·.1)
  · rw [if_pos hm]
    refine ⟨_, rfl, ?_⟩
    have hn := (h.mem_keys k).mp hm
    have := h.modify k (· ++ v)
    rcases hfk : f k with _ | u
    · exact absurd hfk hn
    · rw [hfk] at this; exact this
  · rw [if_neg hm]
    simp only []
    have hfk : f k = none := by
      by_contra hn
      exact hm ((h.mem_keys k).mpr hn)
    obtain ⟨m', h1, h2⟩ := h.insert hg hk v
    refine ⟨m', h1, ?_⟩
    rw [hfk]; exact h2

/-! ### Adding the series of one chunk -/

/-- What one more chunk result (older than all before) adds. -/
def addOlder (f : Labels → Option (List TimePoint)) (ss : List Series) : Labels → Option (List TimePoint) := fun ls =>
  if (ss.filter fun s => decide (s.labels = ls)) = [] then f ls
  else some ((f ls).getD [] ++ (ss.filter fun s => decide (s.labels = ls)).flatMap fun s => s.points.reverse)

theorem addOlder_nil (f : Labels → Option (List TimePoint)) : addOlder f [] = f := by
  funext ls; simp [addOlder]

theorem addOlder_cons (f : Labels → Option (List TimePoint)) (s : Series) (ss : List Series) :
    addOlder f (s :: ss) = addOlder (fun x => if x = s.labels then some ((f s.labels).getD [] ++ s.points.reverse) else f x) ss := by
  funext ls
  unfold addOlder
  by_cases h : s.labels = ls
  · subst h
    simp only [List.filter_cons, decide_true, if_true]
    by_cases h0 : (ss.filter fun x => decide (x.labels = s.labels)) = []
    · simp [h0]
    · simp [h0, List.append_assoc]
  · have h' : ¬ ls = s.labels := fun e => h e.symm
    simp [List.filter_cons, h, h']

theorem addSeries_append {H : Hash} {K : Labels → Prop} (hg : H.Good K) (ss : List Series) (hK : ∀ s ∈ ss, K s.labels)
    {f : Labels → Option (List TimePoint)} {m : HMap} (h : Holds K f m) :
    ∃ m', addSeries (HMap.append H) m ss = some m' ∧ Holds K (addOlder f ss) m' := by
  induction ss generalizing f m with
  | nil => exact ⟨m, rfl, by rw [addOlder_nil]; exact h⟩
  | cons s ss ih =>
    obtain ⟨m1, e1, h1⟩ := h.append hg (hK s (by simp)) s.points.reverse
    obtain ⟨m2, e2, h2⟩ := ih (fun x hx => hK x (by simp [hx])) h1
    refine ⟨m2, ?_, ?_⟩
    · rw [addSeries, e1]; exact e2
    · rw [addOlder_cons]; exact h2

theorem addSeries_insert {H : Hash} {K : Labels → Prop} (hg : H.Good K) (ss : List Series) (hK : ∀ s ∈ ss, K s.labels)
    (hd : (ss.map (·.labels)).Nodup) {f : Labels → Option (List TimePoint)} {m : HMap} (h : Holds K f m)
    (hf : ∀ s ∈ ss, f s.labels = none) :
    ∃ m', addSeries (HMap.insert H) m ss = some m' ∧ Holds K (addOlder f ss) m' := by
  induction ss generalizing f m with
  | nil => exact ⟨m, rfl, by rw [addOlder_nil]; exact h⟩
  | cons s ss ih =>
    rw [List.map_cons, List.nodup_cons] at hd
    obtain ⟨m1, e1, h1⟩ := h.insert hg (hK s (by simp)) s.points.reverse
    have hs := hf s (by simp)
    have hne : ∀ x ∈ ss, x.labels ≠ s.labels := fun x hx e => hd.1 (by rw [← e]; exact List.mem_map_of_mem hx)
    obtain ⟨m2, e2, h2⟩ := ih (fun x hx => hK x (by simp [hx])) hd.2 h1 (by
      intro x hx
      simp only [hne x hx, if_false]
      exact hf x (by simp [hx]))
    refine ⟨m2, ?_, ?_⟩
    · rw [addSeries, e1]; exact e2
    · rw [addOlder_cons, hs]; exact h2

/-- The value of the map after chunk results given newest first. -/
def stacked : List (List Series) → (Labels → Option (List TimePoint)) → Labels → Option (List TimePoint)
  | [], f => f
  | r :: rs, f => stacked rs (addOlder f r)

theorem flatMap_reverse_points (l : List Series) : (l.flatMap fun s => s.points.reverse) = (l.reverse.flatMap (·.points)).reverse := by
  induction l with
  | nil => rfl
  | cons s l ih => simp [ih]

/-- With at most one series per chunk and label set the stacked value is the reversed merge. -/
theorem stacked_eq (rs : List (List Series)) (hd : ∀ r ∈ rs, (r.map (·.labels)).Nodup) (f : Labels → Option (List TimePoint)) (ls : Labels) :
    stacked rs f ls = if seriesWith rs.reverse ls = [] then f ls else some ((f ls).getD [] ++ (mergedPoints rs.reverse ls).reverse) := by
  induction rs generalizing f with
  | nil => simp [stacked, seriesWith]
  | cons r rs ih =>
    rw [stacked, ih (fun x hx => hd x (by simp [hx]))]
    have hone : (r.filter fun s => decide (s.labels = ls)).length ≤ 1 := by
      have hr := hd r (by simp)
      clear ih hd
      induction r with
      | nil => simp
      | cons s r ih =>
        rw [List.map_cons, List.nodup_cons] at hr
        rw [List.filter_cons]
        split
        · rename_i h
          simp only [decide_eq_true_eq] at h
          have : (r.filter fun s => decide (s.labels = ls)) = [] := by
            rw [List.filter_eq_nil_iff]
            intro x hx hx'
            simp only [decide_eq_true_eq] at hx'
            exact hr.1 (by rw [h, ← hx']; exact List.mem_map_of_mem hx)
          simp [this]
        · exact ih hr.2
    have e1 : seriesWith (r :: rs).reverse ls = seriesWith rs.reverse ls ++ r.filter fun s => decide (s.labels = ls) := by
      simp [seriesWith]
    unfold mergedPoints
    rw [e1]
    unfold addOlder
    have hlist : (r.filter fun s => decide (s.labels = ls)) = [] ∨ ∃ s, (r.filter fun s => decide (s.labels = ls)) = [s] := by
      rcases hh : (r.filter fun s => decide (s.labels = ls)) with _ | ⟨s, _ | ⟨t, l⟩⟩
      · exact Or.inl hh
      · exact Or.inr ⟨s, hh⟩
      · rw [hh] at hone; simp at hone
    rcases hlist with h0 | ⟨s, h0⟩
    · simp [h0]
    · by_cases h1 : seriesWith rs.reverse ls = []
      · simp [h0, h1]
      · simp [h0, h1]

/-! ### The whole query -/

theorem collectKeys_good {H : Hash} {K : Labels → Prop} (hg : H.Good K) {f : Labels → Option (List TimePoint)} {m : HMap} (h : Holds K f m)
    (ks : List Labels) (hks : ∀ k ∈ ks, k ∈ m.map (·.1)) :
    collectKeys H m ks = some (ks.map fun k => (k, ((f k).getD []).reverse)) := by
  induction ks with
  | nil => rfl
  | cons k ks ih =>
    have hk := hks k (by simp)
    obtain ⟨e, he, rfl⟩ := List.mem_map.mp hk
    rw [collectKeys, find_good hg (h.keys e he) m h.keys, if_pos hk]
    simp only []
    have hfd : m.find? (fun x => decide (x.1 = e.1)) = some e := by
      rcases hx : m.find? (fun x => decide (x.1 = e.1)) with _ | x
      · rw [List.find?_eq_none] at hx
        exact absurd (by simp) (hx e he)
      · have h1 := List.mem_of_find?_eq_some hx
        have h2 : x.1 = e.1 := by simpa using List.find?_some hx
        have h3 := (h.vals x.1 x.2).mp h1
        have h4 := (h.vals e.1 e.2).mp he
        rw [h2, h4] at h3
        have : x = e := Prod.ext h2 (Option.some.inj h3).symm
        rw [hx, this]
    rw [hfd, ih (fun x hx => hks x (by simp [hx]))]
    have := (h.vals e.1 e.2).mp he
    simp [this]

theorem querySecondary_spec {H : Hash} {K : Labels → Prop} (hg : H.Good K) {q : Labels} {a b : U64} (vs : List View)
    (hp : ∀ v ∈ vs, v.within a b = true → v.query q a b ≠ .panic)
    (hK : ∀ v ∈ vs, ∀ s ∈ okSeries (v.query q a b), K s.labels)
    {f : Labels → Option (List TimePoint)} {m : HMap} (h : Holds K f m) :
    ∃ m', querySecondary H q a b vs m = some m' ∧
      Holds K (stacked (vs.map fun v => if v.within a b then okSeries (v.query q a b) else []) f) m' := by
  induction vs generalizing f m with
  | nil => exact ⟨m, rfl, h⟩
  | cons v vs ih =>
    have ih' := fun {f : Labels → Option (List TimePoint)} {m : HMap} (h : Holds K f m) =>
      ih (fun x hx => hp x (by simp [hx])) (fun x hx => hK x (by simp [hx])) h
    have hnil : ∀ f, addOlder f [] = f := by intro f; funext ls; simp [addOlder]
    rw [querySecondary, List.map_cons, stacked]
    by_cases hw : v.within a b = true
    · rw [if_pos hw, if_pos hw]
      have h1 := hp v (by simp) hw
      have h2 := hK v (by simp)
      rcases hr : v.query q a b with ss | e | _
      · rw [hr] at h2
        obtain ⟨m1, e1, h3⟩ := addSeries_append hg ss h2 h
        obtain ⟨m2, e2, h4⟩ := ih' h3
        simp only [e1]
        exact ⟨m2, e2, h4⟩
      · obtain ⟨m2, e2, h4⟩ := ih' h
        refine ⟨m2, e2, ?_⟩
        show Holds K (stacked _ (addOlder f [])) m2
        rw [hnil]; exact h4
      · exact absurd hr h1
    · obtain ⟨m2, e2, h4⟩ := ih' h
      rw [if_neg hw, if_neg hw]
      refine ⟨m2, e2, ?_⟩
      rw [hnil]; exact h4

/-- The chunk results a database query uses, oldest chunk first. -/
def usedResults (cur : View) (secondary : List View) (q : Labels) (a b : U64) : ChunkResults :=
  (secondary.map fun v => if v.within a b then okSeries (v.query q a b) else []) ++ [okSeries (cur.query q a b)]

theorem dbQuery_merge (H : Hash) (cur : View) (secondary : List View) (q : Labels) (a b : U64)
    (hp : cur.query q a b ≠ .panic) (hps : ∀ v ∈ secondary, v.within a b = true → v.query q a b ≠ .panic)
    {K : Labels → Prop} (hg : H.Good K)
    (hK : ∀ v ∈ cur :: secondary, ∀ s ∈ okSeries (v.query q a b), K s.labels)
    (hd : DistinctPerChunk (usedResults cur secondary q a b)) :
    ∃ r, dbQuery H cur secondary q a b = .ok r ∧ IsMerge (usedResults cur secondary q a b) r := by
  have h0 : Holds K (fun _ => none) [] := ⟨List.nodup_nil, by simp, by simp⟩
  have hcur : ∃ m, queryCurrent H cur q a b = some m ∧ Holds K (addOlder (fun _ => none) (okSeries (cur.query q a b))) m := by
    unfold queryCurrent
    have h2 := hK cur (by simp)
    have h3 := hd (okSeries (cur.query q a b)) (by simp [usedResults])
    rcases hr : cur.query q a b with ss | e | _
    · rw [hr] at h2 h3
      exact addSeries_insert hg ss h2 h3 h0 (by simp)
    · exact ⟨[], rfl, by show Holds K (addOlder _ []) []; rw [addOlder_nil]; exact h0⟩
    · exact absurd hr hp
  obtain ⟨m, e1, h1⟩ := hcur
  obtain ⟨m', e2, h2⟩ := querySecondary_spec hg secondary.reverse (fun v hv => hps v (by simpa using hv))
    (fun v hv => hK v (by simp only [List.mem_reverse] at hv; simp [hv])) h1
  have hrev : ((okSeries (cur.query q a b)) :: secondary.reverse.map fun v => if v.within a b then okSeries (v.query q a b) else []).reverse =
      usedResults cur secondary q a b := by
    simp [usedResults, List.map_reverse]
  have hval : ∀ ls, stacked (secondary.reverse.map fun v => if v.within a b then okSeries (v.query q a b) else [])
      (addOlder (fun _ => none) (okSeries (cur.query q a b))) ls =
      if seriesWith (usedResults cur secondary q a b) ls = [] then none else some (mergedPoints (usedResults cur secondary q a b) ls).reverse := by
    intro ls
    have := stacked_eq ((okSeries (cur.query q a b)) :: secondary.reverse.map fun v => if v.within a b then okSeries (v.query q a b) else [])
      (by
        intro r hr
        apply hd
        rw [← hrev]
        exact List.mem_reverse.mpr hr) (fun _ => none) ls
    rw [hrev] at this
    simpa [stacked] using this
  have hk : ∀ k, k ∈ H.order (m'.map (·.1)) ↔ seriesWith (usedResults cur secondary q a b) k ≠ [] := by
    intro k
    rw [(H.perm _).mem_iff, h2.mem_keys, hval]
    by_cases hs : seriesWith (usedResults cur secondary q a b) k = [] <;> simp [hs]
  refine ⟨(H.order (m'.map (·.1))).map fun k => (k, mergedPoints (usedResults cur secondary q a b) k), ?_, ?_, ?_⟩
  · unfold dbQuery
    simp only [e1, e2]
    rw [collectKeys_good hg h2 _ (fun k hk => (H.perm _).mem_iff.mp hk)]
    simp only [Res.ofPanic, Res.ok.injEq]
    apply List.map_congr_left
    intro k hk'
    rw [hval, if_neg ((hk k).mp hk')]
    simp
  · rw [List.map_map]
    have : ((fun x : Labels × List TimePoint => x.1) ∘ fun k => (k, mergedPoints (usedResults cur secondary q a b) k)) = id := rfl
    rw [this, List.map_id]
    exact (H.perm _).nodup_iff.mpr h2.nodup
  · intro ls ps
    simp only [List.mem_map, Prod.mk.injEq]
    constructor
    · rintro ⟨k, hk', rfl, rfl⟩; exact ⟨(hk k).mp hk', rfl⟩
    · rintro ⟨h1, h2⟩; exact ⟨ls, (hk ls).mpr h1, rfl, h2.symm⟩

end Verif
