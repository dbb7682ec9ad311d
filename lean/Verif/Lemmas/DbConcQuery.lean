import Verif.Lemmas.DbConc
/-! A query among concurrent calls: what it finds. -/
namespace Verif
open List

/-! ### Growth -/

/-- The second state is later. -/
structure Grow (c c' : Conf SledStores) : Prop where
  log : c.log <+: c'.log
  cur : c.current ≤ c'.current
  win : ∀ i ≤ c.current, winOf c'.heap i = winOf c.heap i

theorem Grow.refl (c : Conf SledStores) : Grow c c := ⟨List.prefix_refl _, le_refl _, fun _ _ => rfl⟩
theorem Grow.trans {a b c : Conf SledStores} (h1 : Grow a b) (h2 : Grow b c) : Grow a c :=
  ⟨h1.log.trans h2.log, h1.cur.trans h2.cur, fun i hi => (h2.win i (hi.trans h1.cur)).trans (h1.win i hi)⟩
theorem Grow.same {c c' : Conf SledStores} (h1 : c'.heap = c.heap) (h2 : c'.current = c.current) (h3 : c'.log = c.log) : Grow c c' :=
  ⟨by rw [h3]; exact List.prefix_refl _, by rw [h2], fun i _ => by rw [h1]⟩

theorem step_grow {B : BinSearch} {H : Hash} {progs : Nat → List DbOp} (hf : FineProgs progs) {n : Nat} (hbig : n + 1 < 2 ^ 64 - 1)
    {c : Conf SledStores} (h : DInv B progs n c) (t : Nat) : Grow c (c.step (sledComp B) H ⟨KV.empty, KV.empty⟩ t) := by
  obtain ⟨k, hk⟩ := h.getCur
  unfold Conf.step
  rcases hn : (c.threads t).now with _ | ph
  · unfold Conf.begin
    rw [hk]
    rcases (c.threads t).todo with _ | ⟨op, todo⟩
    · exact Grow.refl c
    · rcases op <;> exact Grow.same rfl rfl rfl
  · rcases ph with ⟨ls, ps, rest, f⟩ | ⟨q, a, b⟩ | ⟨q, a, b, m⟩ | ⟨q, a, b, ids, m⟩ | ⟨lo, hi⟩ | ⟨lo, hi⟩
    · show Grow c (c.stepWrite (sledComp B) t ls ps rest f)
      obtain ⟨hop, -⟩ := (h.thr t).writing ls ps rest f hn
      unfold Conf.stepWrite
      rw [hk]
      rcases rest with _ | ⟨p, rest⟩
      · exact Grow.same rfl rfl rfl
      · have hlen : (histOf c.log c.current).length + 1 < 2 ^ 64 - 1 := by
          have := histOf_length c.log c.current; have := h.count; omega
        have hins := (h.rep c.current k hk).insert hlen (hf.wf t ls ps hop) p
        by_cases hi0 : inside k.start_ k.end_ p
        · rw [if_pos hi0] at hins
          obtain ⟨hok, hrep, -⟩ := hins
          rcases hkk : k.insert (sledComp B) ls p with ⟨r, k'⟩
          rw [hkk] at hok hrep
          simp only at hok hrep
          subst hok
          simp only [hkk]
          exact ⟨List.prefix_append _ _, le_refl _, fun i _ => congrFun (win_set hk hrep.start_ hrep.end_) i⟩
        · rw [if_neg hi0] at hins
          simp only [hins]
          exact ⟨List.prefix_refl _, le_refl _, fun i _ => congrFun (win_set hk rfl rfl) i⟩
    · show Grow c (c.stepQ1 (sledComp B) H t q a b)
      unfold Conf.stepQ1
      rw [hk]
      simp only []
      split <;> exact Grow.same rfl rfl rfl
    · exact Grow.same rfl rfl rfl
    · show Grow c (c.stepQ3 (sledComp B) H t q a b ids m)
      unfold Conf.stepQ3
      rcases ids with _ | ⟨i, ids⟩
      · exact Grow.same rfl rfl rfl
      · simp only []
        rcases c.heap[i]? with _ | k
        · exact Grow.refl c
        · simp only []
          split <;> exact Grow.same rfl rfl rfl
    · simp only []
      split <;> exact Grow.same rfl rfl rfl
    · show Grow c (c.stepS2 ⟨KV.empty, KV.empty⟩ t lo hi)
      unfold Conf.stepS2
      split
      · exact Grow.refl c
      · rw [hk]
        simp only []
        refine ⟨List.prefix_refl _, by show c.current ≤ c.heap.length; rw [h.len]; omega, ?_⟩
        intro i hi'
        refine winOf_push (k' := k.close.2) hk ?_ ?_ (show i < c.heap.length by rw [h.len]; omega)
        · unfold Chunk.close; split <;> rfl
        · unfold Chunk.close; split <;> rfl

theorem step_other {σ : Type} (C : Comp σ) (H : Hash) (fresh : σ) (c : Conf σ) {t u : Nat} (hu : u ≠ t) :
    (c.step C H fresh t).threads u = c.threads u := by
  have e1 : ∀ (c : Conf σ) th, (c.setThread t th).threads u = c.threads u := by intro c th; simp [Conf.setThread, hu]
  have e2 : ∀ (c : Conf σ) ph, (c.goto t ph).threads u = c.threads u := fun c ph => e1 c _
  have e3 : ∀ (c : Conf σ) o, (c.finish t o).threads u = c.threads u := fun c o => e1 c _
  unfold Conf.step
  split
  · unfold Conf.begin
    split
    · rename_i op todo k _ _
      rcases op <;> simp only [e2] <;> exact e1 c _
    · rfl
  · unfold Conf.stepWrite
    split
    · rfl
    · split
      · simp only [e3]; rfl
      · split
        · simp only [e2]
        · simp only [e2]
        · simp only [e3]; rfl
  · unfold Conf.stepQ1
    split
    · rfl
    · split
      · simp only [e3]; rfl
      · simp only [e2]; rfl
  · simp only [e2]
  · unfold Conf.stepQ3
    split
    · simp only [e3]; rfl
    · split
      · rfl
      · split
        · simp only [e3]; rfl
        · simp only [e2]
  · split
    · rfl
    · simp only [e2]; rfl
  · unfold Conf.stepS2
    split
    · rfl
    · split
      · rfl
      · simp only [e3]

theorem step_done {σ : Type} (C : Comp σ) (H : Hash) (fresh : σ) (c : Conf σ) (t : Nat) :
    (c.threads t).done <+: ((c.step C H fresh t).threads t).done := by
  have e1 : ∀ (c : Conf σ) th, (c.setThread t th).threads t = th := by intro c th; simp [Conf.setThread]
  have e2 : ∀ (c : Conf σ) ph, ((c.goto t ph).threads t).done = (c.threads t).done := fun c ph => by unfold Conf.goto; rw [e1]
  have e3 : ∀ (c : Conf σ) o, ((c.finish t o).threads t).done = (c.threads t).done ++ [o] := fun c o => by unfold Conf.finish; rw [e1]
  unfold Conf.step
  split
  · unfold Conf.begin
    split
    · rename_i op todo k _ _
      rcases op <;> simp only [e2, e1] <;> exact List.prefix_refl _
    · exact List.prefix_refl _
  · unfold Conf.stepWrite
    split
    · exact List.prefix_refl _
    · split
      · rw [e3]; exact List.prefix_append _ _
      · split
        · rw [e2]; exact List.prefix_refl _
        · rw [e2]; exact List.prefix_refl _
        · rw [e3]; exact List.prefix_append _ _
  · unfold Conf.stepQ1
    split
    · exact List.prefix_refl _
    · split
      · rw [e3]; exact List.prefix_append _ _
      · rw [e2]; exact List.prefix_refl _
  · rw [e2]; exact List.prefix_refl _
  · unfold Conf.stepQ3
    split
    · rw [e3]; exact List.prefix_append _ _
    · split
      · exact List.prefix_refl _
      · split
        · rw [e3]; exact List.prefix_append _ _
        · rw [e2]; exact List.prefix_refl _
  · split
    · exact List.prefix_refl _
    · rw [e2]; exact List.prefix_refl _
  · unfold Conf.stepS2
    split
    · exact List.prefix_refl _
    · split
      · exact List.prefix_refl _
      · rw [e3]; exact List.prefix_append _ _

/-! ### Increasing series -/

theorem DInv.incr {B : BinSearch} {progs : Nat → List DbOp} {n : Nat} {c : Conf SledStores} (h : DInv B progs n c) (hs : SingleWriter progs)
    (i : Nat) (ls : Labels) : SIncr (keepBy sledAccepts (pointsFor (histOf c.log i) ls)) := by
  rw [keepBy_sled]
  obtain ⟨u, h1, h2⟩ := hs ls
  refine List.Pairwise.sublist ?_ h2
  have e1 : pointsFor (histOf c.log i) ls = (c.log.filter fun e => decide (e.chunk = i) && decide (e.labels.Perm ls)).map (·.point) := by
    unfold pointsFor histOf
    rw [List.filter_map, List.map_map, List.filter_filter]
    congr 1
    apply List.filter_congr
    intro e _
    exact Bool.and_comm _ _
  have e2 : pointsFor (byThread c.log u) ls = (c.log.filter fun e => decide (e.thread = u) && decide (e.labels.Perm ls)).map (·.point) := by
    unfold pointsFor byThread
    rw [List.filter_map, List.map_map, List.filter_filter]
    congr 1
    apply List.filter_congr
    intro e _
    exact Bool.and_comm _ _
  have e3 : pointsFor (histOf c.log i) ls <+ pointsFor (byThread c.log u) ls := by
    rw [e1, e2]
    have : (c.log.filter fun e => decide (e.chunk = i) && decide (e.labels.Perm ls)) =
        (c.log.filter fun e => decide (e.thread = u) && decide (e.labels.Perm ls)).filter fun e => decide (e.chunk = i) := by
      rw [List.filter_filter]
      apply List.filter_congr
      intro e he
      by_cases hp : e.labels.Perm ls
      · obtain ⟨ps, hm, -⟩ := h.own e he
        have := h1 e.thread e.labels ps hm hp
        simp [this, hp]
      · simp [hp]
    rw [this]
    exact List.filter_sublist.map _
  refine e3.trans ?_
  have h3 : byThread c.log u <+ progPoints (progs u) := (List.sublist_append_left _ _).trans (h.thr u).sub
  exact (h3.filter _).map _

/-! ### Answers of one chunk -/

theorem chunkAnswer_from {lo hi : U64} {h : Inserts} (hwf : ∀ w ∈ h, WFSet w.1) {q : Labels} {a b : U64} {s : Series}
    (hs : s ∈ (Desc.mk lo hi h).answer sledAccepts q a b) :
    (∃ w ∈ h, s.labels = sortLabels w.1) ∧ ∀ p ∈ s.points, (a.toNat ≤ p.ts.toNat ∧ p.ts.toNat ≤ b.toNat) ∧
      ∃ w ∈ h, w.2 = p ∧ sortLabels w.1 = s.labels ∧ (∃ l ∈ q, l ∈ w.1) ∧ ∀ l ∈ q, (∃ w' ∈ h, l ∈ w'.1) → l ∈ w.1 := by
  unfold Desc.answer at hs
  split at hs
  · unfold specQuery at hs
    split at hs
    · simp [okSeries] at hs
    · simp only [okSeries, restrict] at hs
      obtain ⟨x, hx, rfl⟩ := List.mem_map.mp (List.mem_filter.mp hs).1
      unfold matched at hx
      split at hx
      · simp at hx
      · rename_i hkn
        obtain ⟨y, hy, rfl⟩ := List.mem_map.mp hx
        obtain ⟨hy1, hy2⟩ := List.mem_filter.mp hy
        obtain ⟨w0, hw0, e0⟩ := labelSets_mem (number_mem hy1)
        refine ⟨⟨w0, hw0, by rw [e0]⟩, ?_⟩
        intro p hp
        have h1 := (List.mem_filter.mp hp).2
        simp only [Bool.and_eq_true, decide_eq_true_eq] at h1
        refine ⟨h1, ?_⟩
        have h2 := (List.mem_filter.mp hp).1
        rw [keepBy_sled] at h2
        obtain ⟨w, hw, ew⟩ := List.mem_map.mp h2
        obtain ⟨hw1, hw2⟩ := List.mem_filter.mp hw
        have hperm : w.1.Perm y.1 := by simpa using hw2
        rw [List.all_eq_true] at hy2
        have hk : ∀ l ∈ knownLabels (numbered h) q, l ∈ w.1 := fun l hl => hperm.mem_iff.mpr (by simpa using hy2 l hl)
        refine ⟨w, hw1, ew, sortLabels_perm_eq (hwf w hw1).distinct hperm, ?_, ?_⟩
        · obtain ⟨l, hl⟩ := List.exists_mem_of_ne_nil _ hkn
          exact ⟨l, (List.mem_filter.mp hl).1, hk l hl⟩
        · intro l hl ⟨w', hw', hlw⟩
          apply hk
          refine List.mem_filter.mpr ⟨hl, ?_⟩
          rw [List.any_eq_true]
          obtain ⟨ls', hls', hp'⟩ := labelSets_complete hw'
          rw [← number_fst (labelSets h)] at hls'
          obtain ⟨z, hz, rfl⟩ := List.mem_map.mp hls'
          exact ⟨z, hz, by simpa using hp'.mem_iff.mpr hlw⟩
  · simp at hs

theorem chunkAnswer_has {lo hi : U64} {h : Inserts} (hwf : ∀ w ∈ h, WFSet w.1) (hin : ∀ w ∈ h, inside lo hi w.2 = true) {q : Labels} {a b : U64}
    (ha : a.toNat ≤ lo.toNat) (hb : hi.toNat ≤ b.toNat) {w : Labels × TimePoint} (hw : w ∈ h) (hq : q ≠ []) (hqw : ∀ l ∈ q, l ∈ w.1) :
    ∃ s ∈ (Desc.mk lo hi h).answer sledAccepts q a b, s.labels = sortLabels w.1 ∧ w.2 ∈ s.points := by
  have hwin := hin w hw
  simp only [inside, Bool.and_eq_true, decide_eq_true_eq] at hwin
  have hov : overlaps lo hi a b = true := by
    simp only [overlaps, Bool.not_eq_true', Bool.or_eq_false_iff, decide_eq_false_iff_not]; omega
  obtain ⟨ls', hls', hperm⟩ := labelSets_complete hw
  rw [← number_fst (labelSets h)] at hls'
  obtain ⟨y, hy, rfl⟩ := List.mem_map.mp hls'
  have hkn : ∀ l ∈ q, l ∈ knownLabels (numbered h) q := by
    intro l hl
    refine List.mem_filter.mpr ⟨hl, ?_⟩
    rw [List.any_eq_true]
    exact ⟨y, hy, by simpa using hperm.mem_iff.mpr (hqw l hl)⟩
  have hpts : ∀ z ∈ numbered h, ∀ p ∈ pointsFor h z.1, a.toNat ≤ p.ts.toNat ∧ p.ts.toNat ≤ b.toNat := by
    intro z _ p hp
    obtain ⟨w', hw', e⟩ := List.mem_map.mp hp
    have := hin w' (List.mem_filter.mp hw').1
    simp only [inside, Bool.and_eq_true, decide_eq_true_eq] at this
    rw [← e]; omega
  have hne : ∀ z ∈ numbered h, pointsFor h z.1 ≠ [] := by
    intro z hz e0
    obtain ⟨w', hw', e⟩ := labelSets_mem (number_mem hz)
    have : w'.2 ∈ pointsFor h z.1 := List.mem_map.mpr ⟨w', List.mem_filter.mpr ⟨hw', by rw [e]; simp⟩, rfl⟩
    rw [e0] at this; simp at this
  have hmem : ∀ x ∈ matched sledAccepts h q, ∃ z ∈ numbered h, x = ⟨z.2, sortLabels z.1, pointsFor h z.1⟩ := by
    intro x hx
    unfold matched at hx
    split at hx
    · simp at hx
    · obtain ⟨z, hz, rfl⟩ := List.mem_map.mp hx
      exact ⟨z, (List.mem_filter.mp hz).1, by rw [keepBy_sled]⟩
  have hout : (matched sledAccepts h q).find? (outside a b) = none := by
    rw [List.find?_eq_none]
    intro x hx
    obtain ⟨z, hz, rfl⟩ := hmem x hx
    unfold outside
    rcases h1 : (pointsFor h z.1).head? with _ | f
    · rw [List.head?_eq_none_iff] at h1; exact absurd h1 (hne z hz)
    · rcases h2 : (pointsFor h z.1).getLast? with _ | l
      · rw [List.getLast?_eq_none_iff] at h2; exact absurd h2 (hne z hz)
      · have a1 := hpts z hz f (List.mem_of_mem_head? h1)
        have a2 := hpts z hz l (List.mem_of_getLast? h2)
        simp only [h1, h2, Bool.or_eq_true, decide_eq_true_eq, not_or]
        omega
  have hyin : (⟨y.2, sortLabels y.1, pointsFor h y.1⟩ : Series) ∈ matched sledAccepts h q := by
    unfold matched
    rw [if_neg]
    · refine List.mem_map.mpr ⟨y, List.mem_filter.mpr ⟨hy, ?_⟩, by rw [keepBy_sled]⟩
      rw [List.all_eq_true]
      intro l hl
      have := (List.mem_filter.mp hl).1
      simpa using hperm.mem_iff.mpr (hqw l this)
    · intro e0
      obtain ⟨l, hl⟩ := List.exists_mem_of_ne_nil _ hq
      have := hkn l hl
      rw [e0] at this; simp at this
  have hp : w.2 ∈ pointsFor h y.1 := List.mem_map.mpr ⟨w, List.mem_filter.mpr ⟨hw, by simpa using hperm.symm⟩, rfl⟩
  have hp' : w.2 ∈ inRange (pointsFor h y.1) a b := by
    have := hpts y hy w.2 hp
    exact List.mem_filter.mpr ⟨hp, by simpa using this⟩
  refine ⟨⟨y.2, sortLabels y.1, inRange (pointsFor h y.1) a b⟩, ?_, ?_, hp'⟩
  · unfold Desc.answer
    rw [if_pos hov]
    unfold specQuery
    rw [hout]
    simp only [okSeries, restrict]
    refine List.mem_filter.mpr ⟨List.mem_map.mpr ⟨_, hyin, rfl⟩, ?_⟩
    simp only [decide_eq_true_eq]
    intro e0
    rw [e0] at hp'; simp at hp'
  · exact (sortLabels_perm_eq (hwf w hw).distinct hperm.symm).symm

/-! ### Contents of the map -/

/-- The map has this point under this key. -/
def HasF (f : Labels → Option (List TimePoint)) (k : Labels) (p : TimePoint) : Prop := ∃ v, f k = some v ∧ p ∈ v

theorem addOlder_keep {f : Labels → Option (List TimePoint)} {k : Labels} {p : TimePoint} (h : HasF f k p) (ss : List Series) : HasF (addOlder f ss) k p := by
  obtain ⟨v, h1, h2⟩ := h
  unfold addOlder
  by_cases hs : (ss.filter fun s => decide (s.labels = k)) = []
  · exact ⟨v, by simp only [hs, if_true]; exact h1, h2⟩
  · refine ⟨_, if_neg hs, ?_⟩
    rw [h1]; exact List.mem_append_left _ h2

theorem addOlder_new {f : Labels → Option (List TimePoint)} {ss : List Series} {s : Series} (hs : s ∈ ss) {p : TimePoint} (hp : p ∈ s.points) :
    HasF (addOlder f ss) s.labels p := by
  have hm : s ∈ ss.filter fun x => decide (x.labels = s.labels) := List.mem_filter.mpr ⟨hs, by simp⟩
  unfold addOlder
  have hne : (ss.filter fun x => decide (x.labels = s.labels)) ≠ [] := fun e => by rw [e] at hm; simp at hm
  refine ⟨_, if_neg hne, ?_⟩
  exact List.mem_append_right _ (List.mem_flatMap.mpr ⟨s, hm, List.mem_reverse.mpr hp⟩)

theorem addOlder_only {f : Labels → Option (List TimePoint)} {ss : List Series} {k : Labels} {p : TimePoint} (h : HasF (addOlder f ss) k p) :
    HasF f k p ∨ ∃ s ∈ ss, s.labels = k ∧ p ∈ s.points := by
  obtain ⟨v, h1, h2⟩ := h
  unfold addOlder at h1
  split at h1
  · exact Or.inl ⟨v, h1, h2⟩
  · cases h1
    rcases List.mem_append.mp h2 with h2 | h2
    · rcases hf : f k with _ | u
      · rw [hf] at h2; simp at h2
      · rw [hf] at h2; exact Or.inl ⟨u, hf, h2⟩
    · obtain ⟨s, hs, hp⟩ := List.mem_flatMap.mp h2
      obtain ⟨hs1, hs2⟩ := List.mem_filter.mp hs
      exact Or.inr ⟨s, hs1, by simpa using hs2, List.mem_reverse.mp hp⟩

/-! ### The query -/

/-- The point was accepted for this label set and lies in the range. -/
def FromLog (log : List Event) (a b : U64) (k : Labels) (p : TimePoint) : Prop :=
  (a.toNat ≤ p.ts.toNat ∧ p.ts.toNat ≤ b.toNat) ∧ ∃ e ∈ log, e.point = p ∧ sortLabels e.labels = k

theorem FromLog.mono {log log' : List Event} (h : log <+: log') {a b : U64} {k : Labels} {p : TimePoint} (hf : FromLog log a b k p) : FromLog log' a b k p :=
  ⟨hf.1, let ⟨e, he, h2⟩ := hf.2; ⟨e, h.subset he, h2⟩⟩

/-- A point the query has to find: accepted by chunk `i` before, with all the asked labels, and the range covers the
chunk's window. -/
def Target (c1 : Conf SledStores) (q : Labels) (a b : U64) (i : Nat) (k : Labels) (p : TimePoint) : Prop :=
  ∃ e ∈ c1.log, e.chunk = i ∧ e.point = p ∧ sortLabels e.labels = k ∧ (∀ l ∈ q, l ∈ e.labels) ∧
    ∃ w, winOf c1.heap i = some w ∧ a.toNat ≤ w.1.toNat ∧ w.2.toNat ≤ b.toNat

/-- The chunk's targets are in the map. -/
def CoveredF (c1 : Conf SledStores) (q : Labels) (a b : U64) (f : Labels → Option (List TimePoint)) (i : Nat) : Prop :=
  ∀ k p, Target c1 q a b i k p → HasF f k p

/-- Progress of the query of thread `t` that was the next call of an idle thread in state `c1`. -/
inductive QState (progs : Nat → List DbOp) (c1 : Conf SledStores) (q : Labels) (a b : U64) (k0 : Nat) (c : Conf SledStores) (th : Thread) : Prop
  | idle (rest : List DbOp) (h1 : th.done.length = k0) (h2 : th.now = none) (h3 : th.todo = .query q a b :: rest)
  | first (h1 : th.done.length = k0) (h2 : th.now = some (.q1 q a b))
  | between (m : HMap) (f : Labels → Option (List TimePoint)) (h1 : th.done.length = k0) (h2 : th.now = some (.q2 q a b m))
      (h3 : Holds (Written progs) f m) (h4 : ∀ k p, HasF f k p → FromLog c.log a b k p)
      (h5 : ∀ i ≤ c1.current, CoveredF c1 q a b f i ∨ i < c.current)
  | second (ids : List Nat) (m : HMap) (f : Labels → Option (List TimePoint)) (h1 : th.done.length = k0) (h2 : th.now = some (.q3 q a b ids m))
      (h3 : Holds (Written progs) f m) (h4 : ∀ k p, HasF f k p → FromLog c.log a b k p)
      (h5 : ∀ i ∈ ids, i ≤ c.current) (h6 : ∀ i ≤ c1.current, CoveredF c1 q a b f i ∨ i ∈ ids)
  | answered (r : List (Labels × List TimePoint)) (h1 : th.done[k0]? = some (.answered q a b (.ok r))) (h2 : (r.map (·.1)).Nodup)
      (h3 : ∀ e ∈ r, ∀ p ∈ e.2, FromLog c.log a b e.1 p)
      (h4 : ∀ i ≤ c1.current, ∀ k p, Target c1 q a b i k p → ∃ v, (k, v) ∈ r ∧ p ∈ v)

theorem QState.mono {progs : Nat → List DbOp} {c1 : Conf SledStores} {q : Labels} {a b : U64} {k0 : Nat} {c c' : Conf SledStores} {th : Thread}
    (h : QState progs c1 q a b k0 c th) (hg : Grow c c') : QState progs c1 q a b k0 c' th := by
  rcases h with ⟨rest, h1, h2, h3⟩ | ⟨h1, h2⟩ | ⟨m, f, h1, h2, h3, h4, h5⟩ | ⟨ids, m, f, h1, h2, h3, h4, h5, h6⟩ | ⟨r, h1, h2, h3, h4⟩
  · exact .idle rest h1 h2 h3
  · exact .first h1 h2
  · exact .between m f h1 h2 h3 (fun k p hp => (h4 k p hp).mono hg.log) (fun i hi => (h5 i hi).imp id fun x => lt_of_lt_of_le x hg.cur)
  · exact .second ids m f h1 h2 h3 (fun k p hp => (h4 k p hp).mono hg.log) (fun i hi => (h5 i hi).trans hg.cur) h6
  · exact .answered r h1 h2 (fun e he p hp => (h3 e he p hp).mono hg.log) h4

/-- What one chunk gives, at any moment after `c1`. -/
theorem chunk_gives {B : BinSearch} {progs : Nat → List DbOp} (hs : SingleWriter progs) {n : Nat} (hbig : n < 2 ^ 64 - 1)
    {c c1 : Conf SledStores} (h : DInv B progs n c) (hg : Grow c1 c) {q : Labels} (hq0 : q ≠ []) (hq : ∀ l ∈ q, WFLabel l) {a b : U64} (hab : a.toNat ≤ b.toNat)
    {i : Nat} {k : SChunk} (hk : c.heap[i]? = some k) :
    ∃ ss, (k.view (sledComp B)).query q a b ≠ .panic ∧ okSeries ((k.view (sledComp B)).query q a b) = ss ∧
      (if (k.view (sledComp B)).within a b then okSeries ((k.view (sledComp B)).query q a b) else []) = ss ∧
      (ss.map (·.labels)).Nodup ∧ (∀ s ∈ ss, Written progs s.labels) ∧ (∀ s ∈ ss, ∀ p ∈ s.points, FromLog c.log a b s.labels p) ∧
      (i ≤ c1.current → ∀ ky p, Target c1 q a b i ky p → ∃ s ∈ ss, s.labels = ky ∧ p ∈ s.points) := by
  have hhist : ∀ w ∈ histOf c.log i, ∃ e ∈ c.log, e.chunk = i ∧ (e.labels, e.point) = w := by
    intro w hw
    obtain ⟨e, he, rfl⟩ := List.mem_map.mp hw
    obtain ⟨he1, he2⟩ := List.mem_filter.mp he
    exact ⟨e, he1, by simpa using he2, rfl⟩
  have hwf : ∀ w ∈ histOf c.log i, WFSet w.1 := by
    intro w hw
    obtain ⟨e, he, -, rfl⟩ := hhist w hw
    exact (h.ev e he).1
  have hin : ∀ w ∈ histOf c.log i, inside k.start_ k.end_ w.2 = true := by
    intro w hw
    obtain ⟨e, he, hc, rfl⟩ := hhist w hw
    exact (h.ev e he).2.2 (k.start_, k.end_) (by rw [hc]; simp [winOf, hk])
  have hlen : (histOf c.log i).length < 2 ^ 64 - 1 := by have := histOf_length c.log i; have := h.count; omega
  obtain ⟨v1, v2, v3⟩ := view_answer (d := ⟨k.start_, k.end_, histOf c.log i⟩) (h.rep i k hk) hlen hwf (h.incr hs i) hq hab
  refine ⟨_, v1, v2, v3, answer_nodup _ _ _ _ _, ?_, ?_, ?_⟩
  · intro s hs'
    obtain ⟨⟨w, hw, e⟩, -⟩ := chunkAnswer_from hwf hs'
    obtain ⟨ev, hev, -, rfl⟩ := hhist w hw
    obtain ⟨ps, hps, -⟩ := h.own ev hev
    exact ⟨ev.thread, ev.labels, ps, hps, e⟩
  · intro s hs' p hp
    obtain ⟨hr, w, hw, e1, e2, -⟩ := (chunkAnswer_from hwf hs').2 p hp
    obtain ⟨ev, hev, -, rfl⟩ := hhist w hw
    exact ⟨hr, ev, hev, e1, e2⟩
  · intro hi ky p ⟨e, he, hc, hp, hky, hql, w, hw, hwa, hwb⟩
    have hw' := hg.win i hi
    rw [hw] at hw'
    have : w = (k.start_, k.end_) := by simp [winOf, hk] at hw'; exact hw'.symm
    subst this
    have hmem : (e.labels, e.point) ∈ histOf c.log i := List.mem_map.mpr ⟨e, List.mem_filter.mpr ⟨hg.log.subset he, by simpa using hc⟩, rfl⟩
    obtain ⟨s, hs1, hs2, hs3⟩ := chunkAnswer_has hwf hin hwa hwb hmem hq0 hql
    exact ⟨s, hs1, by rw [hs2, hky], by rw [← hp]; exact hs3⟩

theorem holds_empty (K : Labels → Prop) : Holds K (fun _ => none) [] := ⟨by simp, by simp, by simp⟩

theorem qstate_step {B : BinSearch} {H : Hash} {progs : Nat → List DbOp} (hf : FineProgs progs) (hs : SingleWriter progs)
    (hH : H.Good (Written progs)) {n : Nat} (hbig : n + 1 < 2 ^ 64 - 1) {c c1 : Conf SledStores} (h : DInv B progs n c) (hg : Grow c1 c)
    {q : Labels} (hq0 : q ≠ []) (hq : ∀ l ∈ q, WFLabel l) {a b : U64} (hab : a.toNat ≤ b.toNat) {k0 : Nat} {t : Nat}
    (hst : QState progs c1 q a b k0 c (c.threads t)) (t' : Nat) :
    QState progs c1 q a b k0 (c.step (sledComp B) H ⟨KV.empty, KV.empty⟩ t') ((c.step (sledComp B) H ⟨KV.empty, KV.empty⟩ t').threads t) := by
  have hgs := step_grow hf hbig h t' (H := H)
  by_cases ht : t = t'
  · subst ht
    obtain ⟨k, hk⟩ := h.getCur
    rcases hst with ⟨rest, h1, h2, h3⟩ | ⟨h1, h2⟩ | ⟨m, f, h1, h2, h3, h4, h5⟩ | ⟨ids, m, f, h1, h2, h3, h4, h5, h6⟩ | ⟨r, h1, h2, h3, h4⟩
    · refine .first ?_ ?_ <;> simp [Conf.step, h2, Conf.begin, h3, hk, Conf.goto, Conf.setThread, h1]
    · obtain ⟨ss, p1, p2, -, p3, p4, p5, p6⟩ := chunk_gives hs (by omega) h hg hq0 hq hab hk
      have hstep : c.step (sledComp B) H ⟨KV.empty, KV.empty⟩ t = c.stepQ1 (sledComp B) H t q a b := by simp [Conf.step, h2]
      have hok : ∃ m f, queryCurrent H (k.view (sledComp B)) q a b = some m ∧ Holds (Written progs) f m ∧
          (∀ ky p, HasF f ky p → ∃ s ∈ ss, s.labels = ky ∧ p ∈ s.points) ∧ ∀ s ∈ ss, ∀ p ∈ s.points, HasF f s.labels p := by
        unfold queryCurrent
        rcases hqr : (k.view (sledComp B)).query q a b with x | e | _
        · rw [hqr] at p2
          have p2' : x = ss := p2
          subst p2'
          obtain ⟨m, e1, e2⟩ := addSeries_insert hH x p4 p3 (holds_empty _) (fun _ _ => rfl)
          refine ⟨m, _, e1, e2, ?_, fun s hs' p hp => addOlder_new hs' hp⟩
          intro ky p hp
          rcases addOlder_only hp with ⟨v, hv, -⟩ | h'
          · cases hv
          · exact h'
        · rw [hqr] at p2
          have p2' : ss = [] := p2.symm
          subst p2'
          exact ⟨[], fun _ => none, rfl, holds_empty _, fun ky p ⟨v, hv, _⟩ => (by cases hv), by simp⟩
        · exact absurd hqr p1
      obtain ⟨m, f, hm, hh, hin, hout⟩ := hok
      rw [hstep]
      have hst' : c.stepQ1 (sledComp B) H t q a b = (c.dropCur t).goto t (.q2 q a b m) := by
        unfold Conf.stepQ1; rw [hk]; simp only [hm]
      rw [hst']
      refine .between m f ?_ ?_ hh ?_ ?_
      · simp [Conf.goto, Conf.setThread, Conf.dropCur, h1]
      · simp [Conf.goto, Conf.setThread]
      · intro ky p hp
        obtain ⟨s, hs1, rfl, hs3⟩ := hin ky p hp
        exact p5 s hs1 p hs3
      · intro i hi
        have hle := hg.cur
        by_cases hic : i = c.current
        · left
          intro ky p htg
          obtain ⟨s, hs1, rfl, hs3⟩ := p6 (by omega) ky p (hic ▸ htg)
          exact hout s hs1 p hs3
        · right; show i < c.current; omega
    · have hstep : c.step (sledComp B) H ⟨KV.empty, KV.empty⟩ t = ({ c with secR := t :: c.secR } : Conf SledStores).goto t (.q3 q a b c.secondary.reverse m) := by
        simp [Conf.step, h2]
      rw [hstep]
      refine .second c.secondary.reverse m f ?_ ?_ h3 h4 ?_ ?_
      · simp [Conf.goto, Conf.setThread, h1]
      · simp [Conf.goto, Conf.setThread]
      · intro i hi
        rw [List.mem_reverse, h.sec, List.mem_range] at hi
        show i ≤ c.current
        split at hi <;> omega
      · intro i hi
        refine (h5 i hi).imp id fun hlt => ?_
        rw [List.mem_reverse, h.sec, List.mem_range]
        split <;> omega
    · have hstep : c.step (sledComp B) H ⟨KV.empty, KV.empty⟩ t = c.stepQ3 (sledComp B) H t q a b ids m := by simp [Conf.step, h2]
      rw [hstep]
      unfold Conf.stepQ3
      rcases ids with _ | ⟨i, ids⟩
      · simp only []
        have hkeys : ∀ ky ∈ H.order (m.map (·.1)), ky ∈ m.map (·.1) := fun ky hky => (H.perm _).mem_iff.mp hky
        rw [collectKeys_good hH h3 _ hkeys]
        have hmemr : ∀ ky v, (ky, v) ∈ (H.order (m.map (·.1))).map (fun ky => (ky, ((f ky).getD []).reverse)) ↔ ∃ u, f ky = some u ∧ v = u.reverse := by
          intro ky v
          rw [List.mem_map]
          constructor
          · rintro ⟨x, hx, e⟩
            obtain ⟨rfl, rfl⟩ := Prod.mk.inj e
            obtain ⟨u, hu⟩ := Option.ne_none_iff_exists'.mp ((h3.mem_keys x).mp (hkeys x hx))
            exact ⟨u, hu, by rw [hu]; rfl⟩
          · rintro ⟨u, hu, rfl⟩
            refine ⟨ky, (H.perm _).mem_iff.mpr ((h3.mem_keys ky).mpr (by rw [hu]; simp)), by rw [hu]; rfl⟩
        refine .answered ((H.order (m.map (·.1))).map fun ky => (ky, ((f ky).getD []).reverse)) ?_ ?_ ?_ ?_
        · simp [Conf.finish, Conf.setThread, Conf.dropSec, ← h1, Res.ofPanic]
        · rw [List.map_map]
          have : ((fun x : Labels × List TimePoint => x.1) ∘ fun ky => (ky, ((f ky).getD []).reverse)) = id := rfl
          rw [this, List.map_id]
          exact (H.perm _).nodup_iff.mpr h3.nodup
        · rintro ⟨ky, v⟩ he p hp
          obtain ⟨u, hu, rfl⟩ := (hmemr ky v).mp he
          exact h4 ky p ⟨u, hu, List.mem_reverse.mp hp⟩
        · intro i hi ky p htg
          obtain ⟨u, hu, hp⟩ := (h6 i hi).resolve_right (by simp) ky p htg
          exact ⟨u.reverse, (hmemr ky _).mpr ⟨u, hu, rfl⟩, List.mem_reverse.mpr hp⟩
      · simp only []
        have hi : i ≤ c.current := h5 i (by simp)
        have hlt : i < c.heap.length := by rw [h.len]; omega
        obtain ⟨k', hk'⟩ : ∃ k', c.heap[i]? = some k' := ⟨c.heap[i], List.getElem?_eq_getElem hlt⟩
        obtain ⟨ss, p1, p2, p2', p3, p4, p5, p6⟩ := chunk_gives hs (by omega) h hg hq0 hq hab hk'
        obtain ⟨m', e1, e2⟩ := querySecondary_spec (q := q) (a := a) (b := b) hH [k'.view (sledComp B)] (by
            intro v hv _; rw [List.mem_singleton.mp hv]; exact p1) (by
            intro v hv s hs'; rw [List.mem_singleton.mp hv, p2] at hs'; exact p4 s hs') h3
        simp only [List.map_cons, List.map_nil, stacked, p2'] at e2
        rw [hk']
        simp only [e1]
        refine .second ids m' _ ?_ ?_ e2 ?_ (fun j hj => h5 j (by simp [hj])) ?_
        · simp [Conf.goto, Conf.setThread, h1]
        · simp [Conf.goto, Conf.setThread]
        · intro ky p hp
          rcases addOlder_only hp with h' | ⟨s, hs1, rfl, hs3⟩
          · exact h4 ky p h'
          · exact p5 s hs1 p hs3
        · intro j hj
          rcases h6 j hj with hc | hm
          · exact Or.inl fun ky p htg => addOlder_keep (hc ky p htg) ss
          · rcases List.mem_cons.mp hm with rfl | hm
            · left
              intro ky p htg
              obtain ⟨s, hs1, rfl, hs3⟩ := p6 hj ky p htg
              exact addOlder_new hs1 hs3
            · exact Or.inr hm
    · -- already answered: the thread's list of results only grows
      refine .answered r ?_ h2 (fun e he p hp => (h3 e he p hp).mono hgs.log) h4
      have hlt : k0 < (c.threads t).done.length := by
        by_contra hge
        rw [List.getElem?_eq_none (by omega)] at h1; cases h1
      have key : (c.threads t).done <+: ((c.step (sledComp B) H ⟨KV.empty, KV.empty⟩ t).threads t).done := step_done _ _ _ _ _
      obtain ⟨x, hx⟩ := key
      rw [← hx, List.getElem?_append_left hlt]; exact h1
  · rw [step_other _ _ _ _ ht]
    exact hst.mono hgs

end Verif
