import Verif.Spec.Chunk
import Verif.Lemmas.Storage
namespace Verif
open List

/-! ### What a chunk needs from its components -/

/-- Components that behave like an abstract index and an abstract series store. -/
structure Refines {σ : Type} (C : Comp σ) (acc : List TimePoint → TimePoint → Bool) where
  /-- the stores represent these series -/
  Rep : Created → (U64 → List TimePoint) → σ → Prop
  byLabels : ∀ {c ser s ls}, Rep c ser s → WFSet ls → C.byLabels s ls = .ok (specByLabels c ls)
  metadata : ∀ {c ser s q}, Rep c ser s → (∀ x ∈ c, WFSet x.1) → (c.Pairwise fun x y => x.2.toNat < y.2.toNat) →
    (∀ l ∈ q, WFLabel l) → C.metadata s q = .ok (specMetadata c q)
  create : ∀ {c ser s ls i}, Rep c ser s → WFSet ls → (∀ x ∈ c, ¬ x.1.Perm ls) → (∀ x ∈ c, x.2 ≠ i) →
    (C.create s ls i).1 = .ok () ∧ Rep (c ++ [(ls, i)]) ser (C.create s ls i).2
  writeYes : ∀ {c ser s i p}, Rep c ser s → acc (ser i) p = true →
    (C.write s i p).1 = .ok () ∧ Rep c (upd ser i (ser i ++ [p])) (C.write s i p).2
  writeNo : ∀ {c ser s i p}, Rep c ser s → acc (ser i) p = false → C.write s i p = (.err .internal, s)
  read : ∀ {c ser s i a b}, Rep c ser s → SIncr (ser i) → a.toNat ≤ b.toNat → C.read s i a b = specRead (ser i) a b
  first : ∀ p, acc [] p = true

/-- Sled. -/
def sledRefines (B : BinSearch) : Refines (sledComp B) sledAccepts where
  Rep c ser s := IndexInv sledCodec c s.idx ∧ StoreInv sledKey ser s.ser
  byLabels h hl := sled_byLabels h.1 hl
  metadata h hwf hids hq := sled_metadata h.1 hwf hids hq
  create {c ser s ls i} h hwf hf hi := by
    have hL := h.1.byLabels ls hwf
    have hnone : specByLabels c ls = none := by
      unfold specByLabels
      rw [Option.map_eq_none_iff, List.find?_eq_none]
      intro t ht hp
      exact hf t ht (by simpa using hp)
    simp only [sledCodec, List.nil_append, hnone, Option.map_none] at hL
    have e : sledCreate s.idx ls i = (.ok (), (sledCreateSteps ls i).foldl (fun kv f => f kv) s.idx) := by
      unfold sledCreate; rw [hL]; rfl
    simp only [sledComp, e]
    exact ⟨trivial, h.1.step hwf hf hi (sled_after hwf i _), h.2⟩
  writeYes h _ := ⟨(sledWrite_inv h.2 _ _).1, h.1, (sledWrite_inv h.2 _ _).2⟩
  writeNo _ h := by simp [sledAccepts] at h
  read {c ser s i a b} h hs hab := by
    simp only [sledComp]
    rw [sledRead_eq h.2]
    by_cases h0 : ser i = []
    · rw [if_pos h0, h0]; rfl
    · rw [if_neg h0, readSeries_spec hs h0 hab]
  first _ := rfl

theorem indexKey_length (ipre k : Str) (hk : k ≠ []) : ipre.length < (ipre ++ k).length := by
  have := List.length_pos_iff.mpr hk
  simp; omega

theorem encodeLabels_ne_nil (ls : Labels) : encodeLabels ls true ≠ [] := by simp [encodeLabels]
theorem encodeId_ne_nil (i : U64) : encodeId i ≠ [] := by simp [encodeId]
theorem encodeLabel_ne_nil (l : Label) : encodeLabel l ≠ [] := by simp [encodeLabel]

theorem tikvKey_ne_index {ipre spre : Str} (hp : spre.length + 8 ≤ ipre.length) (i : U64) {k : Str} (hk : k ≠ []) :
    tikvKey spre i ≠ ipre ++ k := by
  intro e
  have := congrArg List.length e
  have h2 := indexKey_length ipre k hk
  rw [← this] at h2
  simp [tikvKey, toBE_length] at h2
  omega

theorem IndexInv.set_other {C : IdCodec} {c : Created} {kv : KV} (h : IndexInv C c kv) {key v : Str}
    (hk : ∀ k, k ≠ [] → key ≠ C.pre ++ k) : IndexInv C c (kv.set key v) :=
  ⟨fun ls hl => by rw [KV.set_other _ _ (hk _ (encodeLabels_ne_nil ls)).symm]; exact h.byLabels ls hl,
   fun i => by rw [KV.set_other _ _ (hk _ (encodeId_ne_nil i)).symm]; exact h.byId i,
   fun l hl => by rw [KV.set_other _ _ (hk _ (encodeLabel_ne_nil l)).symm]; exact h.rev l hl⟩

theorem tikvWrite_index {ipre spre : Str} (hp : spre.length + 8 ≤ ipre.length) {c : Created} {kv : KV}
    (h : IndexInv (tikvCodec ipre) c kv) (i : U64) (p : TimePoint) : IndexInv (tikvCodec ipre) c (tikvWrite spre kv i p).2 := by
  unfold tikvWrite
  repeat' split
  all_goals first
    | exact h
    | exact h.set_other fun k hk => tikvKey_ne_index hp i hk

/-- TiKV, with a storage identifier shorter than the indexer identifier by at least 8 bytes (the backend hands out
identifiers of 0 and 32 bytes). -/
def tikvRefines (B : BinSearch) (ipre spre : Str) (hp : spre.length + 8 ≤ ipre.length) :
    Refines (tikvComp B ipre spre) tikvAccepts where
  Rep c ser s := IndexInv (tikvCodec ipre) c s ∧ StoreInv (tikvKey spre) ser s
  byLabels h hl := tikv_byLabels h.1 hl
  metadata h hwf hids hq := tikv_metadata h.1 hwf hids hq
  create {c ser s ls i} h hwf hf hi := by
    refine ⟨rfl, h.1.step hwf hf hi (tikv_after hwf ipre i _), ?_⟩
    intro j
    rw [← h.2 j]
    exact (tikv_after hwf ipre i s).other _ (tikvKey_ne_index hp j (encodeLabels_ne_nil ls))
      (tikvKey_ne_index hp j (encodeId_ne_nil i)) fun l _ => tikvKey_ne_index hp j (encodeLabel_ne_nil l)
  writeYes {c ser s i p} h ha := by
    have := tikvWrite_inv h.2 i p
    rw [if_pos] at this
    · exact ⟨this.1, tikvWrite_index hp h.1 i p, this.2⟩
    · intro l hl
      unfold tikvAccepts at ha
      rw [hl] at ha; simpa using ha
  writeNo {c ser s i p} h ha := by
    have := tikvWrite_inv h.2 i p
    rw [if_neg] at this
    · exact this
    · intro hc
      unfold tikvAccepts at ha
      rcases hl : (ser i).getLast? with _ | l
      · rw [hl] at ha; simp at ha
      · rw [hl] at ha
        have := hc l hl
        simp only [decide_eq_false_iff_not] at ha
        exact ha this
  read {c ser s i a b} h hs hab := by
    simp only [tikvComp]
    rw [tikvRead_eq h.2]
    by_cases h0 : ser i = []
    · rw [if_pos h0, h0]; rfl
    · rw [if_neg h0, readSeries_spec hs h0 hab]
  first _ := rfl

/-! ### Specification lemmas -/

theorem keepBy_append (acc : List TimePoint → TimePoint → Bool) (ps : List TimePoint) (p : TimePoint) :
    keepBy acc (ps ++ [p]) = if acc (keepBy acc ps) p then keepBy acc ps ++ [p] else keepBy acc ps := by
  unfold keepBy; rw [List.foldl_append]; rfl

theorem keepBy_sled (ps : List TimePoint) : keepBy sledAccepts ps = ps := by
  induction ps using List.reverseRecOn with
  | nil => rfl
  | append_singleton ps p ih => rw [keepBy_append, ih]; rfl

theorem keepBy_tikv (ps : List TimePoint) : keepBy tikvAccepts ps = acceptIncreasing ps := by
  induction ps using List.reverseRecOn with
  | nil => rfl
  | append_singleton ps p ih =>
    rw [keepBy_append, ih, acceptIncreasing_append]
    unfold tikvAccepts
    rcases h : (acceptIncreasing ps).getLast? with _ | l <;> simp

theorem labelSets_append (h : Inserts) (w : Labels × TimePoint) :
    labelSets (h ++ [w]) = if (labelSets h).any (fun ls => decide (ls.Perm w.1)) then labelSets h else labelSets h ++ [w.1] := by
  unfold labelSets; rw [List.foldl_append]; rfl

theorem labelSets_length (h : Inserts) : (labelSets h).length ≤ h.length := by
  induction h using List.reverseRecOn with
  | nil => simp [labelSets]
  | append_singleton h w ih => rw [labelSets_append]; split <;> simp <;> omega

theorem labelSets_mem {h : Inserts} {ls : Labels} (hm : ls ∈ labelSets h) : ∃ w ∈ h, w.1 = ls := by
  induction h using List.reverseRecOn with
  | nil => simp [labelSets] at hm
  | append_singleton h w ih =>
    rw [labelSets_append] at hm
    split at hm
    · obtain ⟨x, hx, e⟩ := ih hm; exact ⟨x, by simp [hx], e⟩
    · rcases List.mem_append.mp hm with hm | hm
      · obtain ⟨x, hx, e⟩ := ih hm; exact ⟨x, by simp [hx], e⟩
      · simp only [List.mem_singleton] at hm; exact ⟨w, by simp, hm.symm⟩

theorem labelSets_fresh (h : Inserts) : (labelSets h).Pairwise fun a b => ¬ a.Perm b := by
  induction h using List.reverseRecOn with
  | nil => simp [labelSets]
  | append_singleton h w ih =>
    rw [labelSets_append]
    split
    · exact ih
    · rename_i hc
      rw [List.pairwise_append]
      refine ⟨ih, by simp, ?_⟩
      intro a ha b hb hp
      simp only [List.mem_singleton] at hb
      subst hb
      exact hc (List.any_eq_true.mpr ⟨a, ha, by simpa using hp⟩)

/-- Every inserted label set is listed. -/
theorem labelSets_complete {h : Inserts} {w : Labels × TimePoint} (hw : w ∈ h) : ∃ ls ∈ labelSets h, ls.Perm w.1 := by
  induction h using List.reverseRecOn with
  | nil => simp at hw
  | append_singleton h x ih =>
    rw [labelSets_append]
    rcases List.mem_append.mp hw with hw | hw
    · obtain ⟨ls, hls, hp⟩ := ih hw
      split
      · exact ⟨ls, hls, hp⟩
      · exact ⟨ls, by simp [hls], hp⟩
    · simp only [List.mem_singleton] at hw
      subst hw
      split
      · rename_i hc
        obtain ⟨ls, hls, hp⟩ := List.any_eq_true.mp hc
        exact ⟨ls, hls, by simpa using hp⟩
      · exact ⟨w.1, by simp, Perm.refl _⟩

/-- Numbering of label sets. -/
def number (ls : List Labels) : Created := ls.mapIdx fun n ls => (ls, BitVec.ofNat 64 (n + 1))

theorem number_append (l : List Labels) (x : Labels) : number (l ++ [x]) = number l ++ [(x, BitVec.ofNat 64 (l.length + 1))] := by
  unfold number; rw [List.mapIdx_append]; simp

theorem number_fst (l : List Labels) : (number l).map (·.1) = l := by
  induction l using List.reverseRecOn with
  | nil => rfl
  | append_singleton l x ih => rw [number_append, List.map_append, ih]; rfl

theorem number_ids {l : List Labels} (hl : l.length < 2 ^ 64 - 1) :
    (number l).Pairwise (fun x y => x.2.toNat < y.2.toNat) ∧ ∀ x ∈ number l, x.2.toNat ≤ l.length ∧ 1 ≤ x.2.toNat := by
  induction l using List.reverseRecOn with
  | nil => simp [number]
  | append_singleton l x ih =>
    simp only [List.length_append, List.length_cons, List.length_nil] at hl
    obtain ⟨h1, h2⟩ := ih (by omega)
    have e : (BitVec.ofNat 64 (l.length + 1)).toNat = l.length + 1 := by
      rw [BitVec.toNat_ofNat, Nat.mod_eq_of_lt (by omega)]
    rw [number_append]
    constructor
    · rw [List.pairwise_append]
      refine ⟨h1, by simp, ?_⟩
      intro a ha b hb
      simp only [List.mem_singleton] at hb
      subst hb
      have := (h2 a ha).1
      show _ < (BitVec.ofNat 64 (l.length + 1)).toNat
      rw [e]; omega
    · intro y hy
      rcases List.mem_append.mp hy with hy | hy
      · have := h2 y hy; simp only [List.length_append, List.length_cons, List.length_nil]; omega
      · simp only [List.mem_singleton] at hy
        subst hy
        show (BitVec.ofNat 64 (l.length + 1)).toNat ≤ _ ∧ 1 ≤ (BitVec.ofNat 64 (l.length + 1)).toNat
        rw [e]; simp

theorem number_mem {l : List Labels} {x : Labels × U64} (h : x ∈ number l) : x.1 ∈ l := by
  rw [← number_fst l]; exact List.mem_map.mpr ⟨x, h, rfl⟩

theorem number_fresh {l : List Labels} (h : l.Pairwise fun a b => ¬ a.Perm b) :
    (number l).Pairwise fun a b => ¬ a.1.Perm b.1 := by
  have := number_fst l
  rw [← this, List.pairwise_map] at h
  exact h

theorem numbered_eq (h : Inserts) : numbered h = number (labelSets h) := rfl

theorem pointsFor_append (h : Inserts) (w : Labels × TimePoint) (ls : Labels) :
    pointsFor (h ++ [w]) ls = if w.1.Perm ls then pointsFor h ls ++ [w.2] else pointsFor h ls := by
  unfold pointsFor
  rw [List.filter_append, List.map_append]
  by_cases hp : w.1.Perm ls <;> simp [hp]

theorem pointsFor_nil {h : Inserts} {ls : Labels} (hn : ∀ x ∈ labelSets h, ¬ x.Perm ls) : pointsFor h ls = [] := by
  unfold pointsFor
  rw [List.map_eq_nil_iff, List.filter_eq_nil_iff]
  intro w hw
  simp only [decide_eq_true_eq]
  intro hp
  obtain ⟨x, hx, hxp⟩ := labelSets_complete hw
  exact hn x hx (hxp.trans hp)

/-- The points of the series with an id. -/
def seriesOf (acc : List TimePoint → TimePoint → Bool) (h : Inserts) (i : U64) : List TimePoint :=
  match (numbered h).find? fun s => decide (s.2 = i) with
  | some s => keepBy acc (pointsFor h s.1)
  | none => []

theorem seriesOf_mem {acc : List TimePoint → TimePoint → Bool} {h : Inserts} (hl : h.length < 2 ^ 64 - 1) {s : Labels × U64}
    (hs : s ∈ numbered h) : seriesOf acc h s.2 = keepBy acc (pointsFor h s.1) := by
  unfold seriesOf
  have := labelSets_length h
  have h2 := (number_ids (l := labelSets h) (by omega)).1
  rw [← numbered_eq] at h2
  rw [find_by_id h2 hs]

/-! ### The chunk invariant -/

/-- The chunk's stores represent a history of inserts (all inside the window). -/
structure ChunkRep {σ : Type} {C : Comp σ} {acc : List TimePoint → TimePoint → Bool} (R : Refines C acc) (lo hi : U64) (h : Inserts)
    (c : Chunk σ) : Prop where
  start_ : c.start_ = lo
  end_ : c.end_ = hi
  ok : c.poisoned = false
  next : c.nextId.toNat = (labelSets h).length + 1
  rep : R.Rep (numbered h) (seriesOf acc h) c.store

theorem inside_iff {σ : Type} {c : Chunk σ} {lo hi : U64} (h1 : c.start_ = lo) (h2 : c.end_ = hi) (p : TimePoint) :
    c.isInRange p.ts = inside lo hi p := by
  unfold Chunk.isInRange inside; rw [h1, h2]

theorem perm_unique {h : Inserts} {x y : Labels × U64} (hx : x ∈ numbered h) (hy : y ∈ numbered h) (hp : x.1.Perm y.1) : x = y := by
  have hf := number_fresh (labelSets_fresh h)
  rw [← numbered_eq] at hf
  generalize numbered h = l at hx hy hf
  induction l with
  | nil => simp at hx
  | cons z l ih =>
    rw [List.pairwise_cons] at hf
    rcases List.mem_cons.mp hx with rfl | hx'
    · rcases List.mem_cons.mp hy with rfl | hy'
      · rfl
      · exact absurd hp (hf.1 y hy')
    · rcases List.mem_cons.mp hy with rfl | hy'
      · exact absurd hp.symm (hf.1 x hx')
      · exact ih hx' hy' hf.2

/-- Inserting into a chunk that represents a history. -/
theorem ChunkRep.insert {σ : Type} {C : Comp σ} {acc : List TimePoint → TimePoint → Bool} {R : Refines C acc} {lo hi : U64} {h : Inserts}
    {c : Chunk σ} (hc : ChunkRep R lo hi h c) (hlen : h.length + 1 < 2 ^ 64 - 1) {ls : Labels} (hls : WFSet ls) (p : TimePoint) :
    if inside lo hi p then
      (c.insert C ls p).1 = .ok () ∧ ChunkRep R lo hi (h ++ [(ls, p)]) (c.insert C ls p).2 ∧ (c.insert C ls p).2.closed = c.closed
    else c.insert C ls p = (.err (.outOfRange lo hi), c) := by
  unfold Chunk.insert
  rw [hc.ok, inside_iff hc.start_ hc.end_]
  by_cases hin : inside lo hi p
  · simp only [hin, if_true, Bool.false_eq_true, if_false]
    have hll := labelSets_length h
    obtain ⟨hids, hle⟩ := number_ids (l := labelSets h) (by omega)
    rw [← numbered_eq] at hids hle
    unfold Chunk.insertBody
    rw [R.byLabels hc.rep hls]
    rcases hb : specByLabels (numbered h) ls with _ | i
    · -- a new series
      have hf : ∀ x ∈ labelSets h, ¬ x.Perm ls := by
        intro x hx hp
        rw [← number_fst (labelSets h)] at hx
        obtain ⟨y, hy, rfl⟩ := List.mem_map.mp hx
        unfold specByLabels at hb
        rw [Option.map_eq_none_iff, List.find?_eq_none] at hb
        exact hb y hy (by simpa using hp)
      have hf' : ∀ x ∈ numbered h, ¬ x.1.Perm ls := fun x hx => hf _ (number_mem hx)
      have hi' : ∀ x ∈ numbered h, x.2 ≠ c.nextId := by
        intro x hx e
        have := (hle x hx).1
        rw [e, hc.next] at this; omega
      obtain ⟨h1, h2⟩ := R.create hc.rep hls hf' hi'
      have hser : seriesOf acc h c.nextId = [] := by
        unfold seriesOf
        have : (numbered h).find? (fun s => decide (s.2 = c.nextId)) = none := by
          rw [List.find?_eq_none]; intro x hx; simpa using hi' x hx
        rw [this]
      obtain ⟨h3, h4⟩ := R.writeYes (i := c.nextId) (p := p) h2 (by rw [hser]; exact R.first p)
      simp only [idNext, h1, h3, Chunk.seal]
      refine ⟨trivial, ⟨hc.start_, hc.end_, hc.ok, ?_, ?_⟩, trivial⟩
      · rw [labelSets_append, if_neg]
        · show (c.nextId + 1#64).toNat = _
          rw [BitVec.toNat_add, hc.next]
          simp only [List.length_append, List.length_cons, List.length_nil]
          rw [Nat.mod_eq_of_lt]
          · rfl
          · show (labelSets h).length + 1 + 1 < _; omega
        · intro hany
          obtain ⟨x, hx, hp⟩ := List.any_eq_true.mp hany
          exact hf x hx (by simpa using hp)
      · have hn : numbered (h ++ [(ls, p)]) = numbered h ++ [(ls, c.nextId)] := by
          rw [numbered_eq, numbered_eq, labelSets_append, if_neg, number_append]
          · rw [← hc.next]
            congr 3
            simp
          · intro hany
            obtain ⟨x, hx, hp⟩ := List.any_eq_true.mp hany
            exact hf x hx (by simpa using hp)
        have hs : upd (seriesOf acc h) c.nextId (seriesOf acc h c.nextId ++ [p]) = seriesOf acc (h ++ [(ls, p)]) := by
          funext j
          unfold seriesOf
          rw [hn, List.find?_append]
          by_cases hj : j = c.nextId
          · subst hj
            have : (numbered h).find? (fun s => decide (s.2 = c.nextId)) = none := by
              rw [List.find?_eq_none]; intro x hx; simpa using hi' x hx
            simp only [upd, if_true, this, Option.none_or, List.find?_cons, decide_true]
            rw [pointsFor_append, if_pos (Perm.refl _), pointsFor_nil hf, List.nil_append]
            have := keepBy_append acc [] p
            rw [List.nil_append] at this
            rw [this]
            show [p] = if acc [] p = true then [] ++ [p] else []
            rw [if_pos (R.first p)]
            rfl
          · simp only [upd, hj, if_false]
            rcases hfd : (numbered h).find? (fun s => decide (s.2 = j)) with _ | s
            · rw [hfd]; simp [Ne.symm hj]
            · rw [hfd]
              show keepBy _ _ = keepBy _ _
              have hsm := List.mem_of_find?_eq_some hfd
              rw [pointsFor_append, if_neg]
              exact fun hp => hf' s hsm hp.symm
        rw [hn, ← hs]
        exact h4
    · -- an existing series
      obtain ⟨x, hx, hxp, rfl⟩ := specByLabels_mem hb
      have hnew : labelSets (h ++ [(ls, p)]) = labelSets h := by
        rw [labelSets_append, if_pos]
        exact List.any_eq_true.mpr ⟨x.1, number_mem hx, by simpa using hxp⟩
      have hn : numbered (h ++ [(ls, p)]) = numbered h := by rw [numbered_eq, numbered_eq, hnew]
      have hsx := seriesOf_mem (acc := acc) (by omega) hx
      by_cases ha : acc (seriesOf acc h x.2) p = true
      · obtain ⟨h3, h4⟩ := R.writeYes hc.rep ha
        simp only [h3, Chunk.seal]
        refine ⟨trivial, ⟨hc.start_, hc.end_, hc.ok, ?_, ?_⟩, trivial⟩
        · rw [hnew]; exact hc.next
        · have hs : upd (seriesOf acc h) x.2 (seriesOf acc h x.2 ++ [p]) = seriesOf acc (h ++ [(ls, p)]) := by
            funext j
            by_cases hj : j = x.2
            · subst hj
              have : seriesOf acc (h ++ [(ls, p)]) x.2 = keepBy acc (pointsFor (h ++ [(ls, p)]) x.1) := by
                unfold seriesOf; rw [hn, find_by_id hids hx]
              rw [this, pointsFor_append, if_pos hxp.symm, keepBy_append, ← hsx, if_pos ha]
              simp [upd]
            · unfold seriesOf
              rw [hn]
              simp only [upd, hj, if_false]
              rcases hfd : (numbered h).find? (fun s => decide (s.2 = j)) with _ | s
              · rw [hfd]
              · rw [hfd]
                show keepBy _ _ = keepBy _ _
                have hsm := List.mem_of_find?_eq_some hfd
                have hsj : s.2 = j := by simpa using List.find?_some hfd
                rw [pointsFor_append, if_neg]
                intro hp
                have := perm_unique hx hsm (hxp.trans hp)
                exact hj (by rw [← hsj, this])
          rw [hn, ← hs]
          exact h4
      · have ha' : acc (seriesOf acc h x.2) p = false := by simpa using ha
        have h3 := R.writeNo hc.rep ha'
        simp only [h3, Chunk.seal]
        refine ⟨trivial, ⟨hc.start_, hc.end_, hc.ok, ?_, ?_⟩, trivial⟩
        · rw [hnew]; exact hc.next
        · have hs : seriesOf acc h = seriesOf acc (h ++ [(ls, p)]) := by
            funext j
            unfold seriesOf
            rw [hn]
            rcases hfd : (numbered h).find? (fun s => decide (s.2 = j)) with _ | s
            · rw [hfd]
            · rw [hfd]
              show keepBy _ _ = keepBy _ _
              have hsm := List.mem_of_find?_eq_some hfd
              rw [pointsFor_append]
              split
              · rename_i hp
                have := perm_unique hx hsm (hxp.trans hp)
                subst this
                rw [keepBy_append, ← hsx, if_neg ha]
              · rfl
          rw [hn, ← hs]
          exact hc.rep
  · simp only [hin, Bool.false_eq_true, if_false]
    rw [hc.start_, hc.end_]

/-- All inserts of a history, results dropped. -/
def Chunk.insertAll {σ : Type} (C : Comp σ) (c : Chunk σ) (h : Inserts) : Chunk σ :=
  h.foldl (fun c w => (c.insert C w.1 w.2).2) c

theorem insideOnly_append (lo hi : U64) (h : Inserts) (w : Labels × TimePoint) :
    insideOnly lo hi (h ++ [w]) = if inside lo hi w.2 then insideOnly lo hi h ++ [w] else insideOnly lo hi h := by
  unfold insideOnly
  rw [List.filter_append]
  by_cases hin : inside lo hi w.2 <;> simp [hin]

theorem insertAll_rep {σ : Type} {C : Comp σ} {acc : List TimePoint → TimePoint → Bool} {R : Refines C acc} {lo hi : U64}
    {c : Chunk σ} (hc : ChunkRep R lo hi [] c) (h : Inserts) (hlen : h.length < 2 ^ 64 - 1) (hwf : ∀ w ∈ h, WFSet w.1) :
    ChunkRep R lo hi (insideOnly lo hi h) (c.insertAll C h) ∧ (c.insertAll C h).closed = c.closed := by
  induction h using List.reverseRecOn with
  | nil => exact ⟨hc, rfl⟩
  | append_singleton h w ih =>
    simp only [List.length_append, List.length_cons, List.length_nil] at hlen
    obtain ⟨ih1, ih2⟩ := ih (by omega) (fun x hx => hwf x (by simp [hx]))
    have e : c.insertAll C (h ++ [w]) = ((c.insertAll C h).insert C w.1 w.2).2 := by
      unfold Chunk.insertAll; rw [List.foldl_append]; rfl
    have hle : (insideOnly lo hi h).length ≤ h.length := List.length_filter_le _ _
    have := ih1.insert (by omega) (hwf w (by simp)) w.2
    rw [e, insideOnly_append]
    by_cases hin : inside lo hi w.2
    · rw [if_pos hin] at this ⊢
      exact ⟨this.2.1, this.2.2.trans ih2⟩
    · rw [if_neg hin] at this ⊢
      rw [this]; exact ⟨ih1, ih2⟩

/-! ### Queries -/

theorem readAll_spec {σ : Type} {C : Comp σ} {s : σ} {a b : U64} (l : List Series)
    (hr : ∀ x ∈ l, C.read s x.id a b = specRead x.points a b) :
    readAll C s a b (l.map fun x => (x.id, x.labels)) = specQuery a b l := by
  induction l with
  | nil => rfl
  | cons x l ih =>
    rw [List.map_cons, readAll, hr x (by simp), ih (fun y hy => hr y (by simp [hy]))]
    unfold specQuery
    rw [List.find?_cons]
    rcases hf : x.points.head? with _ | f
    · have ho : outside a b x = true := by simp [outside, hf]
      simp only [ho, specRead, hf, spanError, Res.bind_err]
    rcases hl : x.points.getLast? with _ | t
    · have ho : outside a b x = true := by simp [outside, hf, hl]
      simp only [ho, specRead, hf, hl, spanError, Res.bind_err]
    by_cases hout : f.ts.toNat > b.toNat ∨ t.ts.toNat < a.toNat
    · have ho : outside a b x = true := by
        simp only [outside, hf, hl, Bool.or_eq_true, decide_eq_true_eq]; exact hout
      simp only [ho, specRead, hf, hl, spanError, if_pos hout, Res.bind_err]
    · have ho : outside a b x = false := by
        simp only [outside, hf, hl, Bool.or_eq_false_iff, decide_eq_false_iff_not]; omega
      simp only [ho, specRead, hf, hl, if_neg hout, Res.bind_ok]
      rcases l.find? (outside a b) with _ | y
      · simp only [Res.bind_ok, restrict, List.map_cons, List.filter_cons]
        by_cases h0 : inRange x.points a b = []
        · simp [h0]
        · have : ¬ (inRange x.points a b).length = 0 := by simpa using h0
          rw [if_neg this]
          simp [h0]
      · simp only [Res.bind_err]

/-- The model's test whether a chunk overlaps a range is the specification's. -/
theorem Chunk.isWithRange_eq {σ : Type} (c : Chunk σ) (a b : U64) : c.isWithRange a b = overlaps c.start_ c.end_ a b := rfl

theorem ChunkRep.query {σ : Type} {C : Comp σ} {acc : List TimePoint → TimePoint → Bool} {R : Refines C acc} {lo hi : U64} {h : Inserts}
    {c : Chunk σ} (hc : ChunkRep R lo hi h c) (hlen : h.length < 2 ^ 64 - 1) (hwf : ∀ w ∈ h, WFSet w.1)
    (hincr : ∀ ls, SIncr (keepBy acc (pointsFor h ls))) {q : Labels} (hq : ∀ l ∈ q, WFLabel l) {a b : U64} (hab : a.toNat ≤ b.toNat) :
    c.query C q a b = if overlaps lo hi a b then specQuery a b (matched acc h q) else .err (.outOfRange lo hi) := by
  unfold Chunk.query
  rw [Chunk.isWithRange_eq]
  rw [hc.ok, hc.start_, hc.end_]
  simp only [Bool.false_eq_true, if_false]
  by_cases ho : overlaps lo hi a b
  · simp only [ho, if_true]
    have hll := labelSets_length h
    obtain ⟨hids, -⟩ := number_ids (l := labelSets h) (by omega)
    rw [← numbered_eq] at hids
    have hwf' : ∀ x ∈ numbered h, WFSet x.1 := by
      intro x hx
      obtain ⟨w, hw, e⟩ := labelSets_mem (number_mem hx)
      rw [← e]; exact hwf w hw
    rw [R.metadata hc.rep hwf' hids hq, Res.bind_ok]
    have e : specMetadata (numbered h) q = (matched acc h q).map fun x => (x.id, x.labels) := by
      unfold specMetadata matched
      by_cases hk : knownLabels (numbered h) q = []
      · simp [hk]
      · rw [if_neg hk, if_neg hk, List.map_map]; rfl
    rw [e, readAll_spec]
    intro x hx
    unfold matched at hx
    split at hx
    · simp at hx
    · obtain ⟨s, hs, rfl⟩ := List.mem_map.mp hx
      have hsm := (List.mem_filter.mp hs).1
      have := seriesOf_mem (acc := acc) (h := h) (by omega) hsm
      simp only []
      rw [← this]
      exact R.read hc.rep (by rw [this]; exact hincr _) hab
  · simp [ho]

end Verif
