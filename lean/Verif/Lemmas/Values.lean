import Verif.Spec.Values
import Verif.Lemmas.Unordered
namespace Verif
open List

/-! ### Spelling -/

theorem spelled_join (ls : Labels) : spelled ls = joinComma (ls.map encodePair) := by
  have e : (ls.map fun l => l.key ++ [61#8] ++ l.value) = ls.map encodePair := by
    refine List.map_congr_left fun l _ => ?_
    simp [encodePair, equals]
  unfold spelled
  rw [e]
  generalize ls.map encodePair = ps
  induction ps with
  | nil => rfl
  | cons p ps ih =>
    cases ps with
    | nil => simp [List.intercalate, joinComma]
    | cons q ps => rw [joinComma, ← ih]; simp [List.intercalate, List.intersperse, comma]

theorem encodeLabels_spelled (ls : Labels) : encodeLabels ls false = spelled (sortLabels ls) ∧ encodeLabels ls true = 76#8 :: spelled (sortLabels ls) := by
  rw [spelled_join]; exact encodeLabels_eq ls

theorem join_split (s : Str) : joinComma (splitComma s) = s := by
  induction s with
  | nil => rfl
  | cons b s ih =>
    rw [splitComma]
    by_cases h : b = comma
    · rw [if_pos h, joinComma_cons (splitComma_ne_nil s), ih, h]; rfl
    · rw [if_neg h]
      rcases hs : splitComma s with _ | ⟨p, ps⟩
      · exact absurd hs (splitComma_ne_nil s)
      · rw [hs] at ih
        simp only []
        cases ps with
        | nil => rw [joinComma] at ih ⊢; rw [ih]
        | cons q ps => rw [joinComma] at ih ⊢; rw [List.cons_append, ih]

theorem splitEquals_inv {s : Str} {l : Label} (h : splitEquals s = some l) : encodePair l = s := by
  induction s generalizing l with
  | nil => simp [splitEquals] at h
  | cons b s ih =>
    rw [splitEquals] at h
    by_cases hb : b = equals
    · rw [if_pos hb] at h; cases h; simp [encodePair, hb]
    · rw [if_neg hb] at h
      obtain ⟨l', h1, rfl⟩ := Option.map_eq_some_iff.mp h
      have := ih h1
      simp only [encodePair, List.cons_append] at this ⊢
      rw [this]

theorem mapM_split {ps : List Str} {ls : Labels} (h : Res.mapM (fun p => Res.ofErr MErr.internal (splitEquals p)) ps = .ok ls) : ls.map encodePair = ps := by
  induction ps generalizing ls with
  | nil => rw [Res.mapM] at h; cases h; rfl
  | cons p ps ih =>
    rw [Res.mapM] at h
    change (Res.ofErr MErr.internal (splitEquals p)).bind _ = _ at h
    rcases hp : splitEquals p with _ | l
    · rw [hp] at h; simp [Res.ofErr] at h
    · rw [hp, show Res.ofErr MErr.internal (some l) = .ok l from rfl, Res.bind_ok] at h
      rcases hr : Res.mapM (fun p => Res.ofErr MErr.internal (splitEquals p)) ps with r | e | _
      · rw [hr, Res.bind_ok] at h; cases h
        rw [List.map_cons, ih hr, splitEquals_inv hp]
      · rw [hr] at h; simp at h
      · rw [hr] at h; simp [Res.bind] at h

/-- What comes out of the decoder spells what went in. -/
theorem decode_spelled {v : Str} {ls : Labels} (h : decodeLabels v = .ok ls) : spelled ls = v := by
  rw [spelled_join, mapM_split h, join_split]

theorem utf8_join {u : Str → Bool} (hu : CutsAtAscii u) (h0 : u [] = true) (ps : List Str) : u (joinComma ps) = true ↔ ∀ p ∈ ps, u p = true := by
  induction ps with
  | nil => simpa [joinComma] using h0
  | cons p ps ih =>
    cases ps with
    | nil => simp [joinComma]
    | cons q ps =>
      rw [joinComma, (show (p ++ comma :: joinComma (q :: ps)) = p ++ 44#8 :: joinComma (q :: ps) from rfl), (hu _ _).1, ih]
      simp

theorem utf8_spelled {u : Str → Bool} (hu : CutsAtAscii u) (h0 : u [] = true) (ls : Labels) : u (spelled ls) = true ↔ ∀ l ∈ ls, LabelOk u l := by
  rw [spelled_join, utf8_join hu h0]
  simp only [List.forall_mem_map]
  refine forall_congr' fun l => forall_congr' fun _ => ?_
  exact (hu l.key l.value).2

theorem spelled_head {ls : Labels} (h : ∀ l ∈ ls, l.key.head? ≠ some 82#8) : (spelled ls).head? ≠ some 82#8 := by
  rw [spelled_join]
  cases ls with
  | nil => simp [joinComma]
  | cons l ls =>
    have hl := h l (by simp)
    have : (encodePair l).head? ≠ some 82#8 ∧ encodePair l ≠ [] := by
      unfold encodePair equals
      cases hk : l.key with
      | nil => simp
      | cons b k => rw [hk] at hl; simpa using hl
    rw [List.map_cons]
    cases ls.map encodePair with
    | nil => exact this.1
    | cons q qs =>
      rw [joinComma]
      cases he : encodePair l with
      | nil => exact absurd he this.2
      | cons b k => rw [he] at this; simpa using this.1

/-! ### The stores of a chunk -/

/-- What is in the stores of a chunk, with `U v p` for points filed under labels that spell `v`; ids from `nid` on are not used. -/
structure SaneStore (u : Str → Bool) (U : Str → TimePoint → Prop) (nid : Nat) (s : SledStores) : Prop where
  stored : ∃ series, StoreInv sledKey series s.ser ∧ ∀ i, ∀ p ∈ series i, i.toNat < nid ∧ ∀ v, s.idx (encodeId i) = some v → U v p
  names : ∀ i v, s.idx (encodeId i) = some v → i.toNat < nid ∧ u v = true
  keys : ∀ v x, v.head? ≠ some 82#8 → s.idx (76#8 :: v) = some x → ∃ i, x = fmtId i ∧ s.idx (encodeId i) = some v

theorem SaneStore.mono {u : Str → Bool} {U U' : Str → TimePoint → Prop} (hU : ∀ v p, U v p → U' v p) {nid : Nat} {s : SledStores} (h : SaneStore u U nid s) :
    SaneStore u U' nid s := by
  obtain ⟨series, h1, h2⟩ := h.stored
  exact ⟨⟨series, h1, fun i p hp => ⟨(h2 i p hp).1, fun v hv => hU _ _ ((h2 i p hp).2 v hv)⟩⟩, h.names, h.keys⟩

theorem sane_none (u : Str → Bool) (U : Str → TimePoint → Prop) (nid : Nat) : SaneStore u U nid noStores where
  stored := ⟨fun _ => [], fun i => by simp [noStores, KV.empty], by simp⟩
  names := by simp [noStores, KV.empty]
  keys := by simp [noStores, KV.empty]

theorem appendId_other (i : U64) (kv : KV) (ls : Labels) (k : Str) (hk : ∀ l : Label, k ≠ encodeLabel l) :
    ((ls.map fun l => sledAppendId i (encodeLabel l)).foldl (fun kv f => f kv) kv) k = kv k := by
  induction ls generalizing kv with
  | nil => rfl
  | cons l ls ih => rw [List.map_cons, List.foldl_cons, ih, sledAppendId, KV.set_other _ _ (hk l)]

/-- A new index entry. -/
theorem SaneStore.create {u : Str → Bool} {U : Str → TimePoint → Prop} {nid : U64} {s : SledStores} (h : SaneStore u U nid.toNat s) (hn : nid.toNat + 1 < 2 ^ 64)
    {ls : Labels} (hls : ∀ l ∈ ls, l.key.head? ≠ some 82#8) (hu : u (spelled (sortLabels ls)) = true) (h0 : s.idx (encodeLabels ls true) = none) :
    ∃ kv, sledCreate s.idx ls nid = (.ok (), kv) ∧ SaneStore u U (nid.toNat + 1) ⟨kv, s.ser⟩ ∧ kv (encodeId nid) = some (spelled (sortLabels ls)) := by
  have e0 := (encodeLabels_spelled ls).2
  have e1 := (encodeLabels_spelled ls).1
  have hh : (spelled (sortLabels ls)).head? ≠ some 82#8 := spelled_head fun l hl => hls l ((sortLabels_mem _ _).mp hl)
  unfold sledCreate
  rw [if_neg (by rw [h0]; simp)]
  refine ⟨_, rfl, ?_, ?_⟩
  all_goals
    have kid : ∀ j, ((sledCreateSteps ls nid).foldl (fun kv f => f kv) s.idx) (encodeId j) = if j = nid then some (spelled (sortLabels ls)) else s.idx (encodeId j) := by
      intro j
      unfold sledCreateSteps
      rw [List.foldl_cons, List.foldl_cons, appendId_other _ _ _ _ (fun l => encodeId_ne_label j l)]
      beta_reduce
      by_cases hj : j = nid
      · subst hj; rw [if_pos rfl, KV.set_same, e1]
      · rw [if_neg hj, KV.set_other _ _ (fun e => hj (encodeId_inj e)), KV.set_other _ _ (encodeId_ne_labels j ls)]
  · obtain ⟨series, h1, h2⟩ := h.stored
    refine ⟨⟨series, h1, fun i p hp => ⟨by have := (h2 i p hp).1; omega, fun v hv => ?_⟩⟩, fun i v hv => ?_, fun v x hv hx => ?_⟩
    · have hi := (h2 i p hp).1
      simp only [kid] at hv
      rw [if_neg (fun e => by rw [e] at hi; omega)] at hv
      exact (h2 i p hp).2 v hv
    · simp only [kid] at hv
      by_cases hi : i = nid
      · rw [if_pos hi] at hv; cases hv; subst hi; exact ⟨by omega, hu⟩
      · rw [if_neg hi] at hv; have := h.names i v hv; exact ⟨by omega, this.2⟩
    · have hx : ((sledCreateSteps ls nid).foldl (fun kv f => f kv) s.idx) (76#8 :: v) = some x := hx
      unfold sledCreateSteps at hx
      rw [List.foldl_cons, List.foldl_cons, appendId_other _ _ _ _ (fun l e => by
        simp only [encodeLabel, List.cons_append, List.cons.injEq, true_and] at e
        rw [e] at hv; simp at hv)] at hx
      beta_reduce at hx
      rw [KV.set_other _ _ (fun e => by simp [encodeId] at e), e0] at hx
      by_cases hvs : v = spelled (sortLabels ls)
      · rw [hvs, KV.set_same] at hx; cases hx
        exact ⟨nid, rfl, by simp only [kid, if_true, hvs]⟩
      · rw [KV.set_other _ _ (fun e => hvs (List.cons.inj e).2)] at hx
        obtain ⟨i, hi, hv'⟩ := h.keys v x hv hx
        refine ⟨i, hi, ?_⟩
        have := (h.names i v hv').1
        simp only [kid]
        rw [if_neg (fun e => by rw [e] at this; omega)]; exact hv'
  · rw [kid, if_pos rfl]

/-- A new point. -/
theorem SaneStore.write {u : Str → Bool} {U : Str → TimePoint → Prop} {nid : Nat} {s : SledStores} (h : SaneStore u U nid s) {i : U64} {v : Str} {p : TimePoint}
    (hi : s.idx (encodeId i) = some v) (hp : U v p) : ∃ kv, sledWrite s.ser i p = (.ok (), kv) ∧ SaneStore u U nid ⟨s.idx, kv⟩ := by
  obtain ⟨series, h1, h2⟩ := h.stored
  obtain ⟨w1, w2⟩ := sledWrite_inv h1 i p
  refine ⟨(sledWrite s.ser i p).2, Prod.ext w1 rfl, ⟨⟨_, w2, fun j x hx => ?_⟩, h.names, h.keys⟩⟩
  by_cases hj : j = i
  · subst hj
    rw [upd, if_pos rfl] at hx
    rcases List.mem_append.mp hx with hx | hx
    · exact h2 j x hx
    · rw [List.mem_singleton] at hx; subst hx
      refine ⟨(h.names j v hi).1, fun v' hv' => ?_⟩
      have hv' : s.idx (encodeId j) = some v' := hv'
      rw [hi] at hv'; cases hv'; exact hp
  · rw [upd, if_neg hj] at hx; exact h2 j x hx

/-! ### Chunks -/

/-- A chunk that works: `n` bounds the number of ids used. -/
structure SaneChunk (u : Str → Bool) (U : Str → TimePoint → Prop) (n : Nat) (lo hi : U64) (c : Chunk SledStores) : Prop where
  start_ : c.start_ = lo
  end_ : c.end_ = hi
  calm : c.poisoned = false
  ids : c.nextId.toNat ≤ n + 1
  store : SaneStore u U c.nextId.toNat c.store

theorem sane_insert {u : Str → Bool} {U : Str → TimePoint → Prop} {n : Nat} (hn : n + 1 < 2 ^ 64 - 1) {lo hi : U64} {c : Chunk SledStores} (h : SaneChunk u U n lo hi c) (B : BinSearch)
    {ls : Labels} (hls : ∀ l ∈ ls, l.key.head? ≠ some 82#8) (hu : u (spelled (sortLabels ls)) = true) {p : TimePoint} (hp : U (spelled (sortLabels ls)) p) :
    ∃ c', c.insert (sledComp B) ls p = (if inside lo hi p then .ok () else .err (.outOfRange lo hi), c') ∧ SaneChunk u U (n + 1) lo hi c' := by
  have hrange : c.isInRange p.ts = inside lo hi p := by
    unfold Chunk.isInRange inside; rw [h.start_, h.end_]
  unfold Chunk.insert
  rw [if_neg (by rw [h.calm]; simp), hrange]
  by_cases hin : inside lo hi p = true
  · rw [if_pos hin, if_pos hin]
    have hb : ∃ c', c.insertBody (sledComp B) ls p = (.ok (), c') ∧ SaneChunk u U (n + 1) lo hi c' := by
      have hids := h.ids
      unfold Chunk.insertBody
      have hbl : (sledComp B).byLabels c.store ls = sledByLabels c.store.idx ls := rfl
      rw [hbl]
      unfold sledByLabels
      rcases hk : c.store.idx (encodeLabels ls true) with _ | x
      · simp only []
        obtain ⟨kv, e1, e2, e3⟩ := h.store.create (by omega) hls hu hk
        obtain ⟨kv', e4, e5⟩ := e2.write (i := c.nextId) e3 hp
        have e4 : sledWrite c.store.ser c.nextId p = (.ok (), kv') := e4
        simp only [idNext, sledComp, e1, e4]
        have hid : (c.nextId + 1#64).toNat = c.nextId.toNat + 1 := by
          rw [BitVec.toNat_add]
          have : (1#64).toNat = 1 := rfl
          rw [this, Nat.mod_eq_of_lt (by omega)]
        refine ⟨_, rfl, ⟨h.start_, h.end_, h.calm, ?_, ?_⟩⟩
        · show (c.nextId + 1#64).toNat ≤ _; rw [hid]; omega
        · show SaneStore u U (c.nextId + 1#64).toNat _; rw [hid]; exact e5
      · simp only []
        rw [(encodeLabels_spelled ls).2] at hk
        obtain ⟨i, rfl, hi'⟩ := h.store.keys _ x (spelled_head fun l hl => hls l ((sortLabels_mem _ _).mp hl)) hk
        obtain ⟨kv', e4, e5⟩ := h.store.write (i := i) hi' hp
        rw [parseId_fmtId, Res.bind_ok]
        simp only [sledComp, e4]
        exact ⟨_, rfl, ⟨h.start_, h.end_, h.calm, by show c.nextId.toNat ≤ _; omega, e5⟩⟩
    obtain ⟨c', e1, e2⟩ := hb
    refine ⟨c', ?_, e2⟩
    unfold Chunk.seal
    rw [e1]
  · rw [if_neg hin, if_neg hin, h.start_, h.end_]
    exact ⟨c, rfl, ⟨h.start_, h.end_, h.calm, by have := h.ids; omega, h.store⟩⟩

theorem sane_insertEach {u : Str → Bool} {U : Str → TimePoint → Prop} (B : BinSearch) {lo hi : U64} {ls : Labels} (hls : ∀ l ∈ ls, l.key.head? ≠ some 82#8)
    (hu : u (spelled (sortLabels ls)) = true) (ps : List TimePoint) (hp : ∀ p ∈ ps, U (spelled (sortLabels ls)) p) {n : Nat} (hn : n + ps.length < 2 ^ 64 - 1)
    {c : Chunk SledStores} (h : SaneChunk u U n lo hi c) :
    ∃ k c', insertEach (sledComp B) c ls ps = (.ok k, c') ∧ (k = 0 ↔ ∀ p ∈ ps, inside lo hi p = true) ∧ SaneChunk u U (n + ps.length) lo hi c' := by
  induction ps generalizing n c with
  | nil => exact ⟨0, c, rfl, by simp, h⟩
  | cons p ps ih =>
    simp only [List.length_cons] at hn
    obtain ⟨c1, e1, h1⟩ := sane_insert (by omega) h B hls hu (hp p (by simp))
    obtain ⟨k, c2, e2, hk, h2⟩ := ih (fun x hx => hp x (by simp [hx])) (by omega) h1
    have hl : n + 1 + ps.length = n + (p :: ps).length := by simp only [List.length_cons]; omega
    rw [hl] at h2
    rw [insertEach, e1]
    by_cases hin : inside lo hi p = true
    · rw [if_pos hin]
      exact ⟨k, c2, e2, by rw [hk]; simp [hin], h2⟩
    · rw [if_neg hin]
      simp only [e2]
      exact ⟨k + 1, c2, rfl, by simp [hin], h2⟩

theorem sane_write {u : Str → Bool} {U : Str → TimePoint → Prop} (B : BinSearch) {lo hi : U64} {ls : Labels} (hls : ∀ l ∈ ls, l.key.head? ≠ some 82#8)
    (hu : u (spelled (sortLabels ls)) = true) (ps : List TimePoint) (hp : ∀ p ∈ ps, U (spelled (sortLabels ls)) p) {n : Nat} (hn : n + ps.length < 2 ^ 64 - 1)
    {c : Chunk SledStores} (h : SaneChunk u U n lo hi c) :
    ∃ c', writeTimePoints (sledComp B) c ls ps = (if ∃ p ∈ ps, onBoundary lo hi p then .err .internal else .ok (), c') ∧ SaneChunk u U (n + ps.length) lo hi c' := by
  have hlen : (ps.filter (keepPoint lo hi)).length ≤ ps.length := List.length_filter_le _ _
  obtain ⟨k, c', e1, hk, h1⟩ := sane_insertEach B hls hu (ps.filter (keepPoint lo hi)) (fun p hp' => hp p (List.mem_filter.mp hp').1) (n := n) (by omega) h
  unfold writeTimePoints
  rw [h.start_, h.end_, e1]
  have hiff : k = 0 ↔ ¬ ∃ p ∈ ps, onBoundary lo hi p := by
    rw [hk, filter_keep]
    constructor
    · rintro hin ⟨p, hp1, hp2⟩
      have hkeep := onBoundary_kept hp1 hp2
      have hin' := hin p hkeep
      rw [(not_inside_kept hkeep).mpr hp2] at hin'; cases hin'
    · intro hno p hp'
      by_contra hin
      exact hno ⟨p, (List.mem_filter.mp hp').1, (not_inside_kept hp').mp (by simpa using hin)⟩
  refine ⟨c', ?_, ⟨h1.start_, h1.end_, h1.calm, by have := h1.ids; omega, h1.store⟩⟩
  rcases k with _ | k
  · rw [if_neg (hiff.mp rfl)]
  · rw [if_pos (by by_contra hne; exact absurd (hiff.mpr hne) (by simp))]

/-! ### Queries of chunks -/

theorem mapM_calm {α β : Type} {f : α → Res β} (hf : ∀ a, f a ≠ .panic) (l : List α) : Res.mapM f l ≠ .panic := by
  induction l with
  | nil => simp [Res.mapM]
  | cons a l ih =>
    rw [Res.mapM]
    rcases ha : f a with x | e | _
    · rw [Res.bind_ok]
      rcases hl : Res.mapM f l with y | e | _
      · simp
      · simp
      · exact absurd hl ih
    · simp
    · exact absurd ha (hf a)

theorem mapM_mem {α β : Type} {f : α → Res β} {l : List α} {r : List β} (h : Res.mapM f l = .ok r) : ∀ y ∈ r, ∃ x ∈ l, f x = .ok y := by
  induction l generalizing r with
  | nil => rw [Res.mapM] at h; cases h; simp
  | cons a l ih =>
    rw [Res.mapM] at h
    rcases ha : f a with x | e | _
    · rw [ha, Res.bind_ok] at h
      rcases hl : Res.mapM f l with z | e | _
      · rw [hl, Res.bind_ok] at h; cases h
        intro y hy
        rcases List.mem_cons.mp hy with rfl | hy
        · exact ⟨a, by simp, ha⟩
        · obtain ⟨x', hx', e⟩ := ih hl y hy; exact ⟨x', by simp [hx'], e⟩
      · rw [hl] at h; simp at h
      · rw [hl] at h; simp [Res.bind] at h
    · rw [ha] at h; simp at h
    · rw [ha] at h; simp [Res.bind] at h

theorem parseId_calm (s : Str) : parseId s ≠ .panic := by
  unfold parseId
  rcases parseUnsigned 10 (2 ^ 64 - 1) s with _ | n <;> simp [Res.ofErr, Res.bind]

theorem decodeLabels_calm (v : Str) : decodeLabels v ≠ .panic := by
  unfold decodeLabels
  refine mapM_calm (fun p => ?_) _
  rcases splitEquals p with _ | l <;> simp [Res.ofErr]

theorem metadata_calm (kv : KV) (q : Labels) : sledMetadata kv q ≠ .panic := by
  have h1 : ∀ l, sledGetId kv l ≠ .panic := by
    intro l
    unfold sledGetId
    split
    · rename_i v _
      have := mapM_calm parseId_calm (splitComma v)
      rcases hm : Res.mapM parseId (splitComma v) with x | e | _ <;> simp_all
    · simp
  have h2 : ∀ i, sledMeta1 kv i ≠ .panic := by
    intro i
    unfold sledMeta1
    split
    · rename_i v _
      have := decodeLabels_calm v
      rcases hm : decodeLabels v with x | e | _ <;> simp_all
    · simp
  unfold sledMetadata sledContains
  have := mapM_calm h1 q
  rcases hm : Res.mapM (sledGetId kv) q with x | e | _
  · rw [Res.bind_ok, Res.bind_ok]
    have h3 := mapM_calm h2 (intersectAll (x.filterMap id))
    rcases hm' : Res.mapM (sledMeta1 kv) (intersectAll (x.filterMap id)) with y | e | _ <;> simp_all
  · simp
  · exact absurd hm this

theorem metadata_mem {kv : KV} {q : Labels} {r : List (U64 × Labels)} (h : sledMetadata kv q = .ok r) :
    ∀ e ∈ r, ∃ v, kv (encodeId e.1) = some v ∧ decodeLabels v = .ok e.2 := by
  unfold sledMetadata at h
  rcases hc : sledContains kv q with ids | e | _
  · rw [hc, Res.bind_ok] at h
    rcases hm : Res.mapM (sledMeta1 kv) ids with y | e | _
    · rw [hm, Res.bind_ok] at h; cases h
      intro e he
      obtain ⟨o, ho, rfl⟩ : ∃ o, o ∈ y ∧ o = some e := by simpa using he
      obtain ⟨i, -, hi⟩ := mapM_mem hm _ ho
      unfold sledMeta1 at hi
      rcases hk : kv (encodeId i) with _ | v
      · rw [hk] at hi; simp at hi
      · rw [hk] at hi
        simp only [] at hi
        rcases hd : decodeLabels v with ls | e | _
        · rw [hd, Res.bind_ok] at hi; cases hi; exact ⟨v, hk, hd⟩
        · rw [hd] at hi; simp at hi
        · rw [hd] at hi; simp [Res.bind] at hi
    · rw [hm] at h; simp at h
    · rw [hm] at h; simp [Res.bind] at h
  · rw [hc] at h; simp at h
  · rw [hc] at h; simp [Res.bind] at h

/-- What a query of a chunk may report. -/
def FairSeries (u : Str → Bool) (U : Str → TimePoint → Prop) (y : Series) : Prop :=
  u (spelled y.labels) = true ∧ y.points ≠ [] ∧ ∀ p ∈ y.points, U (spelled y.labels) p

theorem readAll_sane {u : Str → Bool} {U : Str → TimePoint → Prop} {nid : Nat} {s : SledStores} (h : SaneStore u U nid s) {B : BinSearch} (hB : Careful B) {a b : U64}
    (hab : a.toNat ≤ b.toNat) (l : List (U64 × Labels)) (hl : ∀ e ∈ l, ∃ v, s.idx (encodeId e.1) = some v ∧ decodeLabels v = .ok e.2) :
    readAll (sledComp B) s a b l ≠ .panic ∧ ∀ y ∈ okSeries (readAll (sledComp B) s a b l), FairSeries u U y := by
  obtain ⟨series, h1, h2⟩ := h.stored
  induction l with
  | nil => exact ⟨by simp [readAll], by simp [readAll, okSeries]⟩
  | cons e l ih =>
    obtain ⟨i, ls⟩ := e
    obtain ⟨i1, i2⟩ := ih fun e he => hl e (by simp [he])
    obtain ⟨v, hv, hd⟩ := hl (i, ls) (by simp)
    simp only [] at hv hd
    rw [readAll]
    have hread : (sledComp B).read s i a b = if series i = [] then .err .notFound else readSeries B (series i) a b := sledRead_eq h1 B i a b
    rw [hread]
    by_cases h0 : series i = []
    · rw [if_pos h0]; exact ⟨by simp, by simp [okSeries]⟩
    · rw [if_neg h0]
      rcases read_safe hB h0 hab with ⟨e, he⟩ | ⟨lo, hi, he⟩
      · rw [he]; exact ⟨by simp, by simp [okSeries]⟩
      · rw [he, Res.bind_ok]
        rcases hr : readAll (sledComp B) s a b l with r | e | _
        · rw [hr] at i2
          rw [Res.bind_ok]
          refine ⟨by simp, fun y hy => ?_⟩
          simp only [okSeries] at hy i2
          split at hy
          · exact i2 y hy
          · rename_i hn
            rcases List.mem_cons.mp hy with rfl | hy
            · have hs := decode_spelled hd
              refine ⟨?_, fun e => hn (List.length_eq_zero_iff.mpr e), fun p hp => ?_⟩
              · show u (spelled ls) = true; rw [hs]; exact (h.names i v hv).2
              · show U (spelled ls) p; rw [hs]
                exact (h2 i p (List.mem_of_mem_take (List.mem_of_mem_drop hp))).2 v hv
            · exact i2 y hy
        · exact ⟨by simp, by simp [okSeries]⟩
        · exact absurd hr i1

theorem query_sane {u : Str → Bool} {U : Str → TimePoint → Prop} {nid : Nat} {c : Chunk SledStores} (hc : c.poisoned = false) (h : SaneStore u U nid c.store)
    {B : BinSearch} (hB : Careful B) (q : Labels) {a b : U64} (hab : a.toNat ≤ b.toNat) :
    (c.view (sledComp B)).query q a b ≠ .panic ∧ ∀ y ∈ okSeries ((c.view (sledComp B)).query q a b), FairSeries u U y := by
  show c.query (sledComp B) q a b ≠ .panic ∧ ∀ y ∈ okSeries (c.query (sledComp B) q a b), FairSeries u U y
  unfold Chunk.query
  rw [if_neg (by rw [hc]; simp)]
  split
  · show (sledMetadata c.store.idx q).bind _ ≠ _ ∧ ∀ y ∈ okSeries ((sledMetadata c.store.idx q).bind _), _
    rcases hm : sledMetadata c.store.idx q with r | e | _
    · rw [Res.bind_ok]; exact readAll_sane h hB hab r (metadata_mem hm)
    · exact ⟨by simp, by simp [okSeries]⟩
    · exact absurd hm (metadata_calm _ _)
  · exact ⟨by simp, by simp [okSeries]⟩

/-! ### Queries of the database -/

/-- The map used for merging is in order. -/
structure FairMap (u : Str → Bool) (U : Str → TimePoint → Prop) (m : HMap) : Prop where
  nodup : (m.map (·.1)).Nodup
  fair : ∀ e ∈ m, u (spelled e.1) = true ∧ e.2 ≠ [] ∧ ∀ p ∈ e.2, U (spelled e.1) p

theorem FairMap.modify {u : Str → Bool} {U : Str → TimePoint → Prop} {m : HMap} (h : FairMap u U m) (k : Labels) (f : List TimePoint → List TimePoint)
    (hf : ∀ e ∈ m, e.1 = k → f e.2 ≠ [] ∧ ∀ p ∈ f e.2, U (spelled k) p) : FairMap u U (m.modify k f) := by
  have hkeys : (m.modify k f).map (·.1) = m.map (·.1) := by
    unfold HMap.modify; rw [List.map_map]; apply List.map_congr_left; intro e _; simp only [Function.comp]; split <;> rfl
  refine ⟨by rw [hkeys]; exact h.nodup, fun e he => ?_⟩
  obtain ⟨e', he', rfl⟩ := List.mem_map.mp he
  by_cases hk : e'.1 = k
  · simp only [if_pos hk]
    have := hf e' he' hk
    exact ⟨(h.fair e' he').1, this.1, by rw [hk]; exact this.2⟩
  · simp only [if_neg hk]; exact h.fair e' he'

theorem FairMap.insert {u : Str → Bool} {U : Str → TimePoint → Prop} {H : Hash} (hg : H.Good fun _ => True) {m : HMap} (h : FairMap u U m) {k : Labels} {v : List TimePoint}
    (hk : u (spelled k) = true) (hv : v ≠ [] ∧ ∀ p ∈ v, U (spelled k) p) : ∃ m', m.insert H k v = some m' ∧ FairMap u U m' := by
  unfold HMap.insert
  rw [find_good hg (k := k) trivial m (fun _ _ => trivial)]
  by_cases hm : k ∈ m.map (·.1)
  · rw [if_pos hm]; exact ⟨_, rfl, h.modify k _ fun _ _ _ => hv⟩
  · rw [if_neg hm]
    refine ⟨_, rfl, ?_, fun e he => ?_⟩
    · rw [List.map_append, List.nodup_append]
      refine ⟨h.nodup, by simp, ?_⟩
      intro a ha b hb e
      simp only [List.map_cons, List.map_nil, List.mem_singleton] at hb
      exact hm (by rw [← hb, ← e]; exact ha)
    · rcases List.mem_append.mp he with he | he
      · exact h.fair e he
      · rw [List.mem_singleton] at he; subst he; exact ⟨hk, hv⟩

theorem FairMap.append {u : Str → Bool} {U : Str → TimePoint → Prop} {H : Hash} (hg : H.Good fun _ => True) {m : HMap} (h : FairMap u U m) {k : Labels} {v : List TimePoint}
    (hk : u (spelled k) = true) (hv : v ≠ [] ∧ ∀ p ∈ v, U (spelled k) p) : ∃ m', m.append H k v = some m' ∧ FairMap u U m' := by
  unfold HMap.append
  rw [find_good hg (k := k) trivial m (fun _ _ => trivial)]
  by_cases hm : k ∈ m.map (·.1)
  · rw [if_pos hm]
    refine ⟨_, rfl, h.modify k _ fun e he hek => ⟨by simp [hv.1], fun p hp => ?_⟩⟩
    rcases List.mem_append.mp hp with hp | hp
    · rw [← hek]; exact (h.fair e he).2.2 p hp
    · exact hv.2 p hp
  · rw [if_neg hm]; exact h.insert hg hk hv

theorem addSeries_fair {u : Str → Bool} {U : Str → TimePoint → Prop} {f : HMap → Labels → List TimePoint → Option HMap}
    (hf : ∀ m k v, FairMap u U m → u (spelled k) = true → (v ≠ [] ∧ ∀ p ∈ v, U (spelled k) p) → ∃ m', f m k v = some m' ∧ FairMap u U m')
    (ss : List Series) (hs : ∀ y ∈ ss, FairSeries u U y) {m : HMap} (h : FairMap u U m) : ∃ m', addSeries f m ss = some m' ∧ FairMap u U m' := by
  induction ss generalizing m with
  | nil => exact ⟨m, rfl, h⟩
  | cons y ss ih =>
    obtain ⟨y1, y2, y3⟩ := hs y (by simp)
    obtain ⟨m1, e1, h1⟩ := hf m y.labels y.points.reverse h y1 ⟨by simpa using y2, fun p hp => y3 p (by simpa using hp)⟩
    obtain ⟨m2, e2, h2⟩ := ih (fun z hz => hs z (by simp [hz])) h1
    exact ⟨m2, by rw [addSeries, e1]; exact e2, h2⟩

theorem secondary_fair {u : Str → Bool} {U : Str → TimePoint → Prop} {H : Hash} (hg : H.Good fun _ => True) {q : Labels} {a b : U64} (vs : List View)
    (hv : ∀ v ∈ vs, v.query q a b ≠ .panic ∧ ∀ y ∈ okSeries (v.query q a b), FairSeries u U y) {m : HMap} (h : FairMap u U m) :
    ∃ m', querySecondary H q a b vs m = some m' ∧ FairMap u U m' := by
  induction vs generalizing m with
  | nil => exact ⟨m, rfl, h⟩
  | cons v vs ih =>
    have ih := fun {m} (h : FairMap u U m) => ih (fun x hx => hv x (by simp [hx])) (m := m) h
    obtain ⟨v1, v2⟩ := hv v (by simp)
    rw [querySecondary]
    split
    · rcases hr : v.query q a b with ss | e | _
      · simp only []
        rw [hr] at v2
        obtain ⟨m1, e1, h1⟩ := addSeries_fair (fun m k v h hk hv => FairMap.append hg h hk hv) ss v2 h
        rw [e1]; exact ih h1
      · exact ih h
      · exact absurd hr v1
    · exact ih h

theorem collect_fair {u : Str → Bool} {U : Str → TimePoint → Prop} {H : Hash} (hg : H.Good fun _ => True) {m : HMap} (h : FairMap u U m) (ks : List Labels)
    (hks : ∀ k ∈ ks, k ∈ m.map (·.1)) :
    ∃ r, collectKeys H m ks = some r ∧ r.map (·.1) = ks ∧ ∀ e ∈ r, u (spelled e.1) = true ∧ e.2 ≠ [] ∧ ∀ p ∈ e.2, U (spelled e.1) p := by
  induction ks with
  | nil => exact ⟨[], rfl, rfl, by simp⟩
  | cons k ks ih =>
    obtain ⟨r, e1, e2, e3⟩ := ih fun x hx => hks x (by simp [hx])
    have hk := hks k (by simp)
    rw [collectKeys, find_good hg (k := k) trivial m (fun _ _ => trivial), if_pos hk]
    simp only []
    rcases hx : m.find? (fun e => decide (e.1 = k)) with _ | x
    · obtain ⟨e, he, hek⟩ := List.mem_map.mp hk
      rw [List.find?_eq_none] at hx
      exact absurd (by simpa using hek) (hx e he)
    · have h1 := List.mem_of_find?_eq_some hx
      have h2 : x.1 = k := by simpa using List.find?_some hx
      simp only [hx, e1]
      refine ⟨_, rfl, by rw [List.map_cons, e2, h2], fun e he => ?_⟩
      rcases List.mem_cons.mp he with rfl | he
      · have := h.fair x h1
        exact ⟨this.1, by simpa using this.2.1, fun p hp => this.2.2 p (by simpa using hp)⟩
      · exact e3 e he

/-- The whole query. -/
theorem dbQuery_fair {u : Str → Bool} {U : Str → TimePoint → Prop} {H : Hash} (hg : H.Good fun _ => True) {q : Labels} {a b : U64} {cur : View} {secondary : List View}
    (hv : ∀ v ∈ cur :: secondary, v.query q a b ≠ .panic ∧ ∀ y ∈ okSeries (v.query q a b), FairSeries u U y) :
    ∃ r, dbQuery H cur secondary q a b = .ok r ∧ (r.map (·.1)).Nodup ∧ ∀ e ∈ r, u (spelled e.1) = true ∧ e.2 ≠ [] ∧ ∀ p ∈ e.2, U (spelled e.1) p := by
  have h0 : FairMap u U [] := ⟨List.nodup_nil, by simp⟩
  have hcur : ∃ m, queryCurrent H cur q a b = some m ∧ FairMap u U m := by
    obtain ⟨v1, v2⟩ := hv cur (by simp)
    unfold queryCurrent
    rcases hr : cur.query q a b with ss | e | _
    · rw [hr] at v2
      exact addSeries_fair (fun m k v h hk hv => FairMap.insert hg h hk hv) ss v2 h0
    · exact ⟨[], rfl, h0⟩
    · exact absurd hr v1
  obtain ⟨m, e1, h1⟩ := hcur
  obtain ⟨m', e2, h2⟩ := secondary_fair hg secondary.reverse (fun v hv' => hv v (by simp only [List.mem_reverse] at hv'; simp [hv'])) h1
  obtain ⟨r, e3, e4, e5⟩ := collect_fair hg h2 (H.order (m'.map (·.1))) (fun k hk => (H.perm _).mem_iff.mp hk)
  refine ⟨r, by unfold dbQuery; simp only [e1, e2, e3]; rfl, ?_, e5⟩
  rw [e4]; exact (H.perm _).nodup_iff.mpr h2.nodup

/-! ### The machine -/

/-- The database works; `lo` and `hi` are the window of the current chunk. -/
structure SaneDb (u : Str → Bool) (U : Str → TimePoint → Prop) (n : Nat) (lo hi : U64) (db : LiveDb) : Prop where
  cur : SaneChunk u U n lo hi db.cur
  secondary : ∀ c ∈ db.secondary, c.poisoned = false ∧ ∃ nid, SaneStore u U nid c.store
  old : ∀ s ∈ db.old, s.config = .complete ∧ (∃ a b, s.name = encodeChunkDir a b) ∧ ∃ nid, SaneStore u U nid s.stores

theorem SaneDb.mono {u : Str → Bool} {U U' : Str → TimePoint → Prop} (hU : ∀ v p, U v p → U' v p) {n k : Nat} {lo hi : U64} {db : LiveDb} (h : SaneDb u U n lo hi db)
    (hk : n ≤ k) : SaneDb u U' k lo hi db where
  cur := ⟨h.cur.start_, h.cur.end_, h.cur.calm, by have := h.cur.ids; omega, h.cur.store.mono hU⟩
  secondary c hc := by obtain ⟨h1, nid, h2⟩ := h.secondary c hc; exact ⟨h1, nid, h2.mono hU⟩
  old s hs := by obtain ⟨h1, h2, nid, h3⟩ := h.old s hs; exact ⟨h1, h2, nid, h3.mono hU⟩

theorem SaneDb.slots {u : Str → Bool} {U : Str → TimePoint → Prop} {n : Nat} {lo hi : U64} {db : LiveDb} (h : SaneDb u U n lo hi db) :
    ∀ s ∈ db.slots, s.config = .complete ∧ (∃ a b, s.name = encodeChunkDir a b) ∧ ∃ nid, SaneStore u U nid s.stores := by
  intro s hs
  rcases List.mem_append.mp hs with hs | hs
  · exact h.old s hs
  · rw [List.mem_singleton] at hs; subst hs
    exact ⟨rfl, ⟨_, _, rfl⟩, _, h.cur.store⟩

theorem sane_new (u : Str → Bool) (U : Str → TimePoint → Prop) (n : Nat) (lo hi : U64) : SaneChunk u U n lo hi (Chunk.new noStores lo hi) :=
  ⟨rfl, rfl, rfl, by simp [Chunk.new], sane_none _ _ _⟩

theorem readChunks_sane {u : Str → Bool} {U : Str → TimePoint → Prop} {base : Str} (hb : ∀ b ∈ base, isCont b = false) (clock : Str → U64) (ss : List Slot)
    (h : ∀ s ∈ ss, s.config = .complete ∧ (∃ a b, s.name = encodeChunkDir a b) ∧ ∃ nid, SaneStore u U nid s.stores) :
    ∃ cs, readChunks base clock ss = some cs ∧ ∀ c ∈ cs, c.poisoned = false ∧ ∃ nid, SaneStore u U nid c.store := by
  induction ss with
  | nil => exact ⟨[], rfl, by simp⟩
  | cons s ss ih =>
    obtain ⟨cs, e1, e2⟩ := ih fun x hx => h x (by simp [hx])
    obtain ⟨h1, ⟨a, b, h2⟩, nid, h3⟩ := h s (by simp)
    have hr : s.reopen base clock = some (some (Chunk.close (Chunk.new s.stores a (if b.toNat > (clock s.name).toNat then clock s.name else b))).2) := by
      unfold Slot.reopen
      rw [h1, h2, show decide (ConfigFile.complete = ConfigFile.complete) = true from rfl, C11_partial base hb a b _]
    refine ⟨_, by rw [readChunks, hr, e1]; rfl, fun c hc => ?_⟩
    rcases List.mem_cons.mp hc with rfl | hc
    · exact ⟨rfl, nid, h3⟩
    · exact e2 c hc

theorem SaneDb.restart {u : Str → Bool} {U : Str → TimePoint → Prop} {n : Nat} {lo hi : U64} {db : LiveDb} (h : SaneDb u U n lo hi db) (B : BinSearch) {base : Str}
    (hb : ∀ b ∈ base, isCont b = false) (size : U64) {order : List Slot → List Slot} (ho : ∀ l, (order l).Perm l) (clock : Str → U64) (now : U64) :
    ∃ db', db.step B base size (.restart order clock now) = some db' ∧ SaneDb u U n now (now + size) db' := by
  have hs : ∀ s ∈ order db.slots, _ := fun s hs => h.slots s ((ho _).mem_iff.mp hs)
  obtain ⟨cs, e1, e2⟩ := readChunks_sane hb clock (order db.slots) hs
  refine ⟨_, by simp only [LiveDb.step, readExistingChunks, e1]; rfl, ⟨sane_new _ _ _ _ _, fun c hc => ?_, hs⟩⟩
  exact e2 c ((stableSort_perm _ _).mem_iff.mp hc)

theorem SaneDb.tick {u : Str → Bool} {U : Str → TimePoint → Prop} {n : Nat} {lo hi : U64} {db : LiveDb} (h : SaneDb u U n lo hi db) (B : BinSearch) (base : Str) (size r : U64) :
    ∃ db', db.step B base size (.tick r) = some db' ∧ SaneDb u U n (r + 1) (r + 1 + size) db' := by
  refine ⟨_, rfl, ⟨sane_new _ _ _ _ _, fun c hc => ?_, h.slots⟩⟩
  rcases List.mem_append.mp hc with hc | hc
  · exact h.secondary c hc
  · rw [List.mem_singleton] at hc; subst hc
    unfold Chunk.close
    rw [if_neg (by rw [h.cur.calm]; simp)]
    exact ⟨h.cur.calm, _, h.cur.store⟩

theorem SaneDb.write {u : Str → Bool} {U : Str → TimePoint → Prop} (B : BinSearch) (H : Hash) {lo hi : U64} {c : Gen} (hc : c.lo = lo ∧ c.hi = hi) (m : List PSeries)
    (hls : ∀ s ∈ m, ∀ l ∈ s.labels, l.key.head? ≠ some 82#8) (hu : ∀ s ∈ m, u (spelled (sortLabels s.labels)) = true)
    (hU : ∀ s ∈ m, ∀ x ∈ s.samples, U (spelled (sortLabels s.labels)) x.point) {n : Nat} {db : LiveDb} (h : SaneDb u U n lo hi db)
    (hn : n + (m.map fun s => s.samples.length).sum < 2 ^ 64 - 1) :
    ∃ db', serverWrite (liveApi B H) db m = (if ∃ s ∈ m, Refused c s then .err .internal else .ok (), db') ∧
      SaneDb u U (n + (m.map fun s => s.samples.length).sum) lo hi db' := by
  induction m generalizing n db with
  | nil => exact ⟨db, by simp [serverWrite], by simpa using h⟩
  | cons s m ih =>
    simp only [List.map_cons, List.sum_cons] at hn ⊢
    obtain ⟨c', e1, e2⟩ := sane_write (U := U) B (hls s (by simp)) (hu s (by simp)) (s.samples.map ofSample) (by
      intro p hp; obtain ⟨x, hx, rfl⟩ := List.mem_map.mp hp; exact hU s (by simp) x hx) (n := n) (by rw [List.length_map]; omega) h.cur
    rw [List.length_map] at e2
    have h1 : SaneDb u U (n + s.samples.length) lo hi { db with cur := c' } := ⟨e2, h.secondary, h.old⟩
    have hst : (liveApi B H).write db (ofSeries s).1 (ofSeries s).2 = (if Refused c s then .err .internal else .ok (), { db with cur := c' }) := by
      have hiff : (∃ p ∈ s.samples.map ofSample, onBoundary lo hi p) ↔ Refused c s := by rw [refused_iff, hc.1, hc.2]
      simp only [hiff] at e1
      show ((writeTimePoints (sledComp B) db.cur s.labels (s.samples.map ofSample)).1,
        ({ db with cur := (writeTimePoints (sledComp B) db.cur s.labels (s.samples.map ofSample)).2 } : LiveDb)) = _
      rw [e1]
    rw [serverWrite, hst]
    by_cases hr : Refused c s
    · rw [if_pos hr, if_pos ⟨s, by simp, hr⟩]
      exact ⟨_, rfl, h1.mono (fun _ _ h => h) (by omega)⟩
    · rw [if_neg hr]
      obtain ⟨db', e3, e4⟩ := ih (fun x hx => hls x (by simp [hx])) (fun x hx => hu x (by simp [hx])) (fun x hx => hU x (by simp [hx])) h1 (by omega)
      have : (∃ x ∈ s :: m, Refused c x) ↔ ∃ x ∈ m, Refused c x := by simp [hr]
      simp only [this]
      exact ⟨db', e3, by rw [← Nat.add_assoc]; exact e4⟩

/-- The answer to one query of a read, in wire form. -/
def FairResult (U : Str → TimePoint → Prop) (r : List PSeries) : Prop :=
  (r.map (·.labels)).Nodup ∧ ∀ y ∈ r, y.samples ≠ [] ∧ ∀ z ∈ y.samples, ∃ p, U (spelled y.labels) p ∧ z = asReported p

theorem SaneDb.read {rt : PbRt} (hcut : CutsAtAscii rt.utf8) {U : Str → TimePoint → Prop} {B : BinSearch} (hB : Careful B) {H : Hash} (hg : H.Good fun _ => True)
    {n : Nat} {lo hi : U64} {db : LiveDb} (h : SaneDb rt.utf8 U n lo hi db) (qs : List PQuery) (hq : ∀ q ∈ qs, (asU64 q.start_).toNat ≤ (asU64 q.end_).toNat) :
    ∃ rs, serverQuery (liveApi B H) db qs = .ok rs ∧ rs.length = qs.length ∧ (∀ r ∈ rs.map (·.map wireSeries), FairResult U r) ∧ ∀ r ∈ rs, ∀ x ∈ r, SeriesOk rt.utf8 x := by
  unfold serverQuery
  induction qs with
  | nil => exact ⟨[], rfl, rfl, by simp, by simp⟩
  | cons q qs ih =>
    obtain ⟨rs, h1, h2, h3, h4⟩ := ih fun x hx => hq x (by simp [hx])
    obtain ⟨r, e1, e2, e3⟩ := dbQuery_fair (u := rt.utf8) (U := U) hg (q := q.matchers.map ofMatcher) (a := asU64 q.start_) (b := asU64 q.end_)
      (cur := db.cur.view (sledComp B)) (secondary := db.secondary.map fun c => c.view (sledComp B)) (by
        intro v hv
        rcases List.mem_cons.mp hv with rfl | hv
        · exact query_sane h.cur.calm h.cur.store hB _ (hq q (by simp))
        · obtain ⟨c, hc, rfl⟩ := List.mem_map.mp hv
          obtain ⟨k1, nid, k2⟩ := h.secondary c hc
          exact query_sane k1 k2 hB _ (hq q (by simp)))
    have ha : answerQuery (liveApi B H) db q = .ok (r.map toSeries) := by
      unfold answerQuery
      show (match db.query B H (q.matchers.map ofMatcher) (asU64 q.start_) (asU64 q.end_) with
        | .ok r => Res.ok (r.map toSeries) | .err _ => .ok [] | .panic => .panic) = _
      unfold LiveDb.query
      rw [e1]
    refine ⟨r.map toSeries :: rs, by rw [Res.mapM, ha, Res.bind_ok, h1, Res.bind_ok], by simp [h2], fun x hx => ?_, fun x hx y hy => ?_⟩
    · rw [List.map_cons] at hx
      rcases List.mem_cons.mp hx with rfl | hx
      · have el : ((r.map toSeries).map wireSeries) = r.map fun e => ⟨e.1, e.2.map asReported⟩ := by
          rw [List.map_map]
          refine List.map_congr_left fun e _ => ?_
          show wireSeries (toSeries e) = _
          unfold wireSeries toSeries
          simp only [List.map_map]
          rfl
        rw [el]
        refine ⟨by rw [List.map_map]; exact e2, fun y hy => ?_⟩
        obtain ⟨e, he, rfl⟩ := List.mem_map.mp hy
        obtain ⟨-, k2, k3⟩ := e3 e he
        refine ⟨by simpa using k2, fun z hz => ?_⟩
        obtain ⟨p, hp, rfl⟩ := List.mem_map.mp hz
        exact ⟨p, k3 p hp, rfl⟩
      · exact h3 x hx
    · rcases List.mem_cons.mp hx with rfl | hx
      · obtain ⟨e, he, rfl⟩ := List.mem_map.mp hy
        exact toSeries_ok ((utf8_spelled hcut rt.utf8nil e.1).mp (e3 e he).1)
      · exact h4 x hx y hy

/-- The response to a happening, with labels of any content. `past` is what happened before. -/
def AnsweredLax (sn : Snappy) (utf8 : Str → Bool) (past : List Happening) (s : Site) : Happening → Option Response → Prop
  | .call (.read qs), x =>
    if s.up then ∃ body out, x = some ⟨200, body⟩ ∧ sn.decompress body = some out ∧
          ∃ rs : List (List PSeries), rs.length = qs.length ∧ (∀ r ∈ rs, FairResult (sentAs past) r) ∧ (out.length < 2 ^ 32 → ∀ m, IsResponse utf8 m out ↔ m = rs)
    else x = none
  | e, x => Answered sn utf8 s e x

/-- The machine works. -/
structure SaneHost (u : Str → Bool) (past : List Happening) (n : Nat) (h : Host) (s : Site) : Prop where
  up : h.up = s.up
  db : SaneDb u (sentAs past) n s.g.cur.lo s.g.cur.hi h.db

theorem sentAs_more {past : List Happening} (e : Happening) (v : Str) (p : TimePoint) (h : sentAs past v p) : sentAs (past ++ [e]) v p := by
  obtain ⟨m, ser, x, h1, h2⟩ := h
  exact ⟨m, ser, x, List.mem_append_left _ h1, h2⟩

/-- One happening. -/
theorem SaneHost.step {B : BinSearch} (hB : Careful B) {H : Hash} (hg : H.Good fun _ => True) {rt : PbRt} (hcut : CutsAtAscii rt.utf8) (sn : Snappy) {P : Paths}
    (hP : P.read ≠ P.write) {base : Str} (hb : ∀ b ∈ base, isCont b = false) {size : U64} {past : List Happening} {n : Nat} {h : Host} {s : Site} (hr : SaneHost rt.utf8 past n h s)
    {e : HostEvent} {e' : Happening} (hm : Means sn rt.utf8 P e e') (hp : Lax rt e') (hlen : n + sent [e'] < 2 ^ 64 - 1) :
    ∃ x h', h.step B H (pbFormats sn rt) P base size e = (x, h') ∧ AnsweredLax sn rt.utf8 past s e' x ∧ SaneHost rt.utf8 (past ++ [e']) (n + sent [e']) h' (s.next size e') := by
  obtain ⟨hu, db⟩ := h
  obtain ⟨su, g⟩ := s
  have hup : hu = su := hr.up
  subst hup
  have more : SaneHost rt.utf8 (past ++ [e']) (n + sent [e']) ⟨hu, db⟩ ⟨hu, g⟩ := ⟨rfl, hr.db.mono (sentAs_more e') (by omega)⟩
  cases e with
  | request r =>
    cases e' with
    | call c =>
      cases hu with
      | false => exact ⟨none, ⟨false, db⟩, rfl, by cases c <;> rfl, more⟩
      | true =>
        have hm : Says sn rt.utf8 P r c := hm
        obtain ⟨url, rb⟩ := r
        cases c with
        | write m =>
          obtain ⟨hurl, body, bytes, hbody, hd, hw⟩ := hm
          simp only [] at hurl hbody
          subst hurl hbody
          have hs : sent [.call (.write m)] = (m.map fun s => s.samples.length).sum := by simp [sent]
          rw [hs] at hlen ⊢
          obtain ⟨db', e1, e2⟩ := SaneDb.write (u := rt.utf8) (U := sentAs (past ++ [.call (.write m)])) B H (c := g.cur) ⟨rfl, rfl⟩ m hp
            (fun x hx => (utf8_spelled hcut rt.utf8nil _).mpr fun l hl => isWrite_utf8 rt.utf8nil hw x hx l ((sortLabels_mem _ _).mp hl))
            (fun ser hser x hx => ⟨m, ser, x, by simp, hser, hx, rfl, rfl⟩) (hr.db.mono (sentAs_more _) (Nat.le_refl n)) hlen
          have hpr := C48_status (liveApi B H) (pbFormats sn rt) P hP db body bytes hd
          rw [C59_write sn rt hw, e1] at hpr
          refine ⟨some ⟨if ∃ ser ∈ m, Refused g.cur ser then 500 else 200, []⟩, ⟨true, db'⟩, ?_, rfl, ⟨rfl, e2⟩⟩
          simp only [Host.step, if_true]
          rw [hpr]
          by_cases hx : ∃ s ∈ m, Refused g.cur s
          · simp only [if_pos hx]
          · simp only [if_neg hx]
        | read qs =>
          obtain ⟨hurl, body, bytes, hbody, hd, hw⟩ := hm
          simp only [] at hurl hbody
          subst hurl hbody
          obtain ⟨p1, p2⟩ := hp
          obtain ⟨rs, e1, e2, e3, e4⟩ := hr.db.read hcut hB hg qs p2
          have hpr := C47_response (liveApi B H) (pbFormats sn rt) P db body bytes ⟨qs, false⟩ rs hd (C59_read sn rt hw p1) rfl e1
          refine ⟨some ⟨200, sn.compress (encResponse rs)⟩, ⟨true, db⟩, ?_, ?_, more⟩
          · simp only [Host.step, if_true]
            rw [hpr]
            rfl
          · refine ⟨_, encResponse rs, rfl, sn.undo _, rs.map (·.map wireSeries), by rw [List.length_map, e2], e3, fun hl => ?_⟩
            obtain ⟨out, o1, o2⟩ := C60_response_partial sn rt rs e4 hl
            have : out = encResponse rs := by
              have : sn.decompress (sn.compress (encResponse rs)) = some out := o1
              rw [sn.undo] at this
              exact (Option.some.inj this).symm
            rw [← this]
            exact o2
        | badRead =>
          obtain ⟨hurl, body, bytes, hbody, hd, hw⟩ := hm
          simp only [] at hurl hbody
          subst hurl hbody
          have hpr := C71_refused_partial (liveApi B H) sn rt hp P db body bytes hd hw
          refine ⟨some ⟨500, []⟩, ⟨true, db⟩, ?_, rfl, more⟩
          simp only [Host.step, if_true]
          rw [hpr]
        | other =>
          obtain ⟨h1, h2, body, bytes, hbody, hd⟩ := hm
          simp only [] at h1 h2 hbody
          subst hbody
          have hd' : (pbFormats sn rt).decompress body = some bytes := hd
          refine ⟨some ⟨404, []⟩, ⟨true, db⟩, ?_, rfl, more⟩
          simp [Host.step, process, hd', h1, h2]
        | garbage =>
          refine ⟨none, ⟨false, db⟩, ?_, rfl, ⟨rfl, more.db⟩⟩
          have hpr : process (liveApi B H) (pbFormats sn rt) P db ⟨url, rb⟩ = (none, db) := by
            unfold process
            cases rb with
            | none => rfl
            | some body =>
              have : (pbFormats sn rt).decompress body = none := hm body rfl
              simp only [this]
          simp only [Host.step, if_true]
          rw [hpr]
    | tick => exact hm.elim
    | restart => exact hm.elim
  | tick r =>
    cases e' with
    | call => exact hm.elim
    | restart => exact hm.elim
    | tick r' =>
      obtain rfl : r = r' := hm
      cases hu with
      | false => exact ⟨none, ⟨false, db⟩, rfl, rfl, more⟩
      | true =>
        obtain ⟨db', e1, e2⟩ := more.db.tick B base size r
        refine ⟨none, ⟨true, db'⟩, ?_, rfl, ⟨rfl, e2⟩⟩
        simp only [Host.step, if_true]
        rw [e1]
  | restart o k nw =>
    cases e' with
    | call => exact hm.elim
    | tick => exact hm.elim
    | restart o' k' nw' =>
      obtain ⟨rfl, rfl, rfl⟩ := hm
      obtain ⟨db', e1, e2⟩ := more.db.restart B hb size hp k nw
      refine ⟨none, ⟨true, db'⟩, ?_, rfl, ⟨rfl, e2⟩⟩
      simp only [Host.step]
      rw [e1]

/-- A history. -/
theorem SaneHost.run {B : BinSearch} (hB : Careful B) {H : Hash} (hg : H.Good fun _ => True) {rt : PbRt} (hcut : CutsAtAscii rt.utf8) (sn : Snappy) {P : Paths}
    (hP : P.read ≠ P.write) {base : Str} (hb : ∀ b ∈ base, isCont b = false) {size : U64} {es : List HostEvent} {hs : List Happening} (hm : Forall₂ (Means sn rt.utf8 P) es hs)
    {past : List Happening} {n : Nat} {h : Host} {s : Site} (hr : SaneHost rt.utf8 past n h s) (hp : ∀ e ∈ hs, Lax rt e) (hlen : n + sent hs < 2 ^ 64 - 1) :
    ∃ xs h', h.run B H (pbFormats sn rt) P base size es = (xs, h') ∧ xs.length = hs.length ∧
      (∀ (i : Nat) (hi : i < hs.length) (hx : i < xs.length), AnsweredLax sn rt.utf8 (past ++ hs.take i) (s.after size (hs.take i)) hs[i] xs[i]) := by
  induction hm generalizing past n h s with
  | nil => exact ⟨[], h, rfl, rfl, by simp⟩
  | @cons e e' es hs h1 _ ih =>
    rw [sent_cons] at hlen
    obtain ⟨x, h', e1, e2, e3⟩ := hr.step hB hg hcut sn hP hb (size := size) h1 (hp e' (by simp)) (by omega)
    obtain ⟨xs, h'', i1, i2, i3⟩ := ih e3 (fun x hx => hp x (by simp [hx])) (by omega)
    refine ⟨x :: xs, h'', by simp [Host.run, e1, i1], by simp [i2], ?_⟩
    intro i hi hx
    cases i with
    | zero => rw [List.take_zero, List.append_nil]; exact e2
    | succ i =>
      have := i3 i (by simpa using hi) (by simpa using hx)
      rw [List.append_assoc] at this
      exact this

theorem fresh_saneHost (u : Str → Bool) (size now : U64) : SaneHost u [] 0 (Host.fresh size now) (Site.fresh size now) :=
  ⟨rfl, ⟨sane_new _ _ _ _ _, by simp [Host.fresh, LiveDb.fresh], by simp [Host.fresh, LiveDb.fresh]⟩⟩

end Verif
