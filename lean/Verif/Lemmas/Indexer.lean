import Verif.Model.Indexer
import Verif.Spec.Indexer
import Verif.Lemmas.Label
import Verif.Lemmas.Intersect
import Verif.Lemmas.Bits
namespace Verif
open List

/-! ### Intersection as used by the indexers -/

theorem eager_fair : Fair eagerSchedule :=
  fun _ => ⟨⟨(true, true), by simp [eagerSchedule], rfl⟩, ⟨(true, true), by simp [eagerSchedule], rfl⟩⟩

theorem intersectAll_spec (ts : List (List U64)) (hs : ∀ t ∈ ts, SAsc t) :
    SAsc (intersectAll ts) ∧ ∀ x, x ∈ intersectAll ts ↔ ts ≠ [] ∧ ∀ t ∈ ts, x ∈ t := by
  obtain ⟨r, hr⟩ := intersectFuel_some eagerSchedule eager_fair (ts.length + 1) [] ts (by omega)
  have := intersectFuel_mem eagerSchedule _ _ _ hr (fun t ht => (hs t ht).asc)
  have e : intersectAll ts = r := by unfold intersectAll intersectIds; rw [hr]; rfl
  rw [e]
  refine ⟨?_, this.2.1⟩
  cases ts with
  | nil =>
    have : r = [] := by
      cases r with
      | nil => rfl
      | cons x r => have := (this.2.1 x).mp (by simp); simp at this
    subst this; exact Pairwise.nil
  | cons t ts => exact this.2.2 ⟨t, by simp, hs t (by simp)⟩

/-- Strictly ascending lists with the same members are equal. -/
theorem SAsc.ext {a b : List U64} (ha : SAsc a) (hb : SAsc b) (h : ∀ x, x ∈ a ↔ x ∈ b) : a = b := by
  induction a generalizing b with
  | nil =>
    cases b with
    | nil => rfl
    | cons y b => have := (h y).mpr (by simp); simp at this
  | cons x a ih =>
    cases b with
    | nil => have := (h x).mp (by simp); simp at this
    | cons y b =>
      rw [SAsc, pairwise_cons] at ha hb
      have hxy : x = y := by
        rcases List.mem_cons.mp ((h x).mp (by simp)) with e | e
        · exact e
        · rcases List.mem_cons.mp ((h y).mpr (by simp)) with e' | e'
          · exact e'.symm
          · have := ha.1 y e'; have := hb.1 x e; omega
      subst hxy
      congr 1
      apply ih ha.2 hb.2
      intro z
      constructor
      · intro hz
        rcases List.mem_cons.mp ((h z).mp (by simp [hz])) with e | e
        · subst e; have := ha.1 z hz; omega
        · exact e
      · intro hz
        rcases List.mem_cons.mp ((h z).mpr (by simp [hz])) with e | e
        · subst e; have := hb.1 z hz; omega
        · exact e

/-! ### Stores -/

theorem KV.set_same (kv : KV) (k v : Str) : kv.set k v k = some v := by simp [KV.set]
theorem KV.set_other (kv : KV) {k k' : Str} (v : Str) (h : k' ≠ k) : kv.set k v k' = kv k' := by simp [KV.set, h]

/-- How an indexer stores ids. -/
structure IdCodec where
  /-- key prefix -/
  pre : Str
  /-- value of the label set entry -/
  enc : U64 → Str
  /-- value of a reverse entry -/
  join : List U64 → Str
  /-- update of a reverse entry -/
  app : U64 → Option Str → Str
  app_none : ∀ i, app i none = join [i]
  app_some : ∀ i ids, ids ≠ [] → app i (some (join ids)) = join (ids ++ [i])

/-- Sled: decimal numbers joined by commas. -/
def sledCodec : IdCodec where
  pre := []
  enc := fmtId
  join ids := joinComma (ids.map fmtId)
  app i o := match o with
    | none => fmtId i
    | some v => v ++ comma :: fmtId i
  app_none _ := rfl
  app_some i ids h := by
    simp only [List.map_append, List.map_cons, List.map_nil]
    rw [joinComma_append_one _ (by simpa using h)]

/-- TiKV: 8-byte big-endian numbers. -/
def tikvCodec (pre : Str) : IdCodec where
  pre := pre
  enc := toBE
  join ids := ids.flatMap toBE
  app i o := match o with
    | none => toBE i
    | some v => v ++ toBE i
  app_none _ := by simp
  app_some i ids h := by simp

/-- The ids of the series that have a label. -/
def idsWith (c : Created) (l : Label) : List U64 := (c.filter fun s => decide (l ∈ s.1)).map (·.2)

/-- The store represents the created series. -/
structure IndexInv (C : IdCodec) (c : Created) (kv : KV) : Prop where
  byLabels : ∀ ls, WFSet ls → kv (C.pre ++ encodeLabels ls true) = (specByLabels c ls).map C.enc
  byId : ∀ i, kv (C.pre ++ encodeId i) = (c.find? fun s => decide (s.2 = i)).map fun s => encodeLabels s.1 false
  rev : ∀ l, WFLabel l → kv (C.pre ++ encodeLabel l) = if idsWith c l = [] then none else some (C.join (idsWith c l))

theorem IndexInv.empty (C : IdCodec) (kv : KV) (h : ∀ k, kv (C.pre ++ k) = none) : IndexInv C [] kv :=
  ⟨fun ls _ => by simp [h, specByLabels], fun i => by simp [h], fun l _ => by simp [h, idsWith]⟩

/-- Effect of creating one series. -/
structure AfterCreate (C : IdCodec) (ls : Labels) (i : U64) (kv kv' : KV) : Prop where
  set : kv' (C.pre ++ encodeLabels ls true) = some (C.enc i)
  metad : kv' (C.pre ++ encodeId i) = some (encodeLabels ls false)
  rev : ∀ l ∈ ls, kv' (C.pre ++ encodeLabel l) = some (C.app i (kv (C.pre ++ encodeLabel l)))
  other : ∀ k, k ≠ C.pre ++ encodeLabels ls true → k ≠ C.pre ++ encodeId i →
    (∀ l ∈ ls, k ≠ C.pre ++ encodeLabel l) → kv' k = kv k

theorem foldl_append_steps (app : Option Str → Str) (keys : List Str) (hk : keys.Nodup) (kv : KV) (k : Str) :
    (keys.map fun key => fun kv : KV => kv.set key (app (kv key))).foldl (fun kv f => f kv) kv k =
      if k ∈ keys then some (app (kv k)) else kv k := by
  induction keys generalizing kv with
  | nil => simp
  | cons key keys ih =>
    rw [List.nodup_cons] at hk
    simp only [List.map_cons, List.foldl_cons]
    rw [ih hk.2]
    by_cases h1 : k = key
    · subst h1; rw [if_neg hk.1, if_pos (by simp), KV.set_same]
    · rw [KV.set_other _ _ h1]
      simp [h1]

theorem labelKeys_nodup {ls : Labels} (h : WFSet ls) (pre : Str) : (ls.map fun l => pre ++ encodeLabel l).Nodup := by
  have hn : ls.Nodup := Nodup.of_map _ h.distinct
  refine hn.map_on ?_
  intro a ha b hb e
  exact encodeLabel_inj (h.wf a ha) (h.wf b hb) (List.append_cancel_left e)

theorem WFSet.key_ne_label {ls : Labels} (h : WFSet ls) {l : Label} (hl : WFLabel l) : encodeLabels ls true ≠ encodeLabel l := by
  intro e
  exact h.noR _ _ ((labels_key_eq_label_key h.wf hl).mp e)

theorem pre_inj {p a b : Str} : p ++ a = p ++ b ↔ a = b := List.append_cancel_left_eq p a b |>.to_iff

theorem sled_after {ls : Labels} (h : WFSet ls) (i : U64) (kv : KV) :
    AfterCreate sledCodec ls i kv ((sledCreateSteps ls i).foldl (fun kv f => f kv) kv) := by
  have hk := labelKeys_nodup h []
  have e : (ls.map fun l => sledAppendId i (encodeLabel l)) =
      ((ls.map fun l => [] ++ encodeLabel l).map fun key => fun kv : KV => kv.set key (sledCodec.app i (kv key))) := by
    rw [List.map_map]; rfl
  have hL : encodeLabels ls true ∉ ls.map fun l => encodeLabel l := by
    intro hm; obtain ⟨l, hl, e⟩ := List.mem_map.mp hm
    exact h.key_ne_label (h.wf l hl) e.symm
  have hI : encodeId i ∉ ls.map fun l => encodeLabel l := by
    intro hm; obtain ⟨l, hl, e⟩ := List.mem_map.mp hm
    exact encodeId_ne_label i l e.symm
  simp only [sledCreateSteps, List.foldl_cons, e]
  refine ⟨?_, ?_, ?_, ?_⟩
  · rw [foldl_append_steps _ _ hk]
    show (if encodeLabels ls true ∈ ls.map (fun l => encodeLabel l) then _ else _) = _
    rw [if_neg hL]
    show KV.set _ _ _ (encodeLabels ls true) = _
    rw [KV.set_other _ _ (encodeId_ne_labels i ls).symm, KV.set_same]; rfl
  · rw [foldl_append_steps _ _ hk]
    show (if encodeId i ∈ ls.map (fun l => encodeLabel l) then _ else _) = _
    rw [if_neg hI]
    show KV.set _ _ _ (encodeId i) = _
    rw [KV.set_same]
  · intro l hl
    rw [foldl_append_steps _ _ hk, if_pos (show sledCodec.pre ++ encodeLabel l ∈ ls.map (fun l => [] ++ encodeLabel l) from List.mem_map.mpr ⟨l, hl, rfl⟩)]
    show some (sledCodec.app i (KV.set _ _ _ (encodeLabel l))) = some (sledCodec.app i (kv (encodeLabel l)))
    rw [KV.set_other _ _ (encodeId_ne_label i l).symm, KV.set_other _ _ (h.key_ne_label (h.wf l hl)).symm]
  · intro k h1 h2 h3
    replace h1 : k ≠ encodeLabels ls true := h1
    replace h2 : k ≠ encodeId i := h2
    rw [foldl_append_steps _ _ hk, if_neg]
    · rw [KV.set_other _ _ h2, KV.set_other _ _ h1]
    · intro hm; obtain ⟨l, hl, e⟩ := List.mem_map.mp hm
      exact h3 l hl e.symm

theorem tikv_after {ls : Labels} (h : WFSet ls) (pre : Str) (i : U64) (kv : KV) :
    AfterCreate (tikvCodec pre) ls i kv ((tikvCreateSteps pre ls i).foldl (fun kv f => f kv) kv) := by
  have hk := labelKeys_nodup h pre
  have e : (ls.map fun l => tikvAppendId i (pre ++ encodeLabel l)) =
      ((ls.map fun l => pre ++ encodeLabel l).map fun key => fun kv : KV => kv.set key ((tikvCodec pre).app i (kv key))) := by
    rw [List.map_map]; rfl
  have hL : pre ++ encodeLabels ls true ∉ ls.map fun l => pre ++ encodeLabel l := by
    intro hm; obtain ⟨l, hl, e⟩ := List.mem_map.mp hm
    exact h.key_ne_label (h.wf l hl) (pre_inj.mp e).symm
  have hI : pre ++ encodeId i ∉ ls.map fun l => pre ++ encodeLabel l := by
    intro hm; obtain ⟨l, hl, e⟩ := List.mem_map.mp hm
    exact encodeId_ne_label i l (pre_inj.mp e).symm
  simp only [tikvCreateSteps, List.foldl_cons, e]
  refine ⟨?_, ?_, ?_, ?_⟩
  · rw [foldl_append_steps _ _ hk]
    show (if pre ++ encodeLabels ls true ∈ ls.map (fun l => pre ++ encodeLabel l) then _ else _) = _
    rw [if_neg hL]
    show KV.set _ _ _ (pre ++ encodeLabels ls true) = _
    rw [KV.set_same]; rfl
  · rw [foldl_append_steps _ _ hk]
    show (if pre ++ encodeId i ∈ ls.map (fun l => pre ++ encodeLabel l) then _ else _) = _
    rw [if_neg hI]
    show KV.set _ _ _ (pre ++ encodeId i) = _
    rw [KV.set_other _ _ (fun e => encodeId_ne_labels i ls (pre_inj.mp e)), KV.set_same]
  · intro l hl
    rw [foldl_append_steps _ _ hk, if_pos (show (tikvCodec pre).pre ++ encodeLabel l ∈ ls.map (fun l => pre ++ encodeLabel l) from List.mem_map.mpr ⟨l, hl, rfl⟩)]
    show some ((tikvCodec pre).app i (KV.set _ _ _ (pre ++ encodeLabel l))) =
      some ((tikvCodec pre).app i (kv (pre ++ encodeLabel l)))
    rw [KV.set_other _ _ (fun e => h.key_ne_label (h.wf l hl) (pre_inj.mp e).symm),
      KV.set_other _ _ (fun e => encodeId_ne_label i l (pre_inj.mp e).symm)]
  · intro k h1 h2 h3
    replace h1 : k ≠ pre ++ encodeLabels ls true := h1
    replace h2 : k ≠ pre ++ encodeId i := h2
    rw [foldl_append_steps _ _ hk, if_neg]
    · rw [KV.set_other _ _ h1, KV.set_other _ _ h2]
    · intro hm; obtain ⟨l, hl, e⟩ := List.mem_map.mp hm
      exact h3 l hl e.symm

theorem idsWith_append (c : Created) (ls : Labels) (i : U64) (l : Label) :
    idsWith (c ++ [(ls, i)]) l = if l ∈ ls then idsWith c l ++ [i] else idsWith c l := by
  unfold idsWith
  rw [List.filter_append, List.map_append]
  by_cases h : l ∈ ls <;> simp [h]

theorem specByLabels_append (c : Created) (ls : Labels) (i : U64) (q : Labels) :
    specByLabels (c ++ [(ls, i)]) q =
      (specByLabels c q).or (if ls.Perm q then some i else none) := by
  unfold specByLabels
  rw [List.find?_append]
  cases h : c.find? fun s => decide (s.1.Perm q) with
  | some s => simp
  | none =>
    by_cases hp : ls.Perm q <;> simp [hp]

theorem encodeLabels_perm {a b : Labels} (ha : DistinctNames a) (h : a.Perm b) (p : Bool) : encodeLabels a p = encodeLabels b p := by
  have := sortLabels_perm_eq ha h
  cases p
  · rw [(encodeLabels_eq a).1, (encodeLabels_eq b).1, this]
  · rw [(encodeLabels_eq a).2, (encodeLabels_eq b).2, this]

theorem IndexInv.step {C : IdCodec} {c : Created} {kv kv' : KV} {ls : Labels} {i : U64} (h : IndexInv C c kv)
    (hwf : WFSet ls) (hfresh : ∀ s ∈ c, ¬ s.1.Perm ls) (hid : ∀ s ∈ c, s.2 ≠ i) (hk : AfterCreate C ls i kv kv') :
    IndexInv C (c ++ [(ls, i)]) kv' := by
  refine ⟨?_, ?_, ?_⟩
  · intro q hq
    rw [specByLabels_append]
    have hn : ∀ {q}, ls.Perm q → specByLabels c q = none := by
      intro q hp
      unfold specByLabels
      rw [Option.map_eq_none_iff, List.find?_eq_none]
      intro s hs
      simp only [decide_eq_true_eq]
      exact fun hp' => hfresh s hs (hp'.trans hp.symm)
    by_cases hp : ls.Perm q
    · rw [← encodeLabels_perm hwf.distinct hp, hk.set, hn hp]; simp [hp]
    · rw [hk.other, h.byLabels q hq]
      · simp [hp]
      · intro e
        exact hp (perm_of_sortLabels_eq (encodeLabels_inj true hwf.wf hq.wf (pre_inj.mp e).symm))
      · exact fun e => encodeId_ne_labels i q (pre_inj.mp e).symm
      · exact fun l hl e => hq.key_ne_label (hwf.wf l hl) (pre_inj.mp e)
  · intro j
    rw [List.find?_append]
    by_cases hj : j = i
    · subst hj
      have : c.find? (fun s => decide (s.2 = j)) = none := by
        rw [List.find?_eq_none]; intro s hs; simpa using hid s hs
      rw [hk.metad, this]; simp
    · rw [hk.other, h.byId]
      · cases c.find? (fun s => decide (s.2 = j)) with
        | some s => simp
        | none => simp [Ne.symm hj]
      · exact fun e => encodeId_ne_labels j ls (pre_inj.mp e)
      · exact fun e => hj (encodeId_inj (pre_inj.mp e))
      · exact fun l hl e => encodeId_ne_label j l (pre_inj.mp e)
  · intro l hl
    rw [idsWith_append]
    by_cases hm : l ∈ ls
    · rw [hk.rev l hm, h.rev l hl]
      simp only [hm, if_true]
      by_cases h0 : idsWith c l = []
      · simp [h0, C.app_none]
      · simp [h0, C.app_some _ _ h0]
    · rw [hk.other, h.rev l hl]
      · simp [hm]
      · exact fun e => hwf.key_ne_label hl (pre_inj.mp e).symm
      · exact fun e => encodeId_ne_label i l (pre_inj.mp e).symm
      · intro l' hl' e
        rw [← encodeLabel_inj hl (hwf.wf l' hl') (pre_inj.mp e)] at hl'
        exact hm hl'

/-! ### Lookups -/

theorem parseId_fmtId (i : U64) : parseId (fmtId i) = .ok i := by
  unfold parseId fmtId
  rw [parse_format (by omega) (by omega) (by have := i.isLt; omega)]
  simp [Res.ofErr]

theorem fmtId_no_comma (i : U64) : ∀ b ∈ fmtId i, b ≠ comma := by
  intro b hb
  obtain ⟨d, hd, rfl⟩ := formatNat_digits (by omega) b hb
  exact digitByte_ne (by omega) _ (by decide)

theorem sled_decode_join (ids : List U64) (h : ids ≠ []) :
    Res.mapM parseId (splitComma (sledCodec.join ids)) = .ok ids := by
  simp only [sledCodec]
  rw [splitComma_join (by simpa using h)]
  · clear h
    induction ids with
    | nil => rfl
    | cons i ids ih => simp [Res.mapM, parseId_fmtId, ih]
  · intro p hp
    obtain ⟨i, -, rfl⟩ := List.mem_map.mp hp
    exact fmtId_no_comma i

theorem chunksOf_flatMap (ids : List U64) (fuel : Nat) (h : ids.length ≤ fuel) :
    chunksOf 8 fuel (ids.flatMap toBE) = ids.map toBE := by
  induction ids generalizing fuel with
  | nil => cases fuel <;> rfl
  | cons i ids ih =>
    cases fuel with
    | zero => simp at h
    | succ fuel =>
      have h8 : (toBE i).length = 8 := toBE_length i
      rw [chunksOf, if_neg]
      · rw [List.flatMap_cons, List.take_left' h8, List.drop_left' h8, ih _ (by simpa using h)]; rfl
      · intro e; have := congrArg List.length e; simp [h8] at this

theorem length_flatMap_toBE (ids : List U64) : (ids.flatMap toBE).length = 8 * ids.length := by
  induction ids with
  | nil => rfl
  | cons i ids ih => simp [ih, toBE_length]; omega

theorem tikv_decode_join (ids : List U64) : decodeIds (ids.flatMap toBE) = .ok ids := by
  unfold decodeIds
  rw [chunksOf_flatMap _ _ (by rw [length_flatMap_toBE]; omega)]
  induction ids with
  | nil => rfl
  | cons i ids ih =>
    rw [List.map_cons, Res.mapM, ih, fromBE_toBE]; rfl

theorem specByLabels_mem {c : Created} {ls : Labels} {i : U64} (h : specByLabels c ls = some i) :
    ∃ s ∈ c, s.1.Perm ls ∧ s.2 = i := by
  unfold specByLabels at h
  obtain ⟨s, hs, rfl⟩ := Option.map_eq_some_iff.mp h
  exact ⟨s, List.mem_of_find?_eq_some hs, by simpa using List.find?_some hs, rfl⟩

theorem sled_byLabels {c : Created} {kv : KV} (h : IndexInv sledCodec c kv) {ls : Labels} (hl : WFSet ls) :
    sledByLabels kv ls = .ok (specByLabels c ls) := by
  unfold sledByLabels
  have := h.byLabels ls hl
  simp only [sledCodec, List.nil_append] at this
  rw [this]
  cases specByLabels c ls with
  | none => rfl
  | some i => simp [parseId_fmtId]

theorem tikv_byLabels {pre : Str} {c : Created} {kv : KV} (h : IndexInv (tikvCodec pre) c kv) {ls : Labels} (hl : WFSet ls) :
    tikvByLabels pre kv ls = .ok (specByLabels c ls) := by
  unfold tikvByLabels
  have := h.byLabels ls hl
  simp only [tikvCodec] at this
  rw [this]
  cases specByLabels c ls with
  | none => rfl
  | some i => simp [fromBE_toBE, Res.ofPanic]

/-- The id lists of the known requested labels. -/
def idLists (c : Created) (ls : Labels) : List (List U64) := (knownLabels c ls).map (idsWith c)

theorem idsWith_eq_nil (c : Created) (l : Label) : idsWith c l = [] ↔ (c.any fun s => decide (l ∈ s.1)) = false := by
  simp [idsWith, List.filter_eq_nil_iff]

theorem intersect_idLists {c : Created} (hids : c.Pairwise fun s t => s.2.toNat < t.2.toNat) (ls : Labels) :
    intersectAll (idLists c ls) = specContains c ls := by
  have hs : ∀ p : (Labels × U64) → Bool, SAsc ((c.filter p).map (·.2)) := by
    intro p
    rw [SAsc, List.pairwise_map]
    exact hids.sublist List.filter_sublist
  have hall : ∀ t ∈ idLists c ls, SAsc t := by
    intro t ht
    obtain ⟨l, -, rfl⟩ := List.mem_map.mp ht
    exact hs _
  obtain ⟨h1, h2⟩ := intersectAll_spec _ hall
  unfold specContains
  by_cases h0 : knownLabels c ls = []
  · rw [if_pos h0]
    have : idLists c ls = [] := by simp [idLists, h0]
    rw [this]; rfl
  · rw [if_neg h0]
    refine h1.ext (hs _) ?_
    intro x
    rw [h2]
    have hinj : ∀ s ∈ c, ∀ t ∈ c, s.2 = t.2 → s = t := by
      have hn : (c.map (·.2)).Nodup := by
        rw [List.Nodup, List.pairwise_map]
        exact hids.imp (by intro a b h e; rw [e] at h; omega)
      intro s hs t ht e
      exact List.inj_on_of_nodup_map hn hs ht e
    constructor
    · rintro ⟨-, h3⟩
      simp only [specHavingAll, List.mem_map, List.mem_filter]
      obtain ⟨l, hl⟩ := List.exists_mem_of_ne_nil _ h0
      have := h3 (idsWith c l) (List.mem_map.mpr ⟨l, hl, rfl⟩)
      simp only [idsWith, List.mem_map, List.mem_filter] at this
      obtain ⟨s, ⟨hsc, hls⟩, rfl⟩ := this
      refine ⟨s, ⟨hsc, ?_⟩, rfl⟩
      rw [List.all_eq_true]
      intro l' hl'
      have := h3 (idsWith c l') (List.mem_map.mpr ⟨l', hl', rfl⟩)
      simp only [idsWith, List.mem_map, List.mem_filter] at this
      obtain ⟨s', ⟨hsc', hls'⟩, e⟩ := this
      rw [← hinj s' hsc' s hsc e]; exact hls'
    · intro hx
      refine ⟨by simpa [idLists] using h0, ?_⟩
      intro t ht
      obtain ⟨l, hl, rfl⟩ := List.mem_map.mp ht
      simp only [specHavingAll, List.mem_map, List.mem_filter, List.all_eq_true] at hx
      obtain ⟨s, ⟨hsc, hall⟩, rfl⟩ := hx
      simp only [idsWith, List.mem_map, List.mem_filter]
      exact ⟨s, ⟨hsc, hall l hl⟩, rfl⟩

theorem sled_contains {c : Created} {kv : KV} (h : IndexInv sledCodec c kv)
    (hids : c.Pairwise fun s t => s.2.toNat < t.2.toNat) {ls : Labels} (hl : ∀ l ∈ ls, WFLabel l) :
    sledContains kv ls = .ok (specContains c ls) := by
  unfold sledContains
  have hg : ∀ l ∈ ls, sledGetId kv l = .ok (if idsWith c l = [] then none else some (idsWith c l)) := by
    intro l hm
    unfold sledGetId
    have := h.rev l (hl l hm)
    simp only [sledCodec, List.nil_append] at this
    rw [this]
    by_cases h0 : idsWith c l = []
    · simp [h0]
    · simp only [if_neg h0]
      have e := sled_decode_join _ h0
      simp only [sledCodec] at e
      simp [e]
  rw [Res.mapM_ok ls hg, Res.bind_ok]
  have : (ls.map fun l => if idsWith c l = [] then none else some (idsWith c l)).filterMap id = idLists c ls := by
    unfold idLists knownLabels
    clear hl hg
    induction ls with
    | nil => rfl
    | cons l ls ih =>
      rw [List.map_cons, List.filter_cons]
      by_cases h0 : idsWith c l = []
      · have := (idsWith_eq_nil c l).mp h0
        rw [if_pos h0, List.filterMap_cons_none (f := id) rfl, ih, this]; rfl
      · have : (c.any fun s => decide (l ∈ s.1)) = true := by
          rw [← Bool.not_eq_false]; exact fun e => h0 ((idsWith_eq_nil c l).mpr e)
        rw [if_neg h0, List.filterMap_cons_some (f := id) rfl, ih, this]; rfl
  rw [this, intersect_idLists hids]

theorem tikv_contains {pre : Str} {c : Created} {kv : KV} (h : IndexInv (tikvCodec pre) c kv)
    (hids : c.Pairwise fun s t => s.2.toNat < t.2.toNat) {ls : Labels} (hl : ∀ l ∈ ls, WFLabel l) :
    tikvContains pre kv ls = .ok (specContains c ls) := by
  unfold tikvContains
  have : (ls.filterMap fun l => kv (pre ++ encodeLabel l)) = (idLists c ls).map (fun ids => ids.flatMap toBE) := by
    unfold idLists knownLabels
    induction ls with
    | nil => rfl
    | cons l ls ih =>
      have hr := h.rev l (hl l (by simp))
      simp only [tikvCodec] at hr
      rw [List.filter_cons]
      by_cases h0 : idsWith c l = []
      · have := (idsWith_eq_nil c l).mp h0
        rw [if_pos h0] at hr
        rw [List.filterMap_cons_none (f := fun l => kv (pre ++ encodeLabel l)) hr, ih (fun x hx => hl x (by simp [hx])), this]; rfl
      · have : (c.any fun s => decide (l ∈ s.1)) = true := by
          rw [← Bool.not_eq_false]; exact fun e => h0 ((idsWith_eq_nil c l).mpr e)
        rw [if_neg h0] at hr
        rw [List.filterMap_cons_some (f := fun l => kv (pre ++ encodeLabel l)) hr, ih (fun x hx => hl x (by simp [hx])), this]; rfl
  rw [this]
  have hm : ∀ ts : List (List U64), Res.mapM decodeIds (ts.map fun ids => ids.flatMap toBE) = .ok ts := by
    intro ts
    induction ts with
    | nil => rfl
    | cons t ts ih => simp [Res.mapM, tikv_decode_join, ih]
  rw [hm, Res.bind_ok, intersect_idLists hids]

theorem find_by_id {c : Created} (hids : c.Pairwise fun s t => s.2.toNat < t.2.toNat) {s : Labels × U64} (hs : s ∈ c) :
    c.find? (fun t => decide (t.2 = s.2)) = some s := by
  induction c with
  | nil => simp at hs
  | cons t c ih =>
    rw [List.pairwise_cons] at hids
    rcases List.mem_cons.mp hs with rfl | hs
    · simp
    · have := hids.1 s hs
      rw [List.find?_cons_of_neg]
      · exact ih hids.2 hs
      · simp only [decide_eq_true_eq]; intro e; rw [e] at this; omega

theorem sled_metadata {c : Created} {kv : KV} (h : IndexInv sledCodec c kv) (hwf : ∀ s ∈ c, WFSet s.1)
    (hids : c.Pairwise fun s t => s.2.toNat < t.2.toNat) {ls : Labels} (hl : ∀ l ∈ ls, WFLabel l) :
    sledMetadata kv ls = .ok (specMetadata c ls) := by
  unfold sledMetadata
  rw [sled_contains h hids hl, Res.bind_ok]
  unfold specContains specMetadata
  by_cases h0 : knownLabels c ls = []
  · simp [h0, Res.mapM]
  · rw [if_neg h0, if_neg h0, specHavingAll]
    have key : ∀ f : List (Labels × U64), (∀ s ∈ f, s ∈ c) →
        ((Res.mapM (sledMeta1 kv) (f.map (·.2))).bind fun r => Res.ok (r.filterMap id)) =
          .ok (f.map fun s => (s.2, sortLabels s.1)) := by
      intro f hf
      have : Res.mapM (sledMeta1 kv) (f.map (·.2)) = .ok (f.map fun s => some (s.2, sortLabels s.1)) := by
        induction f with
        | nil => rfl
        | cons s f ih =>
          have hb := h.byId s.2
          simp only [sledCodec, List.nil_append, find_by_id hids (hf s (by simp)), Option.map_some] at hb
          have hm : sledMeta1 kv s.2 = .ok (some (s.2, sortLabels s.1)) := by
            unfold sledMeta1
            rw [hb]
            have hw := hwf s (hf s (by simp))
            simp only [decode_encodeLabels hw.nonempty hw.wf, Res.bind_ok]
          rw [List.map_cons, Res.mapM, hm, ih (fun x hx => hf x (by simp [hx]))]
          rfl
      rw [this]
      simp only [Res.bind_ok, Res.ok.injEq, List.filterMap_map]
      induction f with
      | nil => rfl
      | cons s f ih => simp
    exact key _ (fun s hs => (List.mem_filter.mp hs).1)

theorem tikv_metadata {pre : Str} {c : Created} {kv : KV} (h : IndexInv (tikvCodec pre) c kv) (hwf : ∀ s ∈ c, WFSet s.1)
    (hids : c.Pairwise fun s t => s.2.toNat < t.2.toNat) {ls : Labels} (hl : ∀ l ∈ ls, WFLabel l) :
    tikvMetadata pre kv ls = .ok (specMetadata c ls) := by
  unfold tikvMetadata
  rw [tikv_contains h hids hl, Res.bind_ok]
  unfold specContains specMetadata
  by_cases h0 : knownLabels c ls = []
  · simp [h0]
  · rw [if_neg h0, if_neg h0, specHavingAll]
    have key : ∀ f : List (Labels × U64), (∀ s ∈ f, s ∈ c) →
        (f.map (·.2)).filterMap (tikvMeta1 pre kv) = f.map fun s => (s.2, sortLabels s.1) := by
      intro f hf
      induction f with
      | nil => rfl
      | cons s f ih =>
        have hb := h.byId s.2
        simp only [tikvCodec, find_by_id hids (hf s (by simp)), Option.map_some] at hb
        have hm : tikvMeta1 pre kv s.2 = some (s.2, sortLabels s.1) := by
          unfold tikvMeta1
          have hw := hwf s (hf s (by simp))
          simp only [hb, decode_encodeLabels hw.nonempty hw.wf]
        rw [List.map_cons, List.filterMap_cons_some hm, ih (fun x hx => hf x (by simp [hx]))]
        rfl
    rw [key _ (fun s hs => (List.mem_filter.mp hs).1)]

end Verif
