import Verif.Lemmas.Indexer
import Mathlib.Data.List.Induction
/-! Properties C14 - C21: labels and indexers. -/
namespace Verif
open List

/-- Label literal for the examples. -/
def lbl (k v : String) : Label := ⟨ascii k.toList, ascii v.toList⟩

/-! ### Histories -/

/-- The store of a sled indexer after a history of `create_index` calls on an empty store (rejected calls included). -/
def sledRun (hist : Created) : KV := hist.foldl (fun kv s => (sledCreate kv s.1 s.2).2) KV.empty

/-- The shared TiKV store after a history of `create_index` calls of one indexer with identifier `pre`. -/
def tikvRun (pre : Str) (kv : KV) (hist : Created) : KV := hist.foldl (fun kv s => (tikvCreate pre kv s.1 s.2).2) kv

/-- Arbitrary calls (label sets may repeat) with well-formed label sets and increasing ids. -/
structure History (hist : Created) : Prop where
  wf : ∀ s ∈ hist, WFSet s.1
  ids : hist.Pairwise fun s t => s.2.toNat < t.2.toNat

theorem FreshHistory.history {c : Created} (h : FreshHistory c) : History c := ⟨h.wf, h.ids⟩

theorem accepted_append (hist : Created) (s : Labels × U64) : accepted (hist ++ [s]) =
    if (accepted hist).any (fun t => decide (t.1.Perm s.1)) then accepted hist else accepted hist ++ [s] := by
  unfold accepted; rw [List.foldl_append]; rfl

theorem accepted_sublist (hist : Created) : (accepted hist).Sublist hist := by
  induction hist using List.reverseRecOn with
  | nil => exact Sublist.refl _
  | append_singleton hist s ih =>
    rw [accepted_append]
    split
    · exact ih.trans (List.sublist_append_left _ _)
    · exact ih.append (Sublist.refl _)

theorem specByLabels_accepted (hist : Created) (q : Labels) : specByLabels (accepted hist) q = specByLabels hist q := by
  induction hist using List.reverseRecOn with
  | nil => rfl
  | append_singleton hist s ih =>
    obtain ⟨ls, i⟩ := s
    rw [accepted_append, specByLabels_append, ← ih]
    split
    · rename_i h
      obtain ⟨t, ht, hp⟩ := List.any_eq_true.mp h
      simp only [decide_eq_true_eq] at hp
      by_cases hq : ls.Perm q
      · cases hs : specByLabels (accepted hist) q with
        | some j => rfl
        | none =>
          exfalso
          unfold specByLabels at hs
          rw [Option.map_eq_none_iff, List.find?_eq_none] at hs
          have := hs t ht
          simp only [decide_eq_true_eq] at this
          exact this (hp.trans hq)
      · simp [hq]
    · rw [specByLabels_append]

theorem accepted_of_fresh {c : Created} (h : c.Pairwise fun s t => ¬ s.1.Perm t.1) : accepted c = c := by
  induction c using List.reverseRecOn with
  | nil => rfl
  | append_singleton c s ih =>
    rw [List.pairwise_append] at h
    rw [accepted_append, ih h.1, if_neg]
    rw [List.any_eq_true]
    rintro ⟨t, ht, hp⟩
    simp only [decide_eq_true_eq] at hp
    exact h.2.2 t ht s (by simp) hp

theorem sledRun_append (hist : Created) (s : Labels × U64) : sledRun (hist ++ [s]) = (sledCreate (sledRun hist) s.1 s.2).2 := by
  unfold sledRun; rw [List.foldl_append]; rfl
theorem tikvRun_append (pre : Str) (kv : KV) (hist : Created) (s : Labels × U64) :
    tikvRun pre kv (hist ++ [s]) = (tikvCreate pre (tikvRun pre kv hist) s.1 s.2).2 := by
  unfold tikvRun; rw [List.foldl_append]; rfl

theorem History.left {a b : Created} (h : History (a ++ b)) : History a :=
  ⟨fun s hs => h.wf s (by simp [hs]), (List.pairwise_append.mp h.ids).1⟩

theorem sledRun_inv {hist : Created} (h : History hist) : IndexInv sledCodec (accepted hist) (sledRun hist) := by
  induction hist using List.reverseRecOn with
  | nil => exact IndexInv.empty sledCodec KV.empty (fun _ => rfl)
  | append_singleton hist s ih =>
    obtain ⟨ls, i⟩ := s
    have hi := ih h.left
    have hwf : WFSet ls := h.wf (ls, i) (by simp)
    have hL := hi.byLabels ls hwf
    simp only [sledCodec, List.nil_append] at hL
    rw [sledRun_append, accepted_append]
    simp only [sledCreate]
    by_cases hc : (accepted hist).any (fun t => decide (t.1.Perm ls)) = true
    · rw [if_pos hc]
      obtain ⟨t, ht, hp⟩ := List.any_eq_true.mp hc
      have hsome : (specByLabels (accepted hist) ls).isSome := by
        unfold specByLabels
        rw [Option.isSome_map, List.find?_isSome]
        exact ⟨t, ht, hp⟩
      rw [if_pos (by rw [hL, Option.isSome_map]; exact hsome)]
      exact hi
    · rw [if_neg hc]
      have hnone : specByLabels (accepted hist) ls = none := by
        unfold specByLabels
        rw [Option.map_eq_none_iff, List.find?_eq_none]
        intro t ht hp
        exact hc (List.any_eq_true.mpr ⟨t, ht, hp⟩)
      rw [if_neg (by rw [hL, hnone]; simp)]
      refine hi.step hwf ?_ ?_ (sled_after hwf i _)
      · intro t ht hp
        exact hc (List.any_eq_true.mpr ⟨t, ht, by simpa using hp⟩)
      · intro t ht e
        have := (List.pairwise_append.mp h.ids).2.2 t ((accepted_sublist hist).mem ht) (ls, i) (by simp)
        rw [e] at this; simp at this

theorem tikvRun_inv {pre : Str} {kv : KV} (hkv : ∀ k, kv (pre ++ k) = none) {c : Created} (h : FreshHistory c) :
    IndexInv (tikvCodec pre) c (tikvRun pre kv c) := by
  induction c using List.reverseRecOn with
  | nil => exact IndexInv.empty (tikvCodec pre) kv hkv
  | append_singleton c s ih =>
    obtain ⟨ls, i⟩ := s
    have hp := List.pairwise_append.mp h.fresh
    have hq := List.pairwise_append.mp h.ids
    have hi := ih ⟨fun s hs => h.wf s (by simp [hs]), hp.1, hq.1⟩
    have hwf : WFSet ls := h.wf (ls, i) (by simp)
    rw [tikvRun_append]
    refine hi.step hwf (fun t ht => hp.2.2 t ht (ls, i) (by simp)) ?_ (tikv_after hwf pre i _)
    intro t ht e
    have := hq.2.2 t ht (ls, i) (by simp)
    rw [e] at this; simp at this

theorem accepted_wf {hist : Created} (h : History hist) : ∀ s ∈ accepted hist, WFSet s.1 :=
  fun s hs => h.wf s ((accepted_sublist hist).mem hs)
theorem accepted_ids {hist : Created} (h : History hist) : (accepted hist).Pairwise fun s t => s.2.toNat < t.2.toNat :=
  h.ids.sublist (accepted_sublist hist)

/-! ### C14 -/

/-- C14. Two orderings of the same labels with distinct names have the same index key and the same stored metadata. -/
theorem C14_same_key_and_metadata (a b : Labels) (ha : DistinctNames a) (hp : a.Perm b) (p : Bool) :
    encodeLabels a p = encodeLabels b p := encodeLabels_perm ha hp p

theorem foldl_steps_perm (app : Option Str → Str) {a b : List Str} (hp : a.Perm b) (kv : KV) :
    (a.map fun key => fun kv : KV => kv.set key (app (kv key))).foldl (fun kv f => f kv) kv =
      (b.map fun key => fun kv : KV => kv.set key (app (kv key))).foldl (fun kv f => f kv) kv := by
  rw [List.foldl_map, List.foldl_map]
  refine hp.foldl_eq' ?_ kv
  intro x _ y _ z
  by_cases hxy : x = y
  · subst hxy; rfl
  · funext k
    simp only [KV.set]
    by_cases h1 : k = x
    · subst h1; simp [hxy]
    · by_cases h2 : k = y
      · subst h2; simp [h1]
      · simp [h1, h2]

/-- C14. In every state of the index, both orderings denote the same series: lookups agree, and creating the series
through one ordering has exactly the same result and effect as through the other. Sled. -/
theorem C14_sled (a b : Labels) (ha : DistinctNames a) (hp : a.Perm b) (kv : KV) (i : U64) :
    sledByLabels kv a = sledByLabels kv b ∧ sledCreate kv a i = sledCreate kv b i := by
  have h1 := encodeLabels_perm ha hp true
  have h2 := encodeLabels_perm ha hp false
  refine ⟨by unfold sledByLabels; rw [h1], ?_⟩
  unfold sledCreate sledCreateSteps
  rw [h1, h2]
  simp only [List.foldl_cons]
  have e : ∀ ls : Labels, (ls.map fun l => sledAppendId i (encodeLabel l)) =
      ((ls.map encodeLabel).map fun key => fun kv : KV => kv.set key (sledCodec.app i (kv key))) := by
    intro ls; rw [List.map_map]; rfl
  rw [e, e, foldl_steps_perm _ (hp.map encodeLabel)]

/-- C14. The same for TiKV. -/
theorem C14_tikv (a b : Labels) (ha : DistinctNames a) (hp : a.Perm b) (pre : Str) (kv : KV) (i : U64) :
    tikvByLabels pre kv a = tikvByLabels pre kv b ∧ tikvCreate pre kv a i = tikvCreate pre kv b i := by
  have h1 := encodeLabels_perm ha hp true
  have h2 := encodeLabels_perm ha hp false
  refine ⟨by unfold tikvByLabels; rw [h1], ?_⟩
  unfold tikvCreate tikvCreateSteps
  rw [h1, h2]
  simp only [List.foldl_cons]
  have e : ∀ ls : Labels, (ls.map fun l => tikvAppendId i (pre ++ encodeLabel l)) =
      ((ls.map fun l => pre ++ encodeLabel l).map fun key => fun kv : KV => kv.set key ((tikvCodec pre).app i (kv key))) := by
    intro ls; rw [List.map_map]; rfl
  rw [e, e, foldl_steps_perm _ (hp.map _)]

/-- C14. Distinct names are needed: with a repeated name the order matters. -/
theorem C14_needs_distinct_names :
    ∃ a b : Labels, a.Perm b ∧ encodeLabels a true ≠ encodeLabels b true :=
  ⟨[lbl "a" "1", lbl "a" "2"], [lbl "a" "2", lbl "a" "1"], List.Perm.swap _ _ _, by decide +kernel⟩

example : DistinctNames [lbl "job" "x", lbl "host" "y"] ∧
    [lbl "job" "x", lbl "host" "y"].Perm [lbl "host" "y", lbl "job" "x"] :=
  ⟨by unfold DistinctNames; decide +kernel, List.Perm.swap _ _ _⟩
example : encodeLabels [lbl "job" "x", lbl "host" "y"] true = ascii "Lhost=y,job=x".toList := by decide +kernel

/-! ### C15 -/

/-- C15 is violated: different label sets can share an index key, so that a series that was never created is reported with
the id of another one (sled; the key is the same for TiKV). -/
theorem C15_violated : ∃ (a b : Labels) (i : U64), DistinctNames a ∧ DistinctNames b ∧ ¬ a.Perm b ∧
    sledByLabels (sledCreate KV.empty a i).2 b = .ok (some i) ∧
    decodeLabels (encodeLabels b false) = .ok a :=
  ⟨[lbl "a" "1", lbl "b" "2"], [lbl "a" "1,b=2"], 7#64, by unfold DistinctNames; decide +kernel,
    by unfold DistinctNames; decide +kernel,
    fun h => by have := h.length_eq; revert this; decide, by decide +kernel, by decide +kernel⟩

/-- C15, part that holds. If names contain neither '=' nor ',' and values contain no ',', label sets with the same index
key (or the same metadata) are the same set of labels. -/
theorem C15_injective_partial (a b : Labels) (ha : ∀ l ∈ a, WFLabel l) (hb : ∀ l ∈ b, WFLabel l) (p : Bool)
    (h : encodeLabels a p = encodeLabels b p) : a.Perm b :=
  perm_of_sortLabels_eq (encodeLabels_inj p ha hb h)

/-- C15, part that holds. The stored metadata of a non-empty well-formed label set decodes to the labels, sorted by name. -/
theorem C15_decode_partial (a : Labels) (hne : a ≠ []) (ha : ∀ l ∈ a, WFLabel l) :
    decodeLabels (encodeLabels a false) = .ok (sortLabels a) ∧ (sortLabels a).Perm a ∧
      (sortLabels a).Pairwise fun x y => strLe x.key y.key = true :=
  ⟨decode_encodeLabels hne ha, sortLabels_perm a, sortLabels_sorted a⟩

/-- C15, part that holds. The key of a non-empty well-formed label set decodes to the labels, sorted by name. -/
theorem C15_key_decode_partial (a : Labels) (hne : a ≠ []) (ha : ∀ l ∈ a, WFLabel l) :
    decodeLabelsKey (encodeLabels a true) = .ok (sortLabels a) := decode_encodeLabels hne ha

/-- C15. The key of a series id decodes to the id, for every id. -/
theorem C15_id_decode (i : U64) : decodeId (encodeId i) = .ok i := by
  have h := i.isLt
  simp only [decodeId, encodeId]
  rw [parse_format (by decide) (by decide) (by omega)]
  simp [Res.ofErr]

/-- C15. The metadata of the empty label set cannot be decoded. -/
theorem C15_empty_violated : decodeLabels (encodeLabels [] false) = .err .internal := by decide +kernel

/-- Well-formedness of a label by computation. -/
def wfLabelB (l : Label) : Bool :=
  l.key.all (fun b => decide (b ≠ equals ∧ b ≠ comma)) && l.value.all (fun b => decide (b ≠ comma))
theorem wfLabel_of {l : Label} (h : wfLabelB l = true) : WFLabel l := by
  simp only [wfLabelB, Bool.and_eq_true, List.all_eq_true, decide_eq_true_eq] at h
  exact ⟨h.1, h.2⟩
/-- Well-formedness of a label set by computation. -/
def wfSetB (ls : Labels) : Bool :=
  decide (ls ≠ []) && decide (ls.map (·.key)).Nodup && ls.all wfLabelB &&
    (match ls with
      | [⟨b :: _, _⟩] => decide (b ≠ 82#8)
      | _ => true)
theorem wfSet_of {ls : Labels} (h : wfSetB ls = true) : WFSet ls := by
  simp only [wfSetB, Bool.and_eq_true, decide_eq_true_eq, List.all_eq_true] at h
  refine ⟨h.1.1.1, h.1.1.2, fun l hl => wfLabel_of (h.1.2 l hl), ?_⟩
  rintro k v rfl
  simp at h

example : WFSet [lbl "job" "x=1", lbl "host" "y"] := wfSet_of (by decide +kernel)

/-! ### C16 -/

/-- C16, sled. After any history of `create_index` calls with well-formed label sets and increasing ids (label sets may
repeat), looking up a label set returns the id of the first call that created it, and nothing if there was none. -/
theorem C16_sled (hist : Created) (h : History hist) (q : Labels) (hq : WFSet q) :
    (∀ pre ls i post, hist = pre ++ (ls, i) :: post → (∀ s ∈ pre, ¬ s.1.Perm q) → ls.Perm q →
      sledByLabels (sledRun hist) q = .ok (some i)) ∧
    ((∀ s ∈ hist, ¬ s.1.Perm q) → sledByLabels (sledRun hist) q = .ok none) := by
  rw [sled_byLabels (sledRun_inv h) hq, specByLabels_accepted]
  constructor
  · rintro pre ls i post rfl hpre hp
    congr 1
    unfold specByLabels
    rw [List.find?_append]
    have : pre.find? (fun s => decide (s.1.Perm q)) = none := by
      rw [List.find?_eq_none]; intro s hs; simpa using hpre s hs
    rw [this]; simp [hp]
  · intro hn
    congr 1
    unfold specByLabels
    rw [Option.map_eq_none_iff, List.find?_eq_none]
    intro s hs; simpa using hn s hs

/-- C16, TiKV. On a shared store without entries under the indexer's prefix, after any history creating fresh well-formed
label sets with increasing ids, looking up a label set returns exactly its id, and nothing if it was never created. -/
theorem C16_tikv (pre : Str) (kv : KV) (hkv : ∀ k, kv (pre ++ k) = none) (hist : Created) (h : FreshHistory hist)
    (q : Labels) (hq : WFSet q) :
    (∀ ls i, (ls, i) ∈ hist → ls.Perm q → tikvByLabels pre (tikvRun pre kv hist) q = .ok (some i)) ∧
    ((∀ s ∈ hist, ¬ s.1.Perm q) → tikvByLabels pre (tikvRun pre kv hist) q = .ok none) := by
  rw [tikv_byLabels (tikvRun_inv hkv h) hq]
  constructor
  · intro ls i hm hp
    congr 1
    obtain ⟨a, b, rfl⟩ := List.append_of_mem hm
    unfold specByLabels
    rw [List.find?_append]
    have hf := List.pairwise_append.mp h.fresh
    have : a.find? (fun s => decide (s.1.Perm q)) = none := by
      rw [List.find?_eq_none]; intro s hs
      simp only [decide_eq_true_eq]
      exact fun hp' => hf.2.2 s hs (ls, i) (by simp) (hp'.trans hp.symm)
    rw [this]; simp [hp]
  · intro hn
    congr 1
    unfold specByLabels
    rw [Option.map_eq_none_iff, List.find?_eq_none]
    intro s hs; simpa using hn s hs

/-- A history used in the examples. -/
def exHist : Created :=
  [([lbl "job" "api", lbl "host" "a"], 1#64), ([lbl "host" "b", lbl "job" "api"], 2#64), ([lbl "job" "db"], 3#64)]

theorem exHist_fresh : FreshHistory exHist where
  wf := by
    intro s hs
    simp only [exHist, List.mem_cons, List.not_mem_nil, or_false] at hs
    rcases hs with rfl | rfl | rfl <;> exact wfSet_of (by decide +kernel)
  fresh := by unfold exHist; decide +kernel
  ids := by unfold exHist; decide +kernel

example : History exHist := exHist_fresh.history
example : sledByLabels (sledRun exHist) [lbl "job" "api", lbl "host" "b"] = .ok (some 2#64) := by decide +kernel
example : sledByLabels (sledRun exHist) [lbl "job" "api"] = .ok none := by decide +kernel
example : tikvByLabels [1#8] (tikvRun [1#8] KV.empty exHist) [lbl "job" "db"] = .ok (some 3#64) := by decide +kernel

/-! ### C17, C18 -/

/-- C17 is violated: a series lacking a requested label is returned, because a requested label that no series has is
ignored; for both indexers. -/
theorem C17_violated : ∃ hist q, FreshHistory hist ∧ (∀ l ∈ q, WFLabel l) ∧ q ≠ [] ∧ specHavingAll hist q = [] ∧
    sledContains (sledRun hist) q = .ok [1#64, 2#64] ∧
    tikvContains [] (tikvRun [] KV.empty hist) q = .ok [1#64, 2#64] := by
  refine ⟨exHist, [lbl "job" "api", lbl "dc" "eu"], exHist_fresh, ?_, by simp, ?_, ?_, ?_⟩
  · intro l hl
    simp only [List.mem_cons, List.not_mem_nil, or_false] at hl
    rcases hl with rfl | rfl <;> exact wfLabel_of (by decide +kernel)
  · decide +kernel
  · decide +kernel
  · decide +kernel

/-- C17, part that holds: if at least one label is requested and every requested label occurs in some created series, the
lookup returns exactly the ids of the series having all of them, in creation order. Both indexers. -/
theorem C17_partial (hist : Created) (h : FreshHistory hist) (pre : Str) (kv : KV) (hkv : ∀ k, kv (pre ++ k) = none)
    (q : Labels) (hq : ∀ l ∈ q, WFLabel l) (hne : q ≠ []) (hknown : ∀ l ∈ q, ∃ s ∈ hist, l ∈ s.1) :
    sledContains (sledRun hist) q = .ok ((hist.filter fun s => q.all fun l => decide (l ∈ s.1)).map (·.2)) ∧
    tikvContains pre (tikvRun pre kv hist) q = .ok ((hist.filter fun s => q.all fun l => decide (l ∈ s.1)).map (·.2)) := by
  have hk : knownLabels hist q = q := by
    unfold knownLabels
    rw [List.filter_eq_self]
    intro l hl
    obtain ⟨s, hs, hls⟩ := hknown l hl
    exact List.any_eq_true.mpr ⟨s, hs, by simpa using hls⟩
  have h1 := sled_contains (sledRun_inv h.history) (accepted_ids h.history) hq
  rw [accepted_of_fresh h.fresh] at h1
  have h2 := tikv_contains (tikvRun_inv hkv h) h.ids hq
  rw [h1, h2]
  simp only [specContains, hk, if_neg hne, specHavingAll]
  exact ⟨trivial, trivial⟩

/-- C18, sled. For every history of calls (repeated label sets are rejected, see C19), containment lookup returns exactly
the series having every requested label that some series has; nothing if no requested label is known. -/
theorem C18_sled_contains (hist : Created) (h : History hist) (q : Labels) (hq : ∀ l ∈ q, WFLabel l) :
    sledContains (sledRun hist) q = .ok (specContains (accepted hist) q) :=
  sled_contains (sledRun_inv h) (accepted_ids h) hq

/-- C18, sled metadata lookup: the same series with their sorted labels. -/
theorem C18_sled_metadata (hist : Created) (h : History hist) (q : Labels) (hq : ∀ l ∈ q, WFLabel l) :
    sledMetadata (sledRun hist) q = .ok (specMetadata (accepted hist) q) :=
  sled_metadata (sledRun_inv h) (accepted_wf h) (accepted_ids h) hq

/-- C18, TiKV. -/
theorem C18_tikv_contains (pre : Str) (kv : KV) (hkv : ∀ k, kv (pre ++ k) = none) (hist : Created) (h : FreshHistory hist)
    (q : Labels) (hq : ∀ l ∈ q, WFLabel l) : tikvContains pre (tikvRun pre kv hist) q = .ok (specContains hist q) :=
  tikv_contains (tikvRun_inv hkv h) h.ids hq

/-- C18, TiKV metadata lookup. -/
theorem C18_tikv_metadata (pre : Str) (kv : KV) (hkv : ∀ k, kv (pre ++ k) = none) (hist : Created) (h : FreshHistory hist)
    (q : Labels) (hq : ∀ l ∈ q, WFLabel l) : tikvMetadata pre (tikvRun pre kv hist) q = .ok (specMetadata hist q) :=
  tikv_metadata (tikvRun_inv hkv h) h.wf h.ids hq

/-- C18. The specification says what is claimed: an id is returned exactly when its series has every known requested
label and at least one requested label is known. -/
theorem C18_spec_meaning (c : Created) (q : Labels) (i : U64) :
    i ∈ specContains c q ↔ (∃ l ∈ q, ∃ s ∈ c, l ∈ s.1) ∧
      ∃ s ∈ c, s.2 = i ∧ ∀ l ∈ q, (∃ t ∈ c, l ∈ t.1) → l ∈ s.1 := by
  unfold specContains
  by_cases h0 : knownLabels c q = []
  · rw [if_pos h0]
    simp only [List.not_mem_nil, false_iff]
    rintro ⟨⟨l, hl, s, hs, hls⟩, -⟩
    have : l ∈ knownLabels c q := List.mem_filter.mpr ⟨hl, List.any_eq_true.mpr ⟨s, hs, by simpa using hls⟩⟩
    rw [h0] at this; simp at this
  · rw [if_neg h0]
    simp only [specHavingAll, List.mem_map, List.mem_filter, List.all_eq_true, knownLabels, List.any_eq_true,
      decide_eq_true_eq]
    constructor
    · rintro ⟨s, ⟨hs, ha⟩, rfl⟩
      refine ⟨?_, s, hs, rfl, fun l hl ht => ha l ⟨hl, ht⟩⟩
      obtain ⟨l, hl⟩ := List.exists_mem_of_ne_nil _ h0
      simp only [knownLabels, List.mem_filter, List.any_eq_true, decide_eq_true_eq] at hl
      exact ⟨l, hl.1, hl.2⟩
    · rintro ⟨-, s, hs, rfl, ha⟩
      exact ⟨s, ⟨hs, fun l ⟨hl, ht⟩ => ha l hl ht⟩, rfl⟩

example : sledContains (sledRun exHist) [lbl "job" "api", lbl "host" "b"] = .ok [2#64] := by decide +kernel
example : sledContains (sledRun exHist) [lbl "job" "zzz"] = .ok [] := by decide +kernel
example : sledMetadata (sledRun exHist) [lbl "job" "api"] =
    .ok [(1#64, [lbl "host" "a", lbl "job" "api"]), (2#64, [lbl "host" "b", lbl "job" "api"])] := by decide +kernel

/-! ### C19 -/

/-- C19. In every reachable state, creating an index for a label set (in any order of its labels) that already has one
returns an error and leaves the store as it is. -/
theorem C19_duplicate_rejected (hist : Created) (h : History hist) (ls q : Labels) (i j : U64) (hm : (ls, i) ∈ hist)
    (hp : ls.Perm q) : sledCreate (sledRun hist) q j = (.err .internal, sledRun hist) := by
  have hw := h.wf _ hm
  have hi := (sledRun_inv h).byLabels ls hw
  simp only [sledCodec, List.nil_append] at hi
  have hs : (specByLabels (accepted hist) ls).isSome := by
    rw [specByLabels_accepted]
    unfold specByLabels
    rw [Option.isSome_map, List.find?_isSome]
    exact ⟨_, hm, by simp⟩
  unfold sledCreate
  rw [← encodeLabels_perm hw.distinct hp, if_pos]
  rw [hi, Option.isSome_map]; exact hs

/-- C19. A label set that has no index is accepted, and afterwards it has one. -/
theorem C19_fresh_accepted (hist : Created) (h : History hist) (q : Labels) (j : U64)
    (hw : WFSet q) (hj : ∀ s ∈ hist, s.2.toNat < j.toNat) (hf : ∀ s ∈ hist, ¬ s.1.Perm q) :
    (sledCreate (sledRun hist) q j).1 = .ok () ∧ sledByLabels (sledCreate (sledRun hist) q j).2 q = .ok (some j) := by
  have hnone : sledRun hist (encodeLabels q true) = none := by
    have hi := (sledRun_inv h).byLabels q hw
    simp only [sledCodec, List.nil_append, specByLabels_accepted] at hi
    rw [hi, Option.map_eq_none_iff]
    unfold specByLabels
    rw [Option.map_eq_none_iff, List.find?_eq_none]
    intro s hs; simpa using hf s hs
  constructor
  · unfold sledCreate; rw [hnone]; rfl
  · have hh : History (hist ++ [(q, j)]) := by
      refine ⟨?_, ?_⟩
      · intro s hs
        rcases List.mem_append.mp hs with hs | hs
        · exact h.wf s hs
        · simp only [List.mem_singleton] at hs; subst hs; exact hw
      · rw [List.pairwise_append]
        exact ⟨h.ids, by simp, by simpa using hj⟩
    have := (C16_sled _ hh q hw).1 hist q j [] rfl hf (List.Perm.refl _)
    rw [sledRun_append] at this
    exact this

/-- C19. The TiKV indexer does not reject duplicates: the second creation succeeds and takes over the label set. -/
theorem C19_tikv_overwrites (pre : Str) (kv : KV) (ls : Labels) (hw : WFSet ls) (i j : U64) :
    (tikvCreate pre (tikvCreate pre kv ls i).2 ls j).1 = .ok () ∧
    tikvByLabels pre (tikvCreate pre (tikvCreate pre kv ls i).2 ls j).2 ls = .ok (some j) := by
  refine ⟨rfl, ?_⟩
  have := (tikv_after hw pre j (tikvCreate pre kv ls i).2).set
  unfold tikvByLabels
  show (match (tikvCreateSteps pre ls j).foldl (fun kv f => f kv) (tikvCreate pre kv ls i).2 (pre ++ encodeLabels ls true) with
    | some v => (Res.ofPanic (fromBE v)).bind fun i => .ok (some i)
    | none => .ok none) = _
  simp only [tikvCodec] at this
  rw [this]
  simp [fromBE_toBE, Res.ofPanic]

example : (sledCreate (sledRun exHist) [lbl "host" "a", lbl "job" "api"] 9#64).1 = .err .internal := by decide +kernel

/-! ### C20 -/

/-- C20. Over the same history of fresh label sets with increasing ids, both indexers answer every exact, containment and
metadata lookup with the same value. -/
theorem C20_interchangeable (hist : Created) (h : FreshHistory hist) (pre : Str) (kv : KV)
    (hkv : ∀ k, kv (pre ++ k) = none) :
    (∀ q, WFSet q → sledByLabels (sledRun hist) q = tikvByLabels pre (tikvRun pre kv hist) q) ∧
    (∀ q, (∀ l ∈ q, WFLabel l) → sledContains (sledRun hist) q = tikvContains pre (tikvRun pre kv hist) q) ∧
    (∀ q, (∀ l ∈ q, WFLabel l) → sledMetadata (sledRun hist) q = tikvMetadata pre (tikvRun pre kv hist) q) := by
  have e := accepted_of_fresh h.fresh
  refine ⟨fun q hq => ?_, fun q hq => ?_, fun q hq => ?_⟩
  · rw [sled_byLabels (sledRun_inv h.history) hq, tikv_byLabels (tikvRun_inv hkv h) hq, e]
  · rw [C18_sled_contains hist h.history q hq, C18_tikv_contains pre kv hkv hist h q hq, e]
  · rw [C18_sled_metadata hist h.history q hq, C18_tikv_metadata pre kv hkv hist h q hq, e]

example : FreshHistory exHist ∧ ∀ k, KV.empty ([1#8, 2#8] ++ k) = none := ⟨exHist_fresh, fun _ => rfl⟩

/-! ### C21 -/

/-- C21, exact, for well-formed labels: an id entry never shares a key with the other kinds, and a label set entry shares
its key with the entry of a single label exactly when the set is one label whose name is `R` followed by that label's name
(with the same value). -/
theorem C21_exact (ls : Labels) (l : Label) (i : U64) (hs : ∀ l ∈ ls, WFLabel l) (hl : WFLabel l) :
    encodeId i ≠ encodeLabels ls true ∧ encodeId i ≠ encodeLabel l ∧
      (encodeLabels ls true = encodeLabel l ↔ ls = [⟨82#8 :: l.key, l.value⟩]) :=
  ⟨encodeId_ne_labels i ls, encodeId_ne_label i l, labels_key_eq_label_key hs hl⟩

/-- C21 is violated: after creating a series with label `host=a`, looking up the never created series `Rhost=a` reports
its id (both indexers); with two such series the sled lookup fails and the TiKV lookup panics. -/
theorem C21_violated :
    sledByLabels (sledRun [([lbl "host" "a"], 1#64)]) [lbl "Rhost" "a"] = .ok (some 1#64) ∧
    tikvByLabels [] (tikvRun [] KV.empty [([lbl "host" "a"], 1#64)]) [lbl "Rhost" "a"] = .ok (some 1#64) ∧
    sledByLabels (sledRun [([lbl "host" "a"], 1#64), ([lbl "host" "a", lbl "job" "b"], 2#64)]) [lbl "Rhost" "a"] =
      .err .parseErr ∧
    tikvByLabels [] (tikvRun [] KV.empty [([lbl "host" "a"], 1#64), ([lbl "host" "a", lbl "job" "b"], 2#64)])
      [lbl "Rhost" "a"] = .panic := by decide +kernel

/-- C21, part that holds: no interference for well-formed label sets (which exclude single labels with a name starting
with `R`). -/
theorem C21_partial (ls : Labels) (l : Label) (i : U64) (hs : WFSet ls) (hl : WFLabel l) :
    encodeId i ≠ encodeLabels ls true ∧ encodeId i ≠ encodeLabel l ∧ encodeLabels ls true ≠ encodeLabel l :=
  ⟨encodeId_ne_labels i ls, encodeId_ne_label i l, hs.key_ne_label hl⟩

/-- C21. Ids have pairwise different id entries, well-formed labels pairwise different reverse entries. -/
theorem C21_injective (i j : U64) (a b : Label) (ha : WFLabel a) (hb : WFLabel b) :
    (encodeId i = encodeId j → i = j) ∧ (encodeLabel a = encodeLabel b → a = b) :=
  ⟨encodeId_inj, encodeLabel_inj ha hb⟩

end Verif
