import Verif.Model.Label
import Verif.Spec.Indexer
import Verif.Lemmas.Num
import Mathlib.Data.List.Perm.Basic
import Mathlib.Data.List.Nodup
namespace Verif
open List

/-! ### Order on strings -/

theorem strLe_refl (a : Str) : strLe a a = true := by
  induction a with
  | nil => rfl
  | cons x a ih => simp [strLe, ih]

theorem strLe_total (a b : Str) : strLe a b = true ∨ strLe b a = true := by
  induction a generalizing b with
  | nil => left; rfl
  | cons x a ih =>
    cases b with
    | nil => right; rfl
    | cons y b =>
      simp only [strLe]
      by_cases h : x = y
      · subst h; simpa using ih b
      · rw [if_neg h, if_neg (Ne.symm h)]
        have : x.toNat ≠ y.toNat := fun e => h (BitVec.eq_of_toNat_eq e)
        simp only [decide_eq_true_eq]; omega

theorem strLe_trans (a b c : Str) (h1 : strLe a b = true) (h2 : strLe b c = true) : strLe a c = true := by
  induction a generalizing b c with
  | nil => rfl
  | cons x a ih =>
    cases b with
    | nil => simp [strLe] at h1
    | cons y b =>
      cases c with
      | nil => simp [strLe] at h2
      | cons z c =>
        simp only [strLe] at h1 h2 ⊢
        by_cases hxy : x = y
        · subst hxy
          rw [if_pos rfl] at h1
          by_cases hxz : x = z
          · subst hxz; rw [if_pos rfl] at h2 ⊢; exact ih b c h1 h2
          · rw [if_neg hxz] at h2 ⊢; exact h2
        · rw [if_neg hxy] at h1
          by_cases hyz : y = z
          · subst hyz; rw [if_neg hxy]; exact h1
          · rw [if_neg hyz] at h2
            simp only [decide_eq_true_eq] at h1 h2
            rw [if_neg (by rintro rfl; omega)]
            simp only [decide_eq_true_eq]; omega

theorem strLe_antisymm (a b : Str) (h1 : strLe a b = true) (h2 : strLe b a = true) : a = b := by
  induction a generalizing b with
  | nil => cases b with
    | nil => rfl
    | cons y b => simp [strLe] at h2
  | cons x a ih =>
    cases b with
    | nil => simp [strLe] at h1
    | cons y b =>
      simp only [strLe] at h1 h2
      by_cases hxy : x = y
      · subst hxy; simp only [if_true] at h1 h2; rw [ih b h1 h2]
      · rw [if_neg hxy] at h1; rw [if_neg (Ne.symm hxy)] at h2
        simp only [decide_eq_true_eq] at h1 h2; omega

/-! ### Sorting labels -/

theorem sortLabels_perm (ls : Labels) : (sortLabels ls).Perm ls := stableSort_perm _ _

theorem sortLabels_sorted (ls : Labels) : (sortLabels ls).Pairwise (fun a b => strLe a.key b.key = true) :=
  stableSort_sorted (le := fun a b : Label => strLe a.key b.key) (fun a b => strLe_total a.key b.key)
    (fun a b c => strLe_trans a.key b.key c.key) ls

theorem sortLabels_mem (ls : Labels) (l : Label) : l ∈ sortLabels ls ↔ l ∈ ls := (sortLabels_perm ls).mem_iff

theorem sortLabels_eq_nil {ls : Labels} : sortLabels ls = [] ↔ ls = [] := by
  rw [← List.length_eq_zero_iff, (sortLabels_perm ls).length_eq, List.length_eq_zero_iff]

theorem DistinctNames.perm {a b : Labels} (h : DistinctNames a) (hp : a.Perm b) : DistinctNames b :=
  ((hp.map _).nodup_iff).mp h

theorem DistinctNames.key_inj {ls : Labels} (h : DistinctNames ls) {a b : Label} (ha : a ∈ ls) (hb : b ∈ ls)
    (hk : a.key = b.key) : a = b := List.inj_on_of_nodup_map h ha hb hk

/-- Permuted label sets with distinct names are sorted to the same list. -/
theorem sortLabels_perm_eq {a b : Labels} (ha : DistinctNames a) (hp : a.Perm b) : sortLabels a = sortLabels b := by
  refine List.Perm.eq_of_pairwise (le := fun a b => strLe a.key b.key = true) ?_ (sortLabels_sorted a)
    (sortLabels_sorted b) ((sortLabels_perm a).trans (hp.trans (sortLabels_perm b).symm))
  intro x y hx hy h1 h2
  exact ha.key_inj ((sortLabels_mem a x).mp hx) (hp.mem_iff.mpr ((sortLabels_mem b y).mp hy)) (strLe_antisymm _ _ h1 h2)

/-- Equal sorted lists are permutations of each other. -/
theorem perm_of_sortLabels_eq {a b : Labels} (h : sortLabels a = sortLabels b) : a.Perm b :=
  (sortLabels_perm a).symm.trans (h ▸ sortLabels_perm b)

/-! ### Codec -/

/-- Join with commas. -/
def joinComma : List Str → Str
  | [] => []
  | [p] => p
  | p :: q :: ps => p ++ comma :: joinComma (q :: ps)

theorem joinComma_cons {p : Str} {ps : List Str} (h : ps ≠ []) : joinComma (p :: ps) = p ++ comma :: joinComma ps := by
  cases ps with
  | nil => exact absurd rfl h
  | cons q ps => rfl

theorem joinComma_append_one (ps : List Str) (h : ps ≠ []) (q : Str) :
    joinComma (ps ++ [q]) = joinComma ps ++ comma :: q := by
  induction ps with
  | nil => exact absurd rfl h
  | cons p ps ih =>
    cases ps with
    | nil => rfl
    | cons p' ps =>
      rw [List.cons_append, joinComma_cons (by simp), ih (by simp), joinComma_cons (ps := p' :: ps) (by simp)]
      simp

theorem foldl_join (ls : Labels) (acc : Str) :
    ls.foldl (fun res l => res ++ (encodePair l ++ [comma])) acc = acc ++ ls.flatMap (fun l => encodePair l ++ [comma]) := by
  induction ls generalizing acc with
  | nil => simp
  | cons l ls ih => simp [ih, List.append_assoc]

theorem flatMap_dropLast (ls : Labels) : (ls.flatMap (fun l => encodePair l ++ [comma])).dropLast = joinComma (ls.map encodePair) := by
  induction ls with
  | nil => rfl
  | cons l ls ih =>
    cases ls with
    | nil => simp [joinComma]
    | cons l' ls =>
      rw [List.map_cons, joinComma_cons (by simp), ← ih, List.flatMap_cons, List.dropLast_append_of_ne_nil (by simp)]
      simp

theorem encodeLabels_eq (ls : Labels) :
    encodeLabels ls false = joinComma ((sortLabels ls).map encodePair) ∧
    encodeLabels ls true = 76#8 :: joinComma ((sortLabels ls).map encodePair) := by
  simp only [encodeLabels, foldl_join, List.nil_append, flatMap_dropLast]
  simp

theorem splitComma_ne_nil (s : Str) : splitComma s ≠ [] := by
  cases s with
  | nil => simp [splitComma]
  | cons b s =>
    rw [splitComma]
    split
    · simp
    · split <;> simp

theorem splitComma_free {p : Str} (h : ∀ b ∈ p, b ≠ comma) : splitComma p = [p] := by
  induction p with
  | nil => rfl
  | cons b p ih => rw [splitComma, if_neg (h b (by simp)), ih (fun b hb => h b (by simp [hb]))]

theorem splitComma_append {p : Str} (h : ∀ b ∈ p, b ≠ comma) (s : Str) : splitComma (p ++ comma :: s) = p :: splitComma s := by
  induction p with
  | nil => simp [splitComma]
  | cons b p ih =>
    rw [List.cons_append, splitComma, if_neg (h b (by simp)), ih (fun b hb => h b (by simp [hb]))]

theorem splitComma_join {ps : List Str} (hne : ps ≠ []) (h : ∀ p ∈ ps, ∀ b ∈ p, b ≠ comma) : splitComma (joinComma ps) = ps := by
  induction ps with
  | nil => exact absurd rfl hne
  | cons p ps ih =>
    cases ps with
    | nil => exact splitComma_free (h p (by simp))
    | cons q ps =>
      rw [joinComma_cons (by simp), splitComma_append (h p (by simp)), ih (by simp) (fun p' hp => h p' (by simp [hp]))]

theorem splitEquals_pair {l : Label} (h : ∀ b ∈ l.key, b ≠ equals) : splitEquals (encodePair l) = some l := by
  obtain ⟨k, v⟩ := l
  simp only [encodePair]
  simp only at h
  induction k with
  | nil => simp [splitEquals]
  | cons b k ih =>
    rw [List.cons_append, splitEquals, if_neg (h b (by simp)), ih (fun b hb => h b (by simp [hb]))]
    rfl

theorem encodePair_comma_free {l : Label} (h : WFLabel l) : ∀ b ∈ encodePair l, b ≠ comma := by
  intro b hb
  simp only [encodePair, List.mem_append, List.mem_cons] at hb
  rcases hb with hb | rfl | hb
  · exact (h.1 b hb).2
  · decide
  · exact h.2 b hb

theorem encodePair_inj {a b : Label} (ha : WFLabel a) (hb : WFLabel b) (h : encodePair a = encodePair b) : a = b := by
  have h1 := splitEquals_pair (l := a) (fun x hx => (ha.1 x hx).1)
  have h2 := splitEquals_pair (l := b) (fun x hx => (hb.1 x hx).1)
  rw [h, h2] at h1
  exact (Option.some.inj h1).symm

theorem Res.mapM_ok {α β} {f : α → Res β} {g : α → β} (l : List α) (h : ∀ a ∈ l, f a = .ok (g a)) :
    Res.mapM f l = .ok (l.map g) := by
  induction l with
  | nil => rfl
  | cons a l ih => simp [Res.mapM, h a (by simp), ih (fun b hb => h b (by simp [hb]))]

/-- Decoding the comma-joined pairs of well-formed labels. -/
theorem decode_join {ls : Labels} (hne : ls ≠ []) (h : ∀ l ∈ ls, WFLabel l) :
    decodeLabels (joinComma (ls.map encodePair)) = .ok ls := by
  unfold decodeLabels
  rw [splitComma_join (by simpa using hne)]
  · induction ls with
    | nil => exact absurd rfl hne
    | cons l ls ih =>
      have h1 : Res.ofErr MErr.internal (splitEquals (encodePair l)) = .ok l := by
        rw [splitEquals_pair (fun b hb => ((h l (by simp)).1 b hb).1)]; rfl
      rw [List.map_cons, Res.mapM, h1]
      cases ls with
      | nil => rfl
      | cons l' ls =>
        rw [ih (by simp) (fun x hx => h x (by simp [hx]))]; rfl
  · intro p hp
    simp only [List.mem_map] at hp
    obtain ⟨l, hl, rfl⟩ := hp
    exact encodePair_comma_free (h l hl)

theorem decode_encodeLabels {ls : Labels} (hne : ls ≠ []) (h : ∀ l ∈ ls, WFLabel l) :
    decodeLabels (encodeLabels ls false) = .ok (sortLabels ls) := by
  rw [(encodeLabels_eq ls).1]
  exact decode_join (fun e => hne (sortLabels_eq_nil.mp e)) (fun l hl => h l ((sortLabels_mem ls l).mp hl))

theorem joinComma_eq_nil {ls : Labels} (h : joinComma (ls.map encodePair) = []) : ls = [] := by
  cases ls with
  | nil => rfl
  | cons l ls =>
    cases ls with
    | nil => simp [joinComma, encodePair] at h
    | cons l' ls => simp [joinComma_cons, encodePair] at h

theorem joinPairs_inj {a b : Labels} (ha : ∀ l ∈ a, WFLabel l) (hb : ∀ l ∈ b, WFLabel l)
    (h : joinComma (a.map encodePair) = joinComma (b.map encodePair)) : a = b := by
  by_cases h1 : a = []
  · subst h1; exact (joinComma_eq_nil h.symm).symm
  by_cases h2 : b = []
  · subst h2; exact joinComma_eq_nil h
  have e1 := decode_join h1 ha
  have e2 := decode_join h2 hb
  rw [h, e2] at e1
  injection e1 with e
  exact e.symm

theorem encodeLabels_inj {a b : Labels} (p : Bool) (ha : ∀ l ∈ a, WFLabel l) (hb : ∀ l ∈ b, WFLabel l)
    (h : encodeLabels a p = encodeLabels b p) : sortLabels a = sortLabels b := by
  have key : joinComma ((sortLabels a).map encodePair) = joinComma ((sortLabels b).map encodePair) := by
    cases p
    · rwa [(encodeLabels_eq a).1, (encodeLabels_eq b).1] at h
    · rw [(encodeLabels_eq a).2, (encodeLabels_eq b).2] at h; exact (List.cons.inj h).2
  exact joinPairs_inj (fun l hl => ha l ((sortLabels_mem a l).mp hl)) (fun l hl => hb l ((sortLabels_mem b l).mp hl)) key

theorem encodeLabel_inj {a b : Label} (ha : WFLabel a) (hb : WFLabel b) (h : encodeLabel a = encodeLabel b) : a = b :=
  encodePair_inj ha hb (List.append_cancel_left h)

theorem encodeId_inj {i j : U64} (h : encodeId i = encodeId j) : i = j :=
  BitVec.eq_of_toNat_eq (formatNat_inj (by omega) (by omega) (List.cons.inj h).2)

/-- The keys "I..." and "L..." never coincide. -/
theorem encodeId_ne_labels (i : U64) (ls : Labels) : encodeId i ≠ encodeLabels ls true := by
  rw [(encodeLabels_eq ls).2]; simp [encodeId]
theorem encodeId_ne_label (i : U64) (l : Label) : encodeId i ≠ encodeLabel l := by
  simp [encodeId, encodeLabel]

/-- When the key of a label set equals the reverse key of a single label. -/
theorem labels_key_eq_label_key {ls : Labels} {l : Label} (hs : ∀ l ∈ ls, WFLabel l) (hl : WFLabel l) :
    encodeLabels ls true = encodeLabel l ↔ ls = [⟨82#8 :: l.key, l.value⟩] := by
  have hwf : WFLabel ⟨82#8 :: l.key, l.value⟩ := by
    refine ⟨?_, hl.2⟩
    intro b hb
    rcases List.mem_cons.mp hb with rfl | hb
    · decide
    · exact hl.1 b hb
  have e : encodeLabel l = 76#8 :: joinComma ([(⟨82#8 :: l.key, l.value⟩ : Label)].map encodePair) := by
    simp [encodeLabel, joinComma, encodePair]
  rw [e, (encodeLabels_eq ls).2]
  constructor
  · intro h
    have := joinPairs_inj (fun l hl => hs l ((sortLabels_mem ls l).mp hl)) (by simpa using hwf) (List.cons.inj h).2
    have hp := sortLabels_perm ls
    rw [this] at hp
    exact List.perm_singleton.mp hp.symm
  · rintro rfl; rfl

end Verif
