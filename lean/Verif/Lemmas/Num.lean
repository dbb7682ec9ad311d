import Verif.Model.Num
/-! Formatting and parsing numbers; stable sorting. -/
namespace Verif
open List

theorem digitsAux_lt {radix : Nat} (hr : 2 ≤ radix) (fuel n : Nat) : ∀ d ∈ digitsAux radix fuel n, d < radix := by
  induction fuel generalizing n with
  | zero => simp [digitsAux]
  | succ fuel ih =>
    intro d hd
    rw [digitsAux] at hd
    split at hd
    · simp at hd; omega
    · rcases List.mem_append.mp hd with h | h
      · exact ih _ d h
      · simp at h; subst h; exact Nat.mod_lt _ (by omega)

/-- Value of a digit list. -/
def valOf (radix : Nat) (acc : Nat) (ds : List Nat) : Nat := ds.foldl (fun a d => a * radix + d) acc

theorem valOf_append (radix acc : Nat) (a b : List Nat) : valOf radix acc (a ++ b) = valOf radix (valOf radix acc a) b := by
  simp [valOf]

theorem digitsAux_val {radix : Nat} (hr : 2 ≤ radix) (fuel n : Nat) (h : n < fuel) :
    valOf radix 0 (digitsAux radix fuel n) = n := by
  induction fuel generalizing n with
  | zero => omega
  | succ fuel ih =>
    rw [digitsAux]
    split
    · simp [valOf]
    · have hlt : n / radix < fuel := by
        have := Nat.div_lt_self (n := n) (k := radix) (by omega) (by omega)
        omega
      rw [valOf_append, ih _ hlt]
      simp only [valOf, foldl_cons, foldl_nil]
      have := Nat.div_add_mod n radix
      rw [Nat.mul_comm] at this
      exact this

theorem digitsAux_ne_nil (radix fuel n : Nat) : digitsAux radix (fuel + 1) n ≠ [] := by
  rw [digitsAux]; split <;> simp

theorem digitVal_digitByte {radix d : Nat} (hr : radix ≤ 36) (hd : d < radix) :
    digitVal radix (digitByte d) = some d := by
  have h36 : d < 36 := by omega
  have key : ∀ d : Fin 36, digitVal 36 (digitByte d.val) = some d.val := by decide
  have := key ⟨d, h36⟩
  simp only [digitVal] at this ⊢
  cases hv : (if 48 ≤ (digitByte d).toNat ∧ (digitByte d).toNat ≤ 57 then some ((digitByte d).toNat - 48)
    else if 97 ≤ (digitByte d).toNat ∧ (digitByte d).toNat ≤ 122 then some ((digitByte d).toNat - 87)
    else if 65 ≤ (digitByte d).toNat ∧ (digitByte d).toNat ≤ 90 then some ((digitByte d).toNat - 55)
    else none) with
  | none => rw [hv] at this; simp at this
  | some v =>
    rw [hv] at this
    simp only [Option.bind_some] at this ⊢
    split at this
    · simp only [Option.some.injEq] at this
      subst this
      simp [hd]
    · cases this

theorem valOf_ge (radix acc : Nat) (hr : 1 ≤ radix) (ds : List Nat) : acc ≤ valOf radix acc ds := by
  induction ds generalizing acc with
  | nil => simp [valOf]
  | cons d ds ih =>
    have := ih (acc * radix + d)
    have h2 : acc ≤ acc * radix := Nat.le_mul_of_pos_right _ hr
    simp only [valOf, foldl_cons] at *
    omega

theorem parseDigits_digits {radix max : Nat} (hr : 2 ≤ radix) (hr2 : radix ≤ 36) (ds : List Nat) (acc : Nat)
    (hd : ∀ d ∈ ds, d < radix) (hm : valOf radix acc ds ≤ max) :
    parseDigits radix max acc (ds.map digitByte) = some (valOf radix acc ds) := by
  induction ds generalizing acc with
  | nil => rfl
  | cons d ds ih =>
    simp only [map_cons, parseDigits, digitVal_digitByte hr2 (hd d (by simp)), Option.bind_some]
    have e : valOf radix acc (d :: ds) = valOf radix (acc * radix + d) ds := rfl
    have := valOf_ge radix (acc * radix + d) (by omega) ds
    rw [if_neg (by omega), ih _ (fun x hx => hd x (by simp [hx])) (by rw [← e]; exact hm), e]

theorem digitByte_ne {d : Nat} (h : d < 36) (b : Byte) (hb : b.toNat < 48) : digitByte d ≠ b := by
  intro he
  have := congrArg BitVec.toNat he
  simp only [digitByte, BitVec.toNat_ofNat] at this
  split at this <;> omega

theorem formatNat_cons {radix n : Nat} (hr : 2 ≤ radix) :
    ∃ d ds, digitsAux radix (n + 1) n = d :: ds ∧ d < radix ∧ formatNat radix n = digitByte d :: ds.map digitByte := by
  cases h : digitsAux radix (n + 1) n with
  | nil => exact absurd h (digitsAux_ne_nil _ _ _)
  | cons d ds =>
    refine ⟨d, ds, rfl, digitsAux_lt hr (n + 1) n d (by rw [h]; simp), by simp [formatNat, h]⟩

/-- Parsing what was formatted. -/
theorem parse_format {radix max n : Nat} (hr : 2 ≤ radix) (hr2 : radix ≤ 36) (hn : n ≤ max) :
    parseUnsigned radix max (formatNat radix n) = some n := by
  obtain ⟨d, ds, h1, h2, h3⟩ := formatNat_cons (n := n) hr
  have hval := digitsAux_val hr (n + 1) n (by omega)
  have hne : digitByte d ≠ 43#8 := digitByte_ne (by omega) _ (by decide)
  simp only [parseUnsigned, stripPlus, h3]
  rw [if_neg hne, if_neg (by simp)]
  have := parseDigits_digits hr hr2 (d :: ds) 0 (by rw [← h1]; exact digitsAux_lt hr _ _)
    (max := max) (by rw [← h1, hval]; exact hn)
  rw [← h1, hval, h1] at this
  simpa using this

theorem formatNat_inj {radix a b : Nat} (hr : 2 ≤ radix) (hr2 : radix ≤ 36) (h : formatNat radix a = formatNat radix b) :
    a = b := by
  have h1 := parse_format (max := max a b) hr hr2 (Nat.le_max_left a b)
  have h2 := parse_format (max := max a b) hr hr2 (Nat.le_max_right a b)
  rw [h, h2] at h1
  exact (Option.some.inj h1).symm

theorem formatNat_ne_nil (radix n : Nat) : formatNat radix n ≠ [] := by
  simp [formatNat, digitsAux_ne_nil]

/-- Every byte printed is a digit byte. -/
theorem formatNat_digits {radix n : Nat} (hr : 2 ≤ radix) : ∀ b ∈ formatNat radix n, ∃ d, d < radix ∧ b = digitByte d := by
  intro b hb
  simp only [formatNat, List.mem_map] at hb
  obtain ⟨d, hd, rfl⟩ := hb
  exact ⟨d, digitsAux_lt hr _ _ d hd, rfl⟩

/-! ### Stable sort -/

theorem insertBy_perm {α} (le : α → α → Bool) (x : α) (l : List α) : (insertBy le x l).Perm (x :: l) := by
  induction l with
  | nil => exact List.Perm.refl _
  | cons y ys ih =>
    rw [insertBy]
    split
    · exact List.Perm.refl _
    · exact (ih.cons y).trans (List.Perm.swap x y ys)

theorem stableSort_perm {α} (le : α → α → Bool) (l : List α) : (stableSort le l).Perm l := by
  induction l with
  | nil => exact List.Perm.refl _
  | cons x xs ih => exact (insertBy_perm le x _).trans (ih.cons x)

theorem insertBy_sorted {α} {le : α → α → Bool} (htot : ∀ a b, le a b = true ∨ le b a = true)
    (htr : ∀ a b c, le a b = true → le b c = true → le a c = true) (x : α) (l : List α)
    (h : l.Pairwise (fun a b => le a b = true)) : (insertBy le x l).Pairwise (fun a b => le a b = true) := by
  induction l with
  | nil => simp [insertBy]
  | cons y ys ih =>
    rw [insertBy]
    rw [pairwise_cons] at h
    split
    · rename_i hxy
      rw [pairwise_cons, pairwise_cons]
      refine ⟨?_, h⟩
      intro z hz
      rcases List.mem_cons.mp hz with rfl | hz
      · exact hxy
      · exact htr _ _ _ hxy (h.1 z hz)
    · rename_i hxy
      rw [pairwise_cons]
      refine ⟨?_, ih h.2⟩
      intro z hz
      rcases List.mem_cons.mp ((insertBy_perm le x ys).mem_iff.mp hz) with rfl | hz
      · exact (htot y z).resolve_right hxy
      · exact h.1 z hz

theorem stableSort_sorted {α} {le : α → α → Bool} (htot : ∀ a b, le a b = true ∨ le b a = true)
    (htr : ∀ a b c, le a b = true → le b c = true → le a c = true) (l : List α) :
    (stableSort le l).Pairwise (fun a b => le a b = true) := by
  induction l with
  | nil => exact Pairwise.nil
  | cons x xs ih => exact insertBy_sorted htot htr x _ ih

/-- A sorted list is unchanged. -/
theorem stableSort_of_sorted {α} {le : α → α → Bool} (l : List α) (h : l.Pairwise (fun a b => le a b = true)) :
    stableSort le l = l := by
  induction l with
  | nil => rfl
  | cons x xs ih =>
    rw [pairwise_cons] at h
    rw [stableSort, ih h.2]
    cases xs with
    | nil => rfl
    | cons y ys => rw [insertBy, if_pos (h.1 y (by simp))]

end Verif
