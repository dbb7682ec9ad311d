import Verif.Model.Intersect
namespace Verif
open List

theorem oi_cons {fuel : Nat} {a b : U64} {as bs} : orderIntersectLoop (fuel + 1) (a :: as) (b :: bs) =
    if a = b then a :: orderIntersectLoop fuel as bs
    else if b.toNat < a.toNat then orderIntersectLoop fuel (a :: as) bs
    else orderIntersectLoop fuel as (b :: bs) := rfl
theorem oi_nil_left {fuel : Nat} {b} : orderIntersectLoop fuel [] b = [] := by cases fuel <;> rfl
theorem oi_nil_right {fuel : Nat} {a} : orderIntersectLoop fuel a [] = [] := by cases fuel <;> cases a <;> rfl

/-- Extra fuel does not matter. -/
theorem oi_fuel (fuel k : Nat) (a b : List U64) (h : a.length + b.length ≤ fuel) :
    orderIntersectLoop (fuel + k) a b = orderIntersectLoop fuel a b := by
  induction fuel generalizing a b with
  | zero =>
    cases a with
    | nil => simp [oi_nil_left]
    | cons x a => simp at h
  | succ fuel ih =>
    cases a with
    | nil => simp [oi_nil_left]
    | cons x a =>
      cases b with
      | nil => simp [oi_nil_right]
      | cons y b =>
        simp only [length_cons] at h
        rw [show fuel + 1 + k = fuel + k + 1 by omega, oi_cons, oi_cons, ih _ _ (by omega), ih _ _ (by simp; omega),
          ih _ _ (by simp; omega)]

/-- The equation of the loop without fuel. -/
theorem orderIntersect_cons (a b : U64) (as bs : List U64) :
    orderIntersect (a :: as) (b :: bs) =
      if a = b then a :: orderIntersect as bs
      else if b.toNat < a.toNat then orderIntersect (a :: as) bs
      else orderIntersect as (b :: bs) := by
  unfold orderIntersect
  rw [show (a :: as).length + (b :: bs).length = (as.length + bs.length + 1) + 1 by simp; omega, oi_cons,
    oi_fuel (as.length + bs.length) 1 as bs (by omega)]
  congr 2
  simp; congr 1; omega

theorem orderIntersect_nil_left (b) : orderIntersect [] b = [] := oi_nil_left
theorem orderIntersect_nil_right (a) : orderIntersect a [] = [] := oi_nil_right

theorem orderIntersect_comm (a b : List U64) : orderIntersect a b = orderIntersect b a := by
  generalize hn : a.length + b.length = n
  induction n using Nat.strongRecOn generalizing a b with
  | _ n ih =>
  cases a with
  | nil => rw [orderIntersect_nil_left, orderIntersect_nil_right]
  | cons x a =>
    cases b with
    | nil => rw [orderIntersect_nil_left, orderIntersect_nil_right]
    | cons y b =>
      simp only [length_cons] at hn
      rw [orderIntersect_cons, orderIntersect_cons]
      by_cases hxy : x = y
      · subst hxy; simp only [if_true]; rw [ih (a.length + b.length) (by omega) a b rfl]
      · have hyx : ¬ y = x := fun h => hxy h.symm
        have hne : x.toNat ≠ y.toNat := fun h => hxy (BitVec.eq_of_toNat_eq h)
        rw [if_neg hxy, if_neg hyx]
        by_cases hlt : y.toNat < x.toNat
        · rw [if_pos hlt, if_neg (by omega)]
          exact ih ((x :: a).length + b.length) (by simp; omega) _ _ rfl
        · rw [if_neg hlt, if_pos (by omega)]
          exact ih (a.length + (y :: b).length) (by simp; omega) _ _ rfl

/-- Weakly ascending. -/
def Asc (l : List U64) : Prop := l.Pairwise (fun a b => a.toNat ≤ b.toNat)
/-- Strictly ascending. -/
def SAsc (l : List U64) : Prop := l.Pairwise (fun a b => a.toNat < b.toNat)

theorem SAsc.asc {l} (h : SAsc l) : Asc l := h.imp (by intro a b; omega)

theorem orderIntersect_mem {a b : List U64} (ha : Asc a) (hb : Asc b) (x : U64) :
    x ∈ orderIntersect a b ↔ x ∈ a ∧ x ∈ b := by
  generalize hn : a.length + b.length = n
  induction n using Nat.strongRecOn generalizing a b with
  | _ n ih =>
  cases a with
  | nil => simp [orderIntersect_nil_left]
  | cons u a =>
    cases b with
    | nil => simp [orderIntersect_nil_right]
    | cons v b =>
      simp only [length_cons] at hn
      have ha' := List.pairwise_cons.mp ha
      have hb' := List.pairwise_cons.mp hb
      rw [orderIntersect_cons]
      by_cases huv : u = v
      · subst huv
        simp only [if_true, mem_cons, ih (a.length + b.length) (by omega) ha'.2 hb'.2 rfl]
        constructor
        · rintro (h | h)
          · exact ⟨Or.inl h, Or.inl h⟩
          · exact ⟨Or.inr h.1, Or.inr h.2⟩
        · rintro ⟨h1 | h1, h2 | h2⟩
          · exact Or.inl h1
          · exact Or.inl h1
          · exact Or.inl h2
          · exact Or.inr ⟨h1, h2⟩
      · have hne : u.toNat ≠ v.toNat := fun h => huv (BitVec.eq_of_toNat_eq h)
        rw [if_neg huv]
        by_cases hlt : v.toNat < u.toNat
        · rw [if_pos hlt, ih ((u :: a).length + b.length) (by simp; omega) ha hb'.2 rfl]
          constructor
          · rintro ⟨h1, h2⟩; exact ⟨h1, by simp [h2]⟩
          · rintro ⟨h1, h2⟩
            refine ⟨h1, ?_⟩
            rcases List.mem_cons.mp h2 with rfl | h2
            · exfalso
              rcases List.mem_cons.mp h1 with rfl | h1
              · omega
              · have := ha'.1 _ h1; omega
            · exact h2
        · rw [if_neg hlt, ih (a.length + (v :: b).length) (by simp; omega) ha'.2 hb rfl]
          constructor
          · rintro ⟨h1, h2⟩; exact ⟨by simp [h1], h2⟩
          · rintro ⟨h1, h2⟩
            refine ⟨?_, h2⟩
            rcases List.mem_cons.mp h1 with rfl | h1
            · exfalso
              rcases List.mem_cons.mp h2 with rfl | h2
              · omega
              · have := hb'.1 _ h2; omega
            · exact h1

theorem orderIntersect_sublist (a b : List U64) : (orderIntersect a b).Sublist a := by
  generalize hn : a.length + b.length = n
  induction n using Nat.strongRecOn generalizing a b with
  | _ n ih =>
  cases a with
  | nil => simp [orderIntersect_nil_left]
  | cons u a =>
    cases b with
    | nil => rw [orderIntersect_nil_right]; simp
    | cons v b =>
      simp only [length_cons] at hn
      rw [orderIntersect_cons]
      split
      · exact (ih (a.length + b.length) (by omega) a b rfl).cons_cons u
      · split
        · exact ih ((u :: a).length + b.length) (by simp; omega) _ _ rfl
        · exact (ih (a.length + (v :: b).length) (by simp; omega) _ _ rfl).cons u

theorem orderIntersect_asc {a : List U64} (ha : Asc a) (b) : Asc (orderIntersect a b) :=
  ha.sublist (orderIntersect_sublist a b)
theorem orderIntersect_sasc {a : List U64} (ha : SAsc a) (b) : SAsc (orderIntersect a b) :=
  ha.sublist (orderIntersect_sublist a b)

/-! ### The gather loop -/

/-- A poll sequence in which both messages eventually arrive. -/
def Delivers (polls : List (Bool × Bool)) : Prop := (∃ p ∈ polls, p.1 = true) ∧ (∃ p ∈ polls, p.2 = true)

theorem gather_result {v1 v2 : List U64} (polls : List (Bool × Bool)) (f1 f2 : Bool) (acc : List (List U64)) :
    (∀ r, gather v1 v2 polls f1 f2 acc = some r →
      (f1 = false → f2 = false → r = acc ++ [v1, v2] ∨ r = acc ++ [v2, v1]) ∧
      (f1 = true → f2 = false → r = acc ++ [v2]) ∧
      (f1 = false → f2 = true → r = acc ++ [v1])) := by
  induction polls generalizing f1 f2 acc with
  | nil => intro r h; cases h
  | cons p rest ih =>
    obtain ⟨p1, p2⟩ := p
    intro r h
    cases f1 <;> cases f2 <;> cases p1 <;> cases p2 <;> simp [gather] at h ⊢
    · exact (ih _ _ _ r h).1 rfl rfl
    · have := (ih _ _ _ r h).2.2 rfl rfl
      exact Or.inr (by simpa using this)
    · have := (ih _ _ _ r h).2.1 rfl rfl
      exact Or.inl (by simpa using this)
    · exact Or.inl h.symm
    · exact (ih _ _ _ r h).2.2 rfl rfl
    · exact (ih _ _ _ r h).2.2 rfl rfl
    · exact h.symm
    · exact h.symm
    · exact (ih _ _ _ r h).2.1 rfl rfl
    · exact h.symm
    · exact (ih _ _ _ r h).2.1 rfl rfl
    · exact h.symm

theorem gather_delivers {v1 v2 : List U64} (polls : List (Bool × Bool)) (f1 f2 : Bool) (acc : List (List U64))
    (h1 : f1 = true ∨ ∃ p ∈ polls, p.1 = true) (h2 : f2 = true ∨ ∃ p ∈ polls, p.2 = true)
    (hne : f1 = false ∨ f2 = false) :
    ∃ r, gather v1 v2 polls f1 f2 acc = some r := by
  induction polls generalizing f1 f2 acc with
  | nil => simp at h1 h2; subst h1 h2; simp at hne
  | cons p rest ih =>
    obtain ⟨p1, p2⟩ := p
    simp only [gather]
    cases f1 <;> cases f2 <;> cases p1 <;> cases p2 <;> simp at h1 h2 hne ⊢ <;>
      exact ih _ _ _ (by simp [h1]) (by simp [h2]) (by simp)

/-! ### The whole recursion -/

/-- Reference result: fold from the left. -/
def refIntersect : List (List U64) → List U64
  | [] => []
  | t :: ts => ts.foldl orderIntersect t

/-- Every gather loop delivers. -/
def Fair (σ : Schedule) : Prop := ∀ path, Delivers (σ path)

theorem intersectFuel_some (σ : Schedule) (hσ : Fair σ) (fuel : Nat) (path : List Nat) (ts : List (List U64))
    (hf : ts.length < fuel) : ∃ r, intersectFuel σ fuel path ts = some r := by
  induction fuel generalizing path ts with
  | zero => omega
  | succ fuel ih =>
    rw [intersectFuel]
    split
    · exact ⟨_, rfl⟩
    · split
      · rename_i h0 h1
        obtain ⟨x, rfl⟩ := List.length_eq_one_iff.mp h1
        exact ⟨x, rfl⟩
      · split
        · exact ⟨_, rfl⟩
        · rename_i h0 h1 h2
          split
          · obtain ⟨r, hr⟩ := ih (path ++ [3]) ts.dropLast (by simp; omega)
            have hne : ts ≠ [] := by intro h; simp [h] at h0
            simp [List.getLast?_eq_some_getLast hne, hr]
          · obtain ⟨r1, hr1⟩ := ih (path ++ [0]) (ts.take (ts.length / 2)) (by simp; omega)
            obtain ⟨r2, hr2⟩ := ih (path ++ [1]) (ts.drop (ts.length / 2)) (by simp; omega)
            obtain ⟨nx, hg⟩ := gather_delivers (v1 := r1) (v2 := r2) (σ path) false false []
              (Or.inr (hσ path).1) (Or.inr (hσ path).2) (Or.inl rfl)
            have hlen : nx.length = 2 := by
              rcases (gather_result (σ path) false false [] nx hg).1 rfl rfl with rfl | rfl <;> rfl
            obtain ⟨r, hr⟩ := ih (path ++ [2]) nx (by omega)
            exact ⟨r, by simp [hr1, hr2, hg, hr]⟩

/-- Two schedules that both deliver a result deliver the same one. -/
theorem intersectFuel_unique (σ τ : Schedule) (fuel fuel' : Nat) (path path' : List Nat) (ts : List (List U64)) {r r'}
    (h : intersectFuel σ fuel path ts = some r) (h' : intersectFuel τ fuel' path' ts = some r') : r = r' := by
  induction fuel generalizing fuel' path path' ts r r' with
  | zero => cases h
  | succ fuel ih =>
    cases fuel' with
    | zero => cases h'
    | succ fuel' =>
      rw [intersectFuel] at h h'
      by_cases c0 : ts.length = 0
      · simp only [c0, if_true, Option.some.injEq] at h h'; rw [← h, ← h']
      rw [if_neg c0] at h h'
      by_cases c1 : ts.length = 1
      · rw [if_pos c1] at h h'; rw [h] at h'; exact Option.some.inj h'
      rw [if_neg c1] at h h'
      by_cases c2 : ts.length = 2
      · rw [if_pos c2] at h h'; rw [h] at h'; exact Option.some.inj h'
      rw [if_neg c2] at h h'
      by_cases c3 : ts.length % 2 ≠ 0
      · rw [if_pos c3] at h h'
        have hne : ts ≠ [] := by intro h; simp [h] at c0
        simp only [List.getLast?_eq_some_getLast hne, Option.bind_eq_bind, Option.bind_some] at h h'
        cases hx : intersectFuel σ fuel (path ++ [3]) ts.dropLast with
        | none => simp [hx] at h
        | some x =>
          cases hy : intersectFuel τ fuel' (path' ++ [3]) ts.dropLast with
          | none => simp [hy] at h'
          | some y =>
            have := ih fuel' _ _ _ hx hy
            subst this
            simp [hx] at h
            simp [hy] at h'
            rw [← h, ← h']
      · rw [if_neg c3] at h h'
        simp only [Option.bind_eq_bind] at h h'
        cases hx1 : intersectFuel σ fuel (path ++ [0]) (ts.take (ts.length / 2)) with
        | none => simp [hx1] at h
        | some x1 =>
        cases hy1 : intersectFuel τ fuel' (path' ++ [0]) (ts.take (ts.length / 2)) with
        | none => simp [hy1] at h'
        | some y1 =>
        cases hx2 : intersectFuel σ fuel (path ++ [1]) (ts.drop (ts.length / 2)) with
        | none => simp [hx1, hx2] at h
        | some x2 =>
        cases hy2 : intersectFuel τ fuel' (path' ++ [1]) (ts.drop (ts.length / 2)) with
        | none => simp [hy1, hy2] at h'
        | some y2 =>
        have e1 := ih fuel' _ _ _ hx1 hy1
        have e2 := ih fuel' _ _ _ hx2 hy2
        subst e1 e2
        simp only [hx1, hx2, Option.bind_some] at h
        simp only [hy1, hy2, Option.bind_some] at h'
        cases hg : gather x1 x2 (σ path) false false [] with
        | none => simp [hg] at h
        | some g =>
        cases hg' : gather x1 x2 (τ path') false false [] with
        | none => simp [hg'] at h'
        | some g' =>
        simp only [hg, Option.bind_some] at h
        simp only [hg', Option.bind_some] at h'
        -- both recursive calls intersect the same two lists, possibly in the other order
        have two : ∀ (ρ : Schedule) (f : Nat) (q : List Nat) (a b : List U64) z,
            intersectFuel ρ f q [a, b] = some z → z = orderIntersect a b := by
          intro ρ f q a b z hz
          cases f with
          | zero => cases hz
          | succ f => simp [intersectFuel] at hz; exact hz.symm
        rcases (gather_result _ _ _ _ g hg).1 rfl rfl with rfl | rfl <;>
          rcases (gather_result _ _ _ _ g' hg').1 rfl rfl with rfl | rfl
        · rw [two _ _ _ _ _ _ h, two _ _ _ _ _ _ h']
        · rw [two _ _ _ _ _ _ h, two _ _ _ _ _ _ h', orderIntersect_comm]
        · rw [two _ _ _ _ _ _ h, two _ _ _ _ _ _ h', orderIntersect_comm]
        · rw [two _ _ _ _ _ _ h, two _ _ _ _ _ _ h']

/-- Membership and order of any result. -/
theorem intersectFuel_mem (σ : Schedule) (fuel : Nat) (path : List Nat) (ts : List (List U64)) {r}
    (h : intersectFuel σ fuel path ts = some r) (hs : ∀ t ∈ ts, Asc t) :
    Asc r ∧ (∀ x, x ∈ r ↔ ts ≠ [] ∧ ∀ t ∈ ts, x ∈ t) ∧ ((∃ t ∈ ts, SAsc t) → SAsc r) := by
  induction fuel generalizing path ts r with
  | zero => cases h
  | succ fuel ih =>
    rw [intersectFuel] at h
    by_cases c0 : ts.length = 0
    · rw [List.length_eq_zero_iff] at c0; subst c0; simp at h; subst h; simp [Asc, SAsc]
    rw [if_neg c0] at h
    have hne : ts ≠ [] := by intro h; simp [h] at c0
    by_cases c1 : ts.length = 1
    · rw [if_pos c1] at h
      obtain ⟨t, rfl⟩ := List.length_eq_one_iff.mp c1
      simp at h; subst h
      exact ⟨hs t (by simp), by simp, by simp⟩
    rw [if_neg c1] at h
    by_cases c2 : ts.length = 2
    · rw [if_pos c2] at h
      obtain ⟨t, u, rfl⟩ : ∃ t u, ts = [t, u] := by
        match ts, c2 with
        | [t, u], _ => exact ⟨t, u, rfl⟩
      simp at h; subst h
      refine ⟨orderIntersect_asc (hs t (by simp)) u, ?_, ?_⟩
      · intro x; rw [orderIntersect_mem (hs t (by simp)) (hs u (by simp))]; simp
      · rintro ⟨w, hw, hsw⟩
        simp at hw
        rcases hw with rfl | rfl
        · exact orderIntersect_sasc hsw u
        · rw [orderIntersect_comm]; exact orderIntersect_sasc hsw t
    rw [if_neg c2] at h
    by_cases c3 : ts.length % 2 ≠ 0
    · rw [if_pos c3] at h
      simp only [List.getLast?_eq_some_getLast hne, Option.bind_eq_bind, Option.bind_some] at h
      cases hx : intersectFuel σ fuel (path ++ [3]) ts.dropLast with
      | none => simp [hx] at h
      | some y =>
        simp [hx] at h
        obtain ⟨i1, i2, i3⟩ := ih _ _ hx (fun t ht => hs t (List.dropLast_subset ts ht))
        have hl := List.dropLast_concat_getLast hne
        have hlast := hs _ (List.getLast_mem hne)
        have hdne : ts.dropLast ≠ [] := by
          intro h0; have := congrArg List.length h0; simp at this; omega
        subst h
        refine ⟨orderIntersect_asc i1 _, ?_, ?_⟩
        · intro x
          rw [orderIntersect_mem i1 hlast, i2]
          constructor
          · rintro ⟨⟨_, h1⟩, h2⟩
            refine ⟨hne, fun t ht => ?_⟩
            rw [← hl] at ht
            rcases List.mem_append.mp ht with ht | ht
            · exact h1 t ht
            · simp at ht; subst ht; exact h2
          · rintro ⟨_, h1⟩
            exact ⟨⟨hdne, fun t ht => h1 t (List.dropLast_subset ts ht)⟩, h1 _ (List.getLast_mem hne)⟩
        · rintro ⟨w, hw, hsw⟩
          rw [← hl] at hw
          rcases List.mem_append.mp hw with hw | hw
          · exact orderIntersect_sasc (i3 ⟨w, hw, hsw⟩) _
          · simp at hw; subst hw
            rw [orderIntersect_comm]; exact orderIntersect_sasc hsw _
    · rw [if_neg c3] at h
      simp only [Option.bind_eq_bind] at h
      cases hx1 : intersectFuel σ fuel (path ++ [0]) (ts.take (ts.length / 2)) with
      | none => simp [hx1] at h
      | some x1 =>
      cases hx2 : intersectFuel σ fuel (path ++ [1]) (ts.drop (ts.length / 2)) with
      | none => simp [hx1, hx2] at h
      | some x2 =>
      simp only [hx1, hx2, Option.bind_some] at h
      cases hg : gather x1 x2 (σ path) false false [] with
      | none => simp [hg] at h
      | some g =>
      simp only [hg, Option.bind_some] at h
      obtain ⟨i1, i2, i3⟩ := ih _ _ hx1 (fun t ht => hs t (List.mem_of_mem_take ht))
      obtain ⟨j1, j2, j3⟩ := ih _ _ hx2 (fun t ht => hs t (List.mem_of_mem_drop ht))
      have hg2 := (gather_result _ _ _ _ g hg).1 rfl rfl
      have hasc : ∀ t ∈ g, Asc t := by
        intro t ht
        rcases hg2 with rfl | rfl <;> simp at ht <;> rcases ht with rfl | rfl <;> assumption
      obtain ⟨k1, k2, k3⟩ := ih _ _ h hasc
      have hmem : ∀ t, t ∈ ts ↔ t ∈ ts.take (ts.length / 2) ∨ t ∈ ts.drop (ts.length / 2) := by
        intro t
        rw [← List.mem_append, List.take_append_drop]
      have hgm : ∀ t, t ∈ g ↔ t = x1 ∨ t = x2 := by
        intro t
        rcases hg2 with rfl | rfl <;> simp [or_comm]
      have hgne : g ≠ [] := by rcases hg2 with rfl | rfl <;> simp
      have tne : ts.take (ts.length / 2) ≠ [] := by
        intro h0; have := congrArg List.length h0
        rw [List.length_take] at this; simp only [List.length_nil] at this; omega
      have dne : ts.drop (ts.length / 2) ≠ [] := by
        intro h0; have := congrArg List.length h0
        rw [List.length_drop] at this; simp only [List.length_nil] at this; omega
      refine ⟨k1, ?_, ?_⟩
      · intro x
        rw [k2]
        constructor
        · rintro ⟨_, h1⟩
          refine ⟨hne, fun t ht => ?_⟩
          rcases (hmem t).mp ht with ht | ht
          · exact ((i2 x).mp (h1 x1 ((hgm x1).mpr (Or.inl rfl)))).2 t ht
          · exact ((j2 x).mp (h1 x2 ((hgm x2).mpr (Or.inr rfl)))).2 t ht
        · rintro ⟨_, h1⟩
          refine ⟨hgne, fun t ht => ?_⟩
          rcases (hgm t).mp ht with rfl | rfl
          · exact (i2 x).mpr ⟨tne, fun t ht => h1 t ((hmem t).mpr (Or.inl ht))⟩
          · exact (j2 x).mpr ⟨dne, fun t ht => h1 t ((hmem t).mpr (Or.inr ht))⟩
      · rintro ⟨w, hw, hsw⟩
        apply k3
        rcases (hmem w).mp hw with hw | hw
        · exact ⟨x1, (hgm x1).mpr (Or.inl rfl), i3 ⟨w, hw, hsw⟩⟩
        · exact ⟨x2, (hgm x2).mpr (Or.inr rfl), j3 ⟨w, hw, hsw⟩⟩

end Verif
