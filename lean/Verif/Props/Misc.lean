import Verif.Model.Misc
import Verif.Lemmas.Num
import Mathlib.Tactic.Linarith
/-! Properties C55 - C58. -/
namespace Verif
open List

/-! ### Specification of decimal numerals -/

/-- Value of a list of decimal digits, most significant first. -/
def decimalValue (ds : List Nat) : Nat := ds.foldl (fun acc d => acc * 10 + d) 0

/-- `ds` spells the digits `0`-`9` whose values are `vs`. -/
def Spells (ds : Str) (vs : List Nat) : Prop := ds.map (fun b => b.toNat) = vs.map (fun v => 48 + v) ∧ ∀ v ∈ vs, v < 10

theorem digitVal_ten (b : Byte) (d : Nat) : digitVal 10 b = some d ↔ b.toNat = 48 + d ∧ d < 10 := by
  unfold digitVal
  have := b.isLt
  constructor
  · intro h
    by_cases c1 : 48 ≤ b.toNat ∧ b.toNat ≤ 57
    · simp [c1] at h; omega
    · simp only [c1, if_false] at h
      by_cases c2 : 97 ≤ b.toNat ∧ b.toNat ≤ 122
      · simp [c2] at h; omega
      · simp only [c2, if_false] at h
        by_cases c3 : 65 ≤ b.toNat ∧ b.toNat ≤ 90
        · simp [c3] at h; omega
        · simp [c3] at h
  · rintro ⟨h1, h2⟩
    simp only []
    rw [if_pos (by omega)]
    simp; omega

theorem foldl_ge (vs : List Nat) (acc : Nat) : acc ≤ vs.foldl (fun acc d => acc * 10 + d) acc := by
  induction vs generalizing acc with
  | nil => simp
  | cons v vs ih => simp only [foldl_cons]; have := ih (acc * 10 + v); omega

theorem parseDigits_iff (max : Nat) (s : Str) (acc v : Nat) (hacc : acc ≤ max) :
    parseDigits 10 max acc s = some v ↔ ∃ vs, Spells s vs ∧ v = vs.foldl (fun acc d => acc * 10 + d) acc ∧ v ≤ max := by
  induction s generalizing acc v with
  | nil =>
    simp only [parseDigits, Option.some.injEq]
    constructor
    · rintro rfl; exact ⟨[], ⟨rfl, by simp⟩, rfl, hacc⟩
    · rintro ⟨vs, ⟨h, -⟩, h2, -⟩
      cases vs with
      | nil => exact h2.symm
      | cons _ _ => simp at h
  | cons b s ih =>
    simp only [parseDigits]
    constructor
    · intro h
      cases hd : digitVal 10 b with
      | none => simp [hd] at h
      | some d =>
        simp only [hd, Option.bind_some] at h
        by_cases hm : acc * 10 + d > max
        · simp [hm] at h
        · rw [if_neg hm] at h
          obtain ⟨vs, ⟨h1, h2⟩, h3, h4⟩ := (ih _ _ (by omega)).mp h
          obtain ⟨hb, hd'⟩ := (digitVal_ten b d).mp hd
          refine ⟨d :: vs, ⟨by simp [h1, hb], ?_⟩, h3, h4⟩
          intro v hv
          rcases List.mem_cons.mp hv with rfl | hv
          · exact hd'
          · exact h2 v hv
    · rintro ⟨vs, ⟨h1, h2⟩, h3, h4⟩
      cases vs with
      | nil => simp at h1
      | cons d vs =>
        simp only [map_cons, cons.injEq] at h1
        have hd := (digitVal_ten b d).mpr ⟨h1.1, h2 d (by simp)⟩
        simp only [hd, Option.bind_some]
        have := foldl_ge vs (acc * 10 + d)
        simp only [foldl_cons] at h3
        rw [if_neg (by omega)]
        exact (ih _ _ (by omega)).mpr ⟨vs, ⟨h1.2, fun v hv => h2 v (by simp [hv])⟩, h3, h4⟩

/-- A `u64` numeral: an optional `+` and at least one digit. -/
def IsUnsignedNumeral (s : Str) (max v : Nat) : Prop :=
  ∃ ds vs, (s = ds ∨ s = 43#8 :: ds) ∧ ds ≠ [] ∧ Spells ds vs ∧ v = decimalValue vs ∧ v ≤ max

theorem parseUnsigned_iff (max : Nat) (s : Str) (v : Nat) :
    parseUnsigned 10 max s = some v ↔ IsUnsignedNumeral s max v := by
  unfold parseUnsigned
  constructor
  · intro h
    by_cases h0 : stripPlus s = []
    · rw [if_pos h0] at h; cases h
    · rw [if_neg h0] at h
      obtain ⟨vs, h1, h2, h3⟩ := (parseDigits_iff _ _ _ _ (by omega)).mp h
      refine ⟨stripPlus s, vs, ?_, h0, h1, h2, h3⟩
      cases s with
      | nil => simp [stripPlus] at h0
      | cons b s =>
        simp only [stripPlus]
        split
        · subst b; right; rfl
        · left; rfl
  · rintro ⟨ds, vs, h1, h2, h3, h4, h5⟩
    have hstrip : stripPlus s = ds := by
      rcases h1 with rfl | rfl
      · cases s with
        | nil => rfl
        | cons b s =>
          simp only [stripPlus]
          rw [if_neg]
          rintro rfl
          cases vs with
          | nil => simp [Spells] at h3
          | cons v vs => simp [Spells] at h3; omega
      · simp [stripPlus]
    rw [hstrip, if_neg h2]
    exact (parseDigits_iff _ _ _ _ (by omega)).mpr ⟨vs, h3, h4, h5⟩

/-- C55. The options are accepted exactly when the worker option is a decimal numeral below 2^64 and the port option is a
decimal numeral (optional `+`, leading zeros allowed) between 1024 and 65535; the values are those numerals. -/
theorem C55_accepts_iff (w p : Str) (port : Int) (workers : Nat) :
    serverConfig w p = .ok port workers ↔
      IsUnsignedNumeral w (2 ^ 64 - 1) workers ∧
        ∃ n : Nat, IsUnsignedNumeral p 65535 n ∧ 1024 ≤ n ∧ port = n := by
  unfold serverConfig
  have hp : ∀ n : Nat, IsUnsignedNumeral p 65535 n → parseI32 p = some (n : Int) := by
    rintro n ⟨ds, vs, h1, h2, h3, h4, h5⟩
    have hne : ∀ b rest, p = b :: rest → b ≠ 45#8 := by
      rintro b rest hb rfl
      rcases h1 with rfl | h1
      · subst hb
        cases vs with
        | nil => simp [Spells] at h3
        | cons v vs => simp [Spells] at h3; omega
      · rw [hb] at h1; simp at h1
    have := (parseUnsigned_iff (2 ^ 31 - 1) p n).mpr ⟨ds, vs, h1, h2, h3, h4, by omega⟩
    cases p with
    | nil => simp [parseUnsigned, stripPlus] at this
    | cons b rest =>
      simp only [parseI32]
      rw [if_neg (hne b rest rfl), this]; rfl
  constructor
  · intro h
    cases hw : parseUnsigned 10 (2 ^ 64 - 1) w with
    | none => simp only [hw, reduceCtorEq] at h
    | some wv =>
      cases hq : parseI32 p with
      | none => simp only [hw, hq, reduceCtorEq] at h
      | some v =>
        simp only [hw, hq] at h
        by_cases hr : v > 65535 ∨ v < 1024
        · simp [hr] at h
        · rw [if_neg hr] at h
          simp only [OptRes.ok.injEq] at h
          obtain ⟨rfl, rfl⟩ := h
          refine ⟨(parseUnsigned_iff _ _ _).mp hw, ?_⟩
          cases p with
          | nil => simp [parseI32] at hq
          | cons b rest =>
            simp only [parseI32] at hq
            by_cases hb : b = 45#8
            · rw [if_pos hb] at hq
              exfalso
              split at hq
              · cases hq
              · simp only [Option.map_eq_some_iff] at hq
                obtain ⟨m, -, rfl⟩ := hq
                omega
            · rw [if_neg hb] at hq
              simp only [Option.map_eq_some_iff] at hq
              obtain ⟨m, hm, rfl⟩ := hq
              obtain ⟨ds, vs, h1, h2, h3, h4, h5⟩ := (parseUnsigned_iff _ _ _).mp hm
              exact ⟨m, ⟨ds, vs, h1, h2, h3, h4, by omega⟩, by omega, rfl⟩
  · rintro ⟨hw, n, hn, hlo, rfl⟩
    have h1 := (parseUnsigned_iff _ _ _).mpr hw
    have hbound : n ≤ 65535 := by obtain ⟨_, _, _, _, _, _, h⟩ := hn; exact h
    rw [h1, hp n hn]
    simp only []
    rw [if_neg (by omega)]

/-- C55. Every port from 1024 to 65535, written in decimal, is accepted (for every parsable worker option). -/
theorem C55_every_port (n w : Nat) (h1 : 1024 ≤ n) (h2 : n ≤ 65535) (hw : w < 2 ^ 64) :
    serverConfig (formatNat 10 w) (formatNat 10 n) = .ok n w := by
  rw [C55_accepts_iff]
  have e1 := parse_format (radix := 10) (max := 2 ^ 64 - 1) (n := w) (by omega) (by omega) (by omega)
  have e2 := parse_format (radix := 10) (max := 65535) (n := n) (by omega) (by omega) (by omega)
  exact ⟨(parseUnsigned_iff _ _ _).mp e1, n, (parseUnsigned_iff _ _ _).mp e2, h1, rfl⟩

example : serverConfig (ascii "8".toList) (ascii "9001".toList) = .ok 9001 8 := by decide +kernel
example : serverConfig (ascii "8".toList) (ascii "1023".toList) = .optionErr := by decide +kernel
example : serverConfig (ascii "8".toList) (ascii "65536".toList) = .optionErr := by decide +kernel
example : serverConfig (ascii "8".toList) (ascii "-9001".toList) = .optionErr := by decide +kernel
example : serverConfig (ascii "8".toList) (ascii "2147483648".toList) = .parseErr := by decide +kernel
example : serverConfig (ascii "8".toList) (ascii "+01024".toList) = .ok 1024 8 := by decide +kernel

/-! ### C56 -/

/-- C56, exact. Two time points are equal exactly when the timestamps are equal, neither value is NaN and the values are
not the same infinity: the values are otherwise ignored. For every monotone rounding and every positive margin. -/
theorem C56_exact (R : Rounding) (margin : Rat) (hm : 0 < margin) (t1 : U64) (v1 : Flt) (t2 : U64) (v2 : Flt) :
    timePointEq R margin t1 v1 t2 v2 = true ↔
      t1 = t2 ∧ v1 ≠ .nan ∧ v2 ≠ .nan ∧ ¬ ∃ s, v1 = .inf s ∧ v2 = .inf s := by
  unfold timePointEq
  simp only [Bool.and_eq_true, decide_eq_true_eq, Bool.or_eq_true]
  apply and_congr_right
  intro _
  have key : ∀ q : Rat, q ≤ 0 → (R.rnd q).lt margin = true := by
    intro q hq
    rcases R.nonpos q hq with h | ⟨r, h, hr⟩
    · rw [h]; rfl
    · rw [h]; simp only [Flt.lt, decide_eq_true_eq]; linarith
  cases v1 with
  | nan => cases v2 <;> simp [Flt.sub, Flt.lt]
  | inf s =>
    cases v2 with
    | nan => simp [Flt.sub, Flt.lt]
    | inf t => cases s <;> cases t <;> simp [Flt.sub, Flt.lt]
    | fin q => cases s <;> simp [Flt.sub, Flt.lt]
  | fin p =>
    cases v2 with
    | nan => simp [Flt.sub, Flt.lt]
    | inf t => cases t <;> simp [Flt.sub, Flt.lt]
    | fin q =>
      simp only [Flt.sub, ne_eq, reduceCtorEq, not_false_eq_true, false_and, exists_false, and_self, iff_true]
      rcases le_total (p - q) 0 with h | h
      · exact Or.inl (key _ h)
      · exact Or.inr (key _ (by linarith))

/-- C56 is violated: for every rounding and margin, any two finite values compare equal at the same timestamp. -/
theorem C56_violated (R : Rounding) (margin : Rat) (hm : 0 < margin) (t : U64) (a b : Rat) :
    timePointEq R margin t (.fin a) t (.fin b) = true :=
  (C56_exact R margin hm _ _ _ _).mpr ⟨rfl, by simp, by simp, by simp⟩

/-- C56, the part that holds: different timestamps are never equal, and the relation is symmetric. -/
theorem C56_partial (R : Rounding) (margin : Rat) (hm : 0 < margin) (t1 : U64) (v1 : Flt) (t2 : U64) (v2 : Flt) :
    (timePointEq R margin t1 v1 t2 v2 = true → t1 = t2) ∧
      timePointEq R margin t1 v1 t2 v2 = timePointEq R margin t2 v2 t1 v1 := by
  refine ⟨fun h => ((C56_exact R margin hm _ _ _ _).mp h).1, ?_⟩
  rw [Bool.eq_iff_iff, C56_exact R margin hm, C56_exact R margin hm]
  constructor <;> rintro ⟨h1, h2, h3, h4⟩ <;>
    exact ⟨h1.symm, h3, h2, fun ⟨s, ha, hb⟩ => h4 ⟨s, hb, ha⟩⟩

/-- C56. Equality of time points is not reflexive although the type is declared `Eq`. -/
theorem C56_not_reflexive_violated (R : Rounding) (margin : Rat) (hm : 0 < margin) (t : U64) :
    timePointEq R margin t (.inf false) t (.inf false) = false ∧ timePointEq R margin t .nan t .nan = false := by
  constructor <;> rw [Bool.eq_false_iff] <;> intro h <;> have := (C56_exact R margin hm _ _ _ _).mp h <;> simp at this

/-- The exact subtraction is a rounding. -/
def exactRounding : Rounding := ⟨.fin, by simp, fun q h => Or.inr ⟨q, rfl, h⟩⟩
example : timePointEq exactRounding (1 / 1000000000) 5#64 (.fin 1) 5#64 (.fin 100) = true :=
  C56_violated _ _ (by decide +kernel) _ _ _

/-! ### C57 -/

/-- C57. For windows with start ≤ end the overlap test is true exactly when some timestamp lies in both (inclusive). -/
theorem C57_overlap_exact (s1 e1 s2 e2 : U64) (h1 : s1.toNat ≤ e1.toNat) (h2 : s2.toNat ≤ e2.toNat) :
    isDurationOverlap s1 e1 s2 e2 = true ↔
      ∃ t : U64, (s1.toNat ≤ t.toNat ∧ t.toNat ≤ e1.toNat) ∧ (s2.toNat ≤ t.toNat ∧ t.toNat ≤ e2.toNat) := by
  simp only [isDurationOverlap, Bool.not_eq_true', Bool.or_eq_false_iff, decide_eq_false_iff_not]
  constructor
  · rintro ⟨h3, h4⟩
    by_cases h : s1.toNat ≤ s2.toNat
    · exact ⟨s2, by omega, by omega⟩
    · exact ⟨s1, by omega, by omega⟩
  · rintro ⟨t, ht⟩; omega

/-- C57. The test is symmetric in the two windows, for all bounds. -/
theorem C57_symmetric (s1 e1 s2 e2 : U64) : isDurationOverlap s1 e1 s2 e2 = isDurationOverlap s2 e2 s1 e1 := by
  rw [Bool.eq_iff_iff]
  simp only [isDurationOverlap, Bool.not_eq_true', Bool.or_eq_false_iff, decide_eq_false_iff_not]
  omega

example : isDurationOverlap 1#64 5#64 5#64 9#64 = true := by decide +kernel
example : isDurationOverlap 1#64 5#64 6#64 9#64 = false := by decide +kernel

/-! ### C58 -/

theorem idRun_eq (c : U64) (sched : List Nat) (i : Nat) (hi : i < sched.length) :
    (idRun c sched)[i]? = some (sched[i], c + BitVec.ofNat 64 i) := by
  induction sched generalizing c i with
  | nil => simp at hi
  | cons th rest ih =>
    cases i with
    | zero => simp [idRun, idNext]
    | succ i =>
      simp only [idRun, idNext, getElem?_cons_succ, getElem_cons_succ]
      rw [ih _ i (by simpa using hi)]
      congr 2
      rw [BitVec.add_assoc]; congr 1
      apply BitVec.eq_of_toNat_eq; simp; omega

theorem idRun_length (c : U64) (sched : List Nat) : (idRun c sched).length = sched.length := by
  induction sched generalizing c with
  | nil => rfl
  | cons th rest ih => simp [idRun, ih]

/-- C58. Whatever the interleaving of the threads, the i-th call to complete gets id `init + i` (mod 2^64). -/
theorem C58_ids (init : U64) (sched : List Nat) : (idRun init sched).length = sched.length ∧
    ∀ i (hi : i < sched.length), (idRun init sched)[i]? = some (sched[i], init + BitVec.ofNat 64 i) :=
  ⟨idRun_length _ _, fun i hi => idRun_eq _ _ i hi⟩

/-- C58. In any run of at most 2^64 calls, all ids handed out are distinct. -/
theorem C58_distinct (init : U64) (sched : List Nat) (h : sched.length ≤ 2 ^ 64) :
    ((idRun init sched).map (·.2)).Nodup := by
  rw [List.Nodup, List.pairwise_iff_getElem]
  intro i j hi hj hij heq
  simp only [length_map, idRun_length] at hi hj
  have e1 := idRun_eq init sched i hi
  have e2 := idRun_eq init sched j hj
  rw [List.getElem?_eq_some_iff] at e1 e2
  obtain ⟨_, e1⟩ := e1
  obtain ⟨_, e2⟩ := e2
  simp only [getElem_map, e1, e2] at heq
  have := congrArg BitVec.toNat heq
  simp only [BitVec.toNat_add, BitVec.toNat_ofNat] at this
  omega

/-- C58. As long as fewer than `2^64 - init` calls are made, ids increase in the order of the calls, in particular within
each thread. -/
theorem C58_increasing (init : U64) (sched : List Nat) (h : init.toNat + sched.length ≤ 2 ^ 64) :
    ((idRun init sched).map (·.2)).Pairwise (fun a b => a.toNat < b.toNat) := by
  rw [List.pairwise_iff_getElem]
  intro i j hi hj hij
  simp only [length_map, idRun_length] at hi hj
  have e1 := idRun_eq init sched i hi
  have e2 := idRun_eq init sched j hj
  rw [List.getElem?_eq_some_iff] at e1 e2
  obtain ⟨_, e1⟩ := e1
  obtain ⟨_, e2⟩ := e2
  simp only [getElem_map, e1, e2, BitVec.toNat_add, BitVec.toNat_ofNat]
  have := init.isLt
  omega

/-- C58. Within one thread the ids increase as well. -/
theorem C58_increasing_per_thread (init : U64) (sched : List Nat) (h : init.toNat + sched.length ≤ 2 ^ 64) (th : Nat) :
    (((idRun init sched).filter (fun p => p.1 = th)).map (·.2)).Pairwise (fun a b => a.toNat < b.toNat) :=
  (C58_increasing init sched h).sublist (List.Sublist.map _ List.filter_sublist)

example : idRun 2#64 [7, 8, 7] = [(7, 2#64), (8, 3#64), (7, 4#64)] := by decide +kernel

end Verif
