import Verif.Model.Storage
import Verif.Spec.Storage
import Verif.Lemmas.Indexer
import Mathlib.Data.List.Induction
namespace Verif
open List

/-! ### The standard library search meets the contract -/

theorem getD_get {l : List U64} {i : Nat} (h : i < l.length) : l[i]?.getD 0#64 = l[i] := by simp [h]

theorem sorted_get {l : List U64} (hs : l.Pairwise (fun a b => a.toNat ≤ b.toNat)) {i j : Nat} (hij : i ≤ j)
    (hj : j < l.length) : (l[i]?.getD 0#64).toNat ≤ (l[j]?.getD 0#64).toNat := by
  rw [getD_get (by omega), getD_get hj]
  rcases Nat.lt_or_eq_of_le hij with h | h
  · exact List.pairwise_iff_getElem.mp hs i j _ hj h
  · subst h; exact Nat.le_refl _

theorem stdSearchLoop_spec {l : List U64} (hs : l.Pairwise (fun a b => a.toNat ≤ b.toNat)) (x : U64) (fuel base size : Nat)
    (hf : size ≤ fuel) (h1 : 1 ≤ size) (h2 : base + size ≤ l.length)
    (hlo : ∀ i, i < base → (l[i]?.getD 0#64).toNat ≤ x.toNat)
    (hb : base = 0 ∨ (l[base]?.getD 0#64).toNat ≤ x.toNat)
    (hhi : ∀ i, base + size ≤ i → i < l.length → x.toNat < (l[i]?.getD 0#64).toNat) :
    stdSearchLoop l x fuel base size < l.length ∧
    (stdSearchLoop l x fuel base size = 0 ∨ (l[stdSearchLoop l x fuel base size]?.getD 0#64).toNat ≤ x.toNat) ∧
    (∀ i, stdSearchLoop l x fuel base size < i → i < l.length → x.toNat < (l[i]?.getD 0#64).toNat) := by
  induction fuel generalizing base size with
  | zero => omega
  | succ fuel ih =>
    rw [stdSearchLoop]
    by_cases hgt : size > 1
    · rw [if_pos hgt]
      simp only []
      by_cases hc : (l[base + size / 2]?.getD 0#64).toNat > x.toNat
      · rw [if_pos hc]
        apply ih base (size - size / 2) (by omega) (by omega) (by omega) hlo hb
        intro i hi hil
        have := sorted_get hs (i := base + size / 2) (j := i) (by omega) hil
        omega
      · rw [if_neg hc]
        apply ih (base + size / 2) (size - size / 2) (by omega) (by omega) (by omega)
        · intro i hi
          have := sorted_get hs (i := i) (j := base + size / 2) (by omega) (by omega)
          omega
        · right; omega
        · intro i hi hil
          exact hhi i (by omega) hil
    · rw [if_neg hgt]
      exact ⟨by omega, hb, fun i hi hil => hhi i (by omega) hil⟩

/-- The algorithm of std as an instance of the contract. -/
def stdBinSearch : BinSearch where
  run := stdSearch
  found := by
    intro l x i hs h
    unfold stdSearch at h
    by_cases h0 : l.length = 0
    · rw [if_pos h0] at h; simp at h
    · rw [if_neg h0] at h
      have := stdSearchLoop_spec hs x l.length 0 l.length (by omega) (by omega) (by omega) (by omega) (Or.inl rfl)
        (by intro i h1 h2; omega)
      simp only [] at h
      split at h
      · rename_i hy
        simp only [Prod.mk.injEq, true_and] at h
        subst h
        rw [getD_get this.1] at hy
        rw [List.getElem?_eq_getElem this.1, hy]
      · simp at h
  missing := by
    intro l x i hs h
    unfold stdSearch at h
    by_cases h0 : l.length = 0
    · rw [if_pos h0] at h
      simp only [Prod.mk.injEq, true_and] at h
      subst h
      have : l = [] := List.length_eq_zero_iff.mp h0
      subst this; simp
    · rw [if_neg h0] at h
      have hsp := stdSearchLoop_spec hs x l.length 0 l.length (by omega) (by omega) (by omega) (by omega) (Or.inl rfl)
        (by intro i h1 h2; omega)
      simp only [] at h
      generalize stdSearchLoop l x l.length 0 l.length = b at hsp h
      obtain ⟨p1, p2, p3⟩ := hsp
      split at h
      · simp at h
      · rename_i hne
        simp only [Prod.mk.injEq, true_and] at h
        have hne' : (l[b]?.getD 0#64).toNat ≠ x.toNat := fun e => hne (BitVec.eq_of_toNat_eq e)
        have key : ∀ y ∈ l.drop i, x.toNat < y.toNat := by
          intro y hy
          obtain ⟨n, hn, rfl⟩ := List.mem_iff_getElem.mp hy
          rw [List.length_drop] at hn
          rw [List.getElem_drop]
          have := p3 (i + n)
          rw [getD_get (by omega)] at this
          by_cases hlt : (l[b]?.getD 0#64).toNat < x.toNat
          · rw [if_pos hlt] at h
            exact this (by omega) (by omega)
          · rw [if_neg hlt] at h
            rcases Nat.eq_zero_or_pos n with hz | hz
            · subst hz
              have e : i = b := by omega
              subst e
              rw [getD_get p1] at hne' hlt
              simp only [Nat.add_zero]; omega
            · exact this (by omega) (by omega)
        refine ⟨?_, ?_, key⟩
        · split at h <;> omega
        · intro y hy
          obtain ⟨n, hn, rfl⟩ := List.mem_iff_getElem.mp hy
          rw [List.length_take] at hn
          rw [List.getElem_take]
          by_cases hlt : (l[b]?.getD 0#64).toNat < x.toNat
          · rw [if_pos hlt] at h
            have := sorted_get hs (i := n) (j := b) (by omega) p1
            rw [getD_get (by omega)] at this
            omega
          · rw [if_neg hlt] at h
            have : b = 0 := by omega
            omega

/-! ### Counting in strictly increasing series -/

/-- Number of points before `x`. -/
def cntLt (s : List TimePoint) (x : U64) : Nat := s.countP fun p => decide (p.ts.toNat < x.toNat)
/-- Number of points not after `x`. -/
def cntLe (s : List TimePoint) (x : U64) : Nat := s.countP fun p => decide (p.ts.toNat ≤ x.toNat)

theorem cntLt_le (s : List TimePoint) (x : U64) : cntLt s x ≤ s.length := List.countP_le_length
theorem cntLe_le (s : List TimePoint) (x : U64) : cntLe s x ≤ s.length := List.countP_le_length

theorem countP_split {s : List TimePoint} {p : TimePoint → Bool} {i : Nat} (hi : i ≤ s.length)
    (h1 : ∀ y ∈ s.take i, p y = true) (h2 : ∀ y ∈ s.drop i, p y = false) : s.countP p = i := by
  rw [← List.take_append_drop i s, List.countP_append, List.countP_eq_length.mpr h1,
    List.countP_eq_zero.mpr (by simpa using h2), List.length_take, Nat.min_eq_left hi, Nat.add_zero]

theorem SIncr.keys {s : List TimePoint} (h : SIncr s) : (s.map (·.ts)).Pairwise (fun a b => a.toNat ≤ b.toNat) := by
  rw [List.pairwise_map]; exact h.imp (by intro a b; omega)

theorem SIncr.get {s : List TimePoint} (h : SIncr s) {i j : Nat} (hij : i < j) (hj : j < s.length) :
    (s[i]'(by omega)).ts.toNat < s[j].ts.toNat := List.pairwise_iff_getElem.mp h i j _ hj hij

theorem search_found {B : BinSearch} {s : List TimePoint} (h : SIncr s) {x : U64} {i : Nat}
    (hr : B.run (s.map (·.ts)) x = (true, i)) : i = cntLt s x ∧ i + 1 = cntLe s x ∧ i < s.length := by
  have := B.found _ x i h.keys hr
  rw [List.getElem?_map, Option.map_eq_some_iff] at this
  obtain ⟨p, hp, rfl⟩ := this
  obtain ⟨hi, rfl⟩ := List.getElem?_eq_some_iff.mp hp
  refine ⟨(countP_split (by omega) ?_ ?_).symm, (countP_split (by omega) ?_ ?_).symm, hi⟩
  · intro y hy
    obtain ⟨n, hn, rfl⟩ := List.mem_iff_getElem.mp hy
    rw [List.length_take] at hn
    rw [List.getElem_take]
    simpa using h.get (i := n) (j := i) (by omega) hi
  · intro y hy
    obtain ⟨n, hn, rfl⟩ := List.mem_iff_getElem.mp hy
    rw [List.length_drop] at hn
    rw [List.getElem_drop]
    rcases Nat.eq_zero_or_pos n with rfl | hz
    · simp
    · have := h.get (i := i) (j := i + n) (by omega) (by omega)
      simp only [decide_eq_false_iff_not]; omega
  · intro y hy
    obtain ⟨n, hn, rfl⟩ := List.mem_iff_getElem.mp hy
    rw [List.length_take] at hn
    rw [List.getElem_take]
    rcases Nat.lt_or_ge n i with h' | h'
    · have := h.get (i := n) (j := i) h' hi
      simp only [decide_eq_true_eq]; omega
    · have : n = i := by omega
      subst this; simp
  · intro y hy
    obtain ⟨n, hn, rfl⟩ := List.mem_iff_getElem.mp hy
    rw [List.length_drop] at hn
    rw [List.getElem_drop]
    have := h.get (i := i) (j := i + 1 + n) (by omega) (by omega)
    simp only [decide_eq_false_iff_not]; omega

theorem search_missing {B : BinSearch} {s : List TimePoint} (h : SIncr s) {x : U64} {i : Nat}
    (hr : B.run (s.map (·.ts)) x = (false, i)) : i = cntLt s x ∧ i = cntLe s x := by
  obtain ⟨h1, h2, h3⟩ := B.missing _ x i h.keys hr
  rw [List.length_map] at h1
  have e2 : ∀ y ∈ s.take i, y.ts.toNat < x.toNat := by
    intro y hy; apply h2; rw [← List.map_take]; exact List.mem_map.mpr ⟨y, hy, rfl⟩
  have e3 : ∀ y ∈ s.drop i, x.toNat < y.ts.toNat := by
    intro y hy; apply h3; rw [← List.map_drop]; exact List.mem_map.mpr ⟨y, hy, rfl⟩
  constructor
  · refine (countP_split h1 ?_ ?_).symm
    · intro y hy; simpa using e2 y hy
    · intro y hy; have := e3 y hy; simp only [decide_eq_false_iff_not]; omega
  · refine (countP_split h1 ?_ ?_).symm
    · intro y hy; have := e2 y hy; simp only [decide_eq_true_eq]; omega
    · intro y hy; have := e3 y hy; simp only [decide_eq_false_iff_not]; omega

theorem trim_eq {B : BinSearch} {s : List TimePoint} (h : SIncr s) (a b : U64) (hne : cntLe s b ≠ 0) :
    trimSeries B s a b = sliceIncl s (cntLt s a) (some (cntLe s b)) := by
  unfold trimSeries
  simp only []
  have hl : (B.run (s.map (·.ts)) a).2 = cntLt s a := by
    rcases hr : B.run (s.map (·.ts)) a with ⟨f, i⟩
    rw [hr]
    cases f
    · exact (search_missing h hr).1
    · exact (search_found h hr).1
  rw [hl]
  congr 1
  rcases hr : B.run (s.map (·.ts)) b with ⟨f, i⟩
  rw [hr]
  cases f
  · have := (search_missing h hr).2
    cases i with
    | zero => omega
    | succ i => show some (i + 1) = _; rw [this]
  · show some (i + 1) = _; rw [(search_found h hr).2.1]

theorem take_cntLe {s : List TimePoint} (h : SIncr s) (b : U64) :
    s.take (cntLe s b) = s.filter fun p => decide (p.ts.toNat ≤ b.toNat) := by
  induction s with
  | nil => rfl
  | cons p s ih =>
    rw [SIncr, List.pairwise_cons] at h
    unfold cntLe
    rw [List.countP_cons, List.filter_cons]
    by_cases hp : p.ts.toNat ≤ b.toNat
    · simp only [hp, decide_true, if_true, List.take_succ_cons]
      congr 1
      exact ih h.2
    · have h0 : s.filter (fun p => decide (p.ts.toNat ≤ b.toNat)) = [] := by
        rw [List.filter_eq_nil_iff]; intro q hq; have := h.1 q hq; simp; omega
      have hc : s.countP (fun p => decide (p.ts.toNat ≤ b.toNat)) = 0 := by
        rw [List.countP_eq_length_filter, h0]; rfl
      simp [hp, h0, hc]

theorem drop_cntLt {s : List TimePoint} (h : SIncr s) (a : U64) :
    s.drop (cntLt s a) = s.filter fun p => decide (a.toNat ≤ p.ts.toNat) := by
  induction s with
  | nil => rfl
  | cons p s ih =>
    rw [SIncr, List.pairwise_cons] at h
    unfold cntLt
    rw [List.countP_cons, List.filter_cons]
    by_cases hp : p.ts.toNat < a.toNat
    · have : ¬ a.toNat ≤ p.ts.toNat := by omega
      simp only [hp, this, decide_true, decide_false, if_true, Bool.false_eq_true, if_false, List.drop_succ_cons]
      exact ih h.2
    · have h0 : s.filter (fun p => decide (a.toNat ≤ p.ts.toNat)) = s := by
        rw [List.filter_eq_self]; intro q hq; have := h.1 q hq; simp; omega
      have hc : s.countP (fun p => decide (p.ts.toNat < a.toNat)) = 0 := by
        rw [List.countP_eq_zero]; intro q hq; have := h.1 q hq; simp; omega
      have hle : a.toNat ≤ p.ts.toNat := by omega
      simp [hp, h0, hc, hle]

theorem slice_eq {s : List TimePoint} (h : SIncr s) {a b : U64} (hab : a.toNat ≤ b.toNat) :
    (s.take (cntLe s b)).drop (cntLt s a) = inRange s a b := by
  have h' : SIncr (s.filter fun p => decide (p.ts.toNat ≤ b.toNat)) := h.sublist List.filter_sublist
  have e : cntLt s a = cntLt (s.filter fun p => decide (p.ts.toNat ≤ b.toNat)) a := by
    unfold cntLt
    rw [List.countP_filter]
    apply List.countP_congr
    intro p _
    simp only [decide_eq_true_eq, Bool.and_eq_true]
    omega
  rw [take_cntLe h, e, drop_cntLt h', List.filter_filter]
  rfl

theorem cntLt_le_cntLe {s : List TimePoint} {a b : U64} (hab : a.toNat ≤ b.toNat) : cntLt s a ≤ cntLe s b := by
  unfold cntLt cntLe
  apply List.countP_mono_left
  intro p _; simp only [decide_eq_true_eq]; omega

theorem cntLe_pos {s : List TimePoint} {f : TimePoint} (hf : s.head? = some f) {b : U64} (h : f.ts.toNat ≤ b.toNat) :
    cntLe s b ≠ 0 := by
  cases s with
  | nil => simp at hf
  | cons p s =>
    simp only [List.head?_cons, Option.some.injEq] at hf
    subst hf
    unfold cntLe; rw [List.countP_cons]; simp [h]

/-- Reading a strictly increasing series. -/
theorem readSeries_eq {B : BinSearch} {s : List TimePoint} (h : SIncr s) {f l : TimePoint} (hf : s.head? = some f)
    (hl : s.getLast? = some l) (a b : U64) :
    readSeries B s a b =
      if f.ts.toNat > b.toNat ∨ l.ts.toNat < a.toNat then .err (.outOfRange f.ts l.ts)
      else if cntLt s a ≤ cntLe s b then .ok ((s.take (cntLe s b)).drop (cntLt s a)) else .panic := by
  unfold readSeries
  rw [hf, hl]
  simp only []
  by_cases hr : f.ts.toNat > b.toNat ∨ l.ts.toNat < a.toNat
  · rw [if_pos hr, if_pos hr]
  · rw [if_neg hr, if_neg hr, trim_eq h a b (cntLe_pos hf (by omega)), sliceIncl]
    have := cntLe_le s b
    by_cases hc : cntLt s a ≤ cntLe s b
    · rw [if_pos ⟨this, hc⟩, if_pos hc]
    · rw [if_neg (fun h => hc h.2), if_neg hc]

/-! ### Encoding -/

theorem encodePoint_length (p : TimePoint) : (encodePoint p).length = 16 := by simp [encodePoint]

theorem decode_encodePoint (p : TimePoint) : decodePoint (encodePoint p) = .ok p := by
  unfold decodePoint
  rw [if_neg (by simp [encodePoint_length])]
  unfold encodePoint
  rw [List.take_left' (toBE_length _), List.drop_left' (toBE_length _), fromBE_toBE, fromBE_toBE]
  rfl

theorem chunksOf_points (ps : List TimePoint) (fuel : Nat) (h : ps.length ≤ fuel) :
    chunksOf 16 fuel (ps.flatMap encodePoint) = ps.map encodePoint := by
  induction ps generalizing fuel with
  | nil => cases fuel <;> rfl
  | cons p ps ih =>
    cases fuel with
    | zero => simp at h
    | succ fuel =>
      have h8 := encodePoint_length p
      rw [chunksOf, if_neg]
      · rw [List.flatMap_cons, List.take_left' h8, List.drop_left' h8, ih _ (by simpa using h)]; rfl
      · intro e; have := congrArg List.length e; simp [h8] at this

theorem length_flatMap_points (ps : List TimePoint) : (ps.flatMap encodePoint).length = 16 * ps.length := by
  induction ps with
  | nil => rfl
  | cons i ids ih => simp [ih, encodePoint_length]; omega

theorem decodeSeries_points (ps : List TimePoint) : decodeSeries (ps.flatMap encodePoint) = .ok ps := by
  unfold decodeSeries
  rw [chunksOf_points _ _ (by rw [length_flatMap_points]; omega)]
  induction ps with
  | nil => rfl
  | cons p ps ih => rw [List.map_cons, Res.mapM, ih, decode_encodePoint]; rfl

theorem lastPoint_points (ps : List TimePoint) (p : TimePoint) : lastPoint ((ps ++ [p]).flatMap encodePoint) = .ok p := by
  unfold lastPoint
  rw [length_flatMap_points, if_neg (by simp)]
  rw [List.flatMap_append, List.drop_left' (by rw [length_flatMap_points]; simp; omega)]
  simp [decode_encodePoint]

/-! ### Stores -/

/-- A store (seen through `key`) holds exactly these series. -/
def StoreInv (key : U64 → Str) (series : U64 → List TimePoint) (kv : KV) : Prop :=
  ∀ i, kv (key i) = if series i = [] then none else some ((series i).flatMap encodePoint)

theorem sledKey_inj {i j : U64} (h : sledKey i = sledKey j) : i = j :=
  BitVec.eq_of_toNat_eq (formatNat_inj (by omega) (by omega) (List.append_cancel_left h))
theorem tikvKey_inj {pre : Str} {i j : U64} (h : tikvKey pre i = tikvKey pre j) : i = j :=
  toBE_inj (List.append_cancel_left h)

/-- Update of one series. -/
def upd (series : U64 → List TimePoint) (i : U64) (s : List TimePoint) : U64 → List TimePoint :=
  fun j => if j = i then s else series j

theorem StoreInv.set {key : U64 → Str} (hk : ∀ i j, key i = key j → i = j) {series : U64 → List TimePoint} {kv : KV}
    (h : StoreInv key series kv) (i : U64) (s : List TimePoint) (hne : s ≠ []) :
    StoreInv key (upd series i s) (kv.set (key i) (s.flatMap encodePoint)) := by
  intro j
  by_cases hj : j = i
  · subst hj; rw [KV.set_same]; simp [upd, hne]
  · rw [KV.set_other _ _ (fun e => hj (hk _ _ e)), h j]; simp [upd, hj]

theorem sledWrite_inv {series : U64 → List TimePoint} {kv : KV} (h : StoreInv sledKey series kv) (i : U64) (p : TimePoint) :
    (sledWrite kv i p).1 = .ok () ∧ StoreInv sledKey (upd series i (series i ++ [p])) (sledWrite kv i p).2 := by
  have hi := h i
  unfold sledWrite
  by_cases h0 : series i = []
  · rw [if_pos h0] at hi
    simp only [hi]
    refine ⟨trivial, ?_⟩
    have := h.set (fun _ _ => sledKey_inj) i [p] (by simp)
    simpa [h0] using this
  · rw [if_neg h0] at hi
    simp only [hi]
    refine ⟨trivial, ?_⟩
    have := h.set (fun _ _ => sledKey_inj) i (series i ++ [p]) (by simp)
    simpa using this

theorem tikvWrite_inv {pre : Str} {series : U64 → List TimePoint} {kv : KV} (h : StoreInv (tikvKey pre) series kv)
    (i : U64) (p : TimePoint) :
    if ∀ l, (series i).getLast? = some l → l.ts.toNat < p.ts.toNat then
      (tikvWrite pre kv i p).1 = .ok () ∧ StoreInv (tikvKey pre) (upd series i (series i ++ [p])) (tikvWrite pre kv i p).2
    else tikvWrite pre kv i p = (.err .internal, kv) := by
  have hi := h i
  unfold tikvWrite
  rcases List.eq_nil_or_concat (series i) with h0 | ⟨ps, l, h0⟩
  · rw [if_pos h0] at hi
    simp only [hi]
    rw [if_pos (by simp [h0])]
    refine ⟨trivial, ?_⟩
    have := h.set (fun _ _ => tikvKey_inj) i [p] (by simp)
    simpa [h0] using this
  · rw [if_neg (by simp [h0])] at hi
    simp only [hi]
    rw [h0, List.concat_eq_append, lastPoint_points]
    simp only [List.getLast?_append, List.getLast?_singleton, Option.some_or, Option.some.injEq, forall_eq']
    by_cases hlt : l.ts.toNat < p.ts.toNat
    · rw [if_pos hlt, if_neg (by omega)]
      refine ⟨rfl, ?_⟩
      have := h.set (fun _ _ => tikvKey_inj) i (series i ++ [p]) (by simp)
      rw [h0, List.concat_eq_append] at this
      simpa using this
    · rw [if_neg hlt, if_pos (by omega)]

theorem sledRead_eq {series : U64 → List TimePoint} {kv : KV} (h : StoreInv sledKey series kv) (B : BinSearch)
    (i a b : U64) : sledRead B kv i a b = if series i = [] then .err .notFound else readSeries B (series i) a b := by
  unfold sledRead
  rw [h i]
  by_cases h0 : series i = []
  · simp [h0]
  · simp [h0, decodeSeries_points]

theorem tikvRead_eq {pre : Str} {series : U64 → List TimePoint} {kv : KV} (h : StoreInv (tikvKey pre) series kv)
    (B : BinSearch) (i a b : U64) :
    tikvRead B pre kv i a b = if series i = [] then .err .notFound else readSeries B (series i) a b := by
  unfold tikvRead
  rw [h i]
  by_cases h0 : series i = []
  · simp [h0]
  · simp [h0, decodeSeries_points]

/-! ### Histories of writes -/

/-- All writes of a history on a sled store. -/
def sledStore (kv : KV) (h : Writes) : KV := h.foldl (fun kv w => (sledWrite kv w.1 w.2).2) kv
/-- All writes of a history on a TiKV store. -/
def tikvStore (pre : Str) (kv : KV) (h : Writes) : KV := h.foldl (fun kv w => (tikvWrite pre kv w.1 w.2).2) kv

theorem StoreInv.congr {key : U64 → Str} {s s' : U64 → List TimePoint} {kv : KV} (h : StoreInv key s kv)
    (e : ∀ i, s i = s' i) : StoreInv key s' kv := by
  have : s = s' := funext e
  exact this ▸ h

theorem writesTo_append (h : Writes) (w : U64 × TimePoint) (i : U64) :
    writesTo (h ++ [w]) i = if i = w.1 then writesTo h i ++ [w.2] else writesTo h i := by
  unfold writesTo
  rw [List.filter_append, List.map_append]
  by_cases hi : i = w.1
  · simp [hi]
  · simp [hi, Ne.symm hi]

theorem sledStore_inv (h : Writes) : StoreInv sledKey (writesTo h) (sledStore KV.empty h) := by
  induction h using List.reverseRecOn with
  | nil => intro i; simp [writesTo, sledStore, KV.empty]
  | append_singleton h w ih =>
    unfold sledStore
    rw [List.foldl_append]
    refine (sledWrite_inv ih w.1 w.2).2.congr fun i => ?_
    rw [writesTo_append, upd]
    by_cases hi : i = w.1
    · subst hi; simp
    · simp [hi]

theorem acceptIncreasing_append (ps : List TimePoint) (p : TimePoint) :
    acceptIncreasing (ps ++ [p]) =
      if ∀ l, (acceptIncreasing ps).getLast? = some l → l.ts.toNat < p.ts.toNat then acceptIncreasing ps ++ [p]
      else acceptIncreasing ps := by
  unfold acceptIncreasing
  rw [List.foldl_append]
  simp only [List.foldl_cons, List.foldl_nil]
  rcases h : (List.foldl _ [] ps).getLast? with _ | l
  · simp
  · simp

theorem tikvStore_inv (pre : Str) (kv : KV) (hempty : ∀ i, kv (tikvKey pre i) = none) (h : Writes) :
    StoreInv (tikvKey pre) (fun i => acceptIncreasing (writesTo h i)) (tikvStore pre kv h) := by
  induction h using List.reverseRecOn with
  | nil => intro i; simp [writesTo, tikvStore, acceptIncreasing, hempty]
  | append_singleton h w ih =>
    unfold tikvStore
    rw [List.foldl_append]
    have := tikvWrite_inv ih w.1 w.2
    split at this
    · rename_i hc
      refine this.2.congr fun i => ?_
      simp only [writesTo_append, upd]
      by_cases hi : i = w.1
      · subst hi
        simp only [if_true]
        rw [acceptIncreasing_append, if_pos hc]
      · simp [hi]
    · rename_i hc
      simp only [List.foldl_cons, List.foldl_nil]
      show StoreInv _ _ (tikvWrite pre (tikvStore pre kv h) w.1 w.2).2
      rw [this]
      refine ih.congr fun i => ?_
      simp only [writesTo_append]
      by_cases hi : i = w.1
      · subst hi
        simp only [if_true]
        rw [acceptIncreasing_append, if_neg hc]
      · simp [hi]

theorem SIncr.append {s : List TimePoint} (h : SIncr s) {p : TimePoint}
    (hl : ∀ l, s.getLast? = some l → l.ts.toNat < p.ts.toNat) : SIncr (s ++ [p]) := by
  rw [SIncr, List.pairwise_append]
  refine ⟨h, by simp, ?_⟩
  intro a ha b hb
  simp only [List.mem_singleton] at hb
  subst hb
  rcases List.eq_nil_or_concat s with rfl | ⟨ps, l, rfl⟩
  · simp at ha
  · rw [List.concat_eq_append] at *
    have := hl l (by simp)
    rw [SIncr, List.pairwise_append] at h
    rcases List.mem_append.mp ha with h1 | h1
    · have := h.2.2 a h1 l (by simp); omega
    · simp only [List.mem_singleton] at h1; subst h1; exact this

theorem acceptIncreasing_incr (ps : List TimePoint) : SIncr (acceptIncreasing ps) := by
  induction ps using List.reverseRecOn with
  | nil => simp [acceptIncreasing, SIncr]
  | append_singleton ps p ih =>
    rw [acceptIncreasing_append]
    split
    · rename_i hc; exact ih.append hc
    · exact ih

theorem acceptIncreasing_of_incr {ps : List TimePoint} (h : SIncr ps) : acceptIncreasing ps = ps := by
  induction ps using List.reverseRecOn with
  | nil => rfl
  | append_singleton ps p ih =>
    rw [SIncr, List.pairwise_append] at h
    rw [acceptIncreasing_append, ih h.1, if_pos]
    intro l hl
    exact h.2.2 l (List.mem_of_getLast? hl) p (by simp)

theorem readSeries_spec {B : BinSearch} {s : List TimePoint} (h : SIncr s) (hne : s ≠ []) {a b : U64}
    (hab : a.toNat ≤ b.toNat) : readSeries B s a b = specRead s a b := by
  rcases hf : s.head? with _ | f
  · rw [List.head?_eq_none_iff] at hf; exact absurd hf hne
  rcases hl : s.getLast? with _ | l
  · rw [List.getLast?_eq_none_iff] at hl; exact absurd hl hne
  rw [readSeries_eq h hf hl, specRead, hf, hl, if_pos (cntLt_le_cntLe hab), slice_eq h hab]

theorem cnt_gt_iff {s : List TimePoint} (h : SIncr s) {f l : TimePoint} (hf : s.head? = some f) (hl : s.getLast? = some l)
    {a b : U64} (hfb : f.ts.toNat ≤ b.toNat) (hla : a.toNat ≤ l.ts.toNat) :
    ¬ cntLt s a ≤ cntLe s b ↔ ∃ p ∈ s, b.toNat < p.ts.toNat ∧ p.ts.toNat < a.toNat := by
  constructor
  · intro hc
    have h1 : cntLe s b < s.length := by have := cntLt_le s a; omega
    refine ⟨s[cntLe s b], List.getElem_mem _, ?_, ?_⟩
    · by_contra hcon
      have hm : s[cntLe s b] ∈ s.drop (cntLe s b) := by
        rw [List.mem_iff_getElem]; exact ⟨0, by simp; omega, by simp⟩
      have e := List.take_append_drop (cntLe s b) s
      have hcnt : s.countP (fun p => decide (p.ts.toNat ≤ b.toNat)) = cntLe s b := rfl
      have : (s.drop (cntLe s b)).countP (fun p => decide (p.ts.toNat ≤ b.toNat)) = 0 := by
        have h2 : (s.take (cntLe s b)).countP (fun p => decide (p.ts.toNat ≤ b.toNat)) = cntLe s b := by
          rw [List.countP_eq_length.mpr, List.length_take, Nat.min_eq_left (by omega)]
          intro y hy
          rw [take_cntLe h] at hy
          exact (List.mem_filter.mp hy).2
        have h3 := congrArg (List.countP fun p => decide (p.ts.toNat ≤ b.toNat)) e
        rw [List.countP_append, h2, hcnt] at h3
        omega
      rw [List.countP_eq_zero] at this
      have := this _ hm
      simp only [decide_eq_true_eq] at this
      omega
    · by_contra hcon
      have : s[cntLe s b] ∉ s.take (cntLt s a) := by
        intro hm
        have e := List.take_append_drop (cntLt s a) s
        have : (s.take (cntLt s a)).countP (fun p => decide (p.ts.toNat < a.toNat)) = cntLt s a := by
          have h2 : (s.drop (cntLt s a)).countP (fun p => decide (p.ts.toNat < a.toNat)) = 0 := by
            rw [List.countP_eq_zero]
            intro y hy
            rw [drop_cntLt h] at hy
            have := (List.mem_filter.mp hy).2
            simp only [decide_eq_true_eq] at this ⊢
            omega
          have h3 := congrArg (List.countP fun p => decide (p.ts.toNat < a.toNat)) e
          rw [List.countP_append, h2] at h3
          exact h3
        have h4 : (s.take (cntLt s a)).countP (fun p => decide (p.ts.toNat < a.toNat)) = (s.take (cntLt s a)).length := by
          rw [this, List.length_take, Nat.min_eq_left (cntLt_le s a)]
        have := List.countP_eq_length.mp h4 _ hm
        simp only [decide_eq_true_eq] at this
        omega
      apply this
      rw [List.mem_iff_getElem]
      exact ⟨cntLe s b, by simp; omega, by simp⟩
  · rintro ⟨p, hp, h1, h2⟩ hc
    have e : cntLe s b ≤ cntLt s b + 0 ∨ True := Or.inr trivial
    have key : cntLe s b < cntLt s a := by
      unfold cntLe cntLt
      rw [List.countP_eq_length_filter, List.countP_eq_length_filter]
      have hsub : (s.filter fun p => decide (p.ts.toNat ≤ b.toNat)).Sublist (s.filter fun p => decide (p.ts.toNat < a.toNat)) := by
        apply List.monotone_filter_right
        intro q hq; simp only [decide_eq_true_eq] at hq ⊢; omega
      rcases Nat.lt_or_ge (s.filter fun p => decide (p.ts.toNat ≤ b.toNat)).length
        (s.filter fun p => decide (p.ts.toNat < a.toNat)).length with hh | hh
      · exact hh
      · exfalso
        have := hsub.eq_of_length_le hh
        have hm : p ∈ s.filter fun p => decide (p.ts.toNat < a.toNat) := List.mem_filter.mpr ⟨hp, by simpa using h2⟩
        rw [← this] at hm
        have := (List.mem_filter.mp hm).2
        simp only [decide_eq_true_eq] at this
        omega
    omega

theorem readSeries_panic_iff {B : BinSearch} {s : List TimePoint} (h : SIncr s) {f l : TimePoint} (hf : s.head? = some f)
    (hl : s.getLast? = some l) (a b : U64) :
    readSeries B s a b = .panic ↔
      f.ts.toNat ≤ b.toNat ∧ a.toNat ≤ l.ts.toNat ∧ ∃ p ∈ s, b.toNat < p.ts.toNat ∧ p.ts.toNat < a.toNat := by
  rw [readSeries_eq h hf hl]
  by_cases hr : f.ts.toNat > b.toNat ∨ l.ts.toNat < a.toNat
  · rw [if_pos hr]; constructor
    · simp
    · rintro ⟨h1, h2, _⟩; omega
  · rw [if_neg hr]
    have e := cnt_gt_iff h hf hl (a := a) (b := b) (by omega) (by omega)
    by_cases hc : cntLt s a ≤ cntLe s b
    · rw [if_pos hc]
      constructor
      · simp
      · rintro ⟨_, _, h3⟩; exact absurd hc (e.mpr h3)
    · rw [if_neg hc]
      exact ⟨fun _ => ⟨by omega, by omega, e.mp hc⟩, fun _ => rfl⟩

end Verif
