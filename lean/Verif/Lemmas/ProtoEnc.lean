import Verif.Lemmas.Proto
import Verif.Lemmas.Bits
/-! Lemmas on protobuf writing. -/
namespace Verif

theorem encVarint_of (n : Nat) : VarintOf n (encVarint n) := by
  induction n using Nat.strongRecOn with
  | ind n ih =>
    rw [encVarint]
    split_ifs with h
    · have := VarintOf.last (BitVec.ofNat 8 n) (by rw [BitVec.toNat_ofNat]; omega)
      rwa [BitVec.toNat_ofNat, Nat.mod_eq_of_lt (by omega)] at this
    · have := VarintOf.more (BitVec.ofNat 8 (n % 128 + 128)) (n / 128) _ (by rw [BitVec.toNat_ofNat]; omega) (ih (n / 128) (by omega))
      rw [BitVec.toNat_ofNat, Nat.mod_eq_of_lt (by omega)] at this
      rwa [show n % 128 + 128 - 128 + 128 * (n / 128) = n by omega] at this

theorem encVarint_length (n : Nat) : (encVarint n).length = varintSize n := by
  induction n using Nat.strongRecOn with
  | ind n ih =>
    rw [encVarint, varintSize]
    split_ifs with h
    · rfl
    · rw [List.length_cons, ih (n / 128) (by omega)]; omega

theorem varintSize_le : ∀ (k n : Nat), n < 128 ^ (k + 1) → varintSize n ≤ k + 1 := by
  intro k
  induction k with
  | zero =>
    intro n h
    rw [varintSize, dif_pos (by simpa using h)]
  | succ k ih =>
    intro n h
    rw [varintSize]
    split_ifs with h1
    · omega
    · have := ih (n / 128) (by rw [Nat.div_lt_iff_lt_mul (by decide)]; rw [Nat.pow_succ] at h; exact h)
      omega

theorem encVarint_is {n : Nat} (h : n < 2 ^ 64) : IsVarint n (encVarint n) :=
  ⟨n, encVarint_of n, by rw [encVarint_length]; exact varintSize_le 9 n (lt_of_lt_of_le h (by decide)), (Nat.mod_eq_of_lt h).symm⟩

theorem encTag_is {num wt : Nat} (h0 : 0 < num) (h : 8 * num + wt < 2 ^ 32) (hw : wt < 8 := by decide) : IsKey num wt (encTag num wt) :=
  ⟨_, encVarint_is (lt_trans h (by decide)), Nat.mod_eq_of_lt h, hw, h0⟩

theorem encTag_length {num wt : Nat} (h : 8 * num + wt < 128) : (encTag num wt).length = 1 := by
  unfold encTag
  rw [encVarint_length, varintSize, dif_pos h]

theorem delimited_is {d : Str} (h : d.length < 2 ^ 32) : IsDelimited d (encVarint d.length ++ d) :=
  ⟨_, _, encVarint_is (lt_trans h (by decide)), Nat.mod_eq_of_lt h, rfl⟩

theorem nested_is {d : Str} (h : d.length < 2 ^ 32) : IsNested d (encVarint d.length ++ d) := ⟨_, encVarint_is (lt_trans h (by decide)), rfl⟩

theorem beBytes_length' (n x : Nat) : (beBytes n x).length = n := by
  induction n generalizing x with
  | zero => rfl
  | succ n ih => rw [beBytes, List.length_append, ih]; rfl

theorem littleEndian_beBytes (n x : Nat) : littleEndian (beBytes n x).reverse = x % 256 ^ n := by
  induction n generalizing x with
  | zero => simp [beBytes, littleEndian, Nat.mod_one]
  | succ n ih =>
    rw [beBytes, List.reverse_append]
    show (BitVec.ofNat 8 (x % 256)).toNat + 256 * littleEndian (beBytes n (x / 256)).reverse = _
    rw [ih, BitVec.toNat_ofNat, Nat.mod_mod, Nat.pow_succ, Nat.mul_comm (256 ^ n) 256, Nat.mod_mul]

theorem toLE_length (v : U64) : (toLE v).length = 8 := by simp [toLE, toBE, beBytes_length']

theorem littleEndian_toLE (v : U64) : BitVec.ofNat 64 (littleEndian (toLE v)) = v := by
  unfold toLE toBE
  rw [littleEndian_beBytes, Nat.mod_eq_of_lt (lt_of_lt_of_le v.isLt (by decide))]
  exact BitVec.ofNat_toNat 64 v |>.trans (by simp)

/-- The value a reader of the wire format gets: the negative zero becomes the positive one. -/
def wireValue (v : U64) : U64 := if v = 0x8000000000000000#64 then 0#64 else v
/-- A sample as read from the wire. -/
def wireSample (s : Sample) : Sample := ⟨wireValue s.value, s.timestamp⟩
/-- A series as read from the wire. -/
def wireSeries (s : PSeries) : PSeries := ⟨s.labels, s.samples.map wireSample⟩

/-- Timestamps fit `i64`. -/
def I64 (t : Int) : Prop := -2 ^ 63 ≤ t ∧ t < 2 ^ 63

theorem signed_asU64 {t : Int} (h : I64 t) : signed (asU64 t).toNat = t := by
  rw [← asI64_ofNat (asU64 t).isLt]
  unfold asI64 asU64
  rw [BitVec.ofNat_toNat, BitVec.setWidth_eq, BitVec.toInt_ofInt]
  obtain ⟨h1, h2⟩ := h
  refine Int.bmod_eq_of_le ?_ ?_ <;> (norm_num; omega)

theorem Built.append {M : Type} {F : M → Str → M → Prop} {m0 m1 m2 : M} {s t : Str} (h1 : Built F m0 m1 s) (h2 : Built F m1 m2 t) : Built F m0 m2 (s ++ t) := by
  induction h2 with
  | nil => rwa [List.append_nil]
  | snoc _ hf ih => rw [← List.append_assoc]; exact Built.snoc ih hf

theorem Built.one {M : Type} {F : M → Str → M → Prop} {m m' : M} {t : Str} (h : F m t m') : Built F m m' t := by
  have := Built.snoc (Built.nil (F := F) (m0 := m)) h
  rwa [List.nil_append] at this

theorem encSample_is {m : Sample} (h : I64 m.timestamp) : IsSample (wireSample m) (encSample m) := by
  unfold encSample
  have h1 : Built SampleField ⟨0#64, 0⟩ ⟨wireValue m.value, 0⟩ (if f64NeZero m.value then encTag 1 1 ++ toLE m.value else []) := by
    by_cases e : f64NeZero m.value = true
    · have e' := of_decide_eq_true e
      rw [if_pos e, wireValue, if_neg e'.2]
      have := SampleField.value (m := ⟨0#64, 0⟩) (encTag_is (num := 1) (wt := 1) (by decide) (by decide)) (toLE_length m.value)
      rw [littleEndian_toLE] at this
      exact Built.one this
    · rw [if_neg e]
      have : wireValue m.value = 0#64 := by
        unfold wireValue
        split_ifs with h2
        · rfl
        · by_contra h3; exact e (decide_eq_true ⟨h3, h2⟩)
      rw [this]; exact Built.nil
  refine h1.append ?_
  by_cases e : m.timestamp ≠ 0
  · rw [if_pos e]
    have := SampleField.timestamp (m := ⟨wireValue m.value, 0⟩) (encTag_is (num := 2) (wt := 0) (by decide) (by decide)) (encVarint_is (asU64 m.timestamp).isLt)
    rw [signed_asU64 h] at this
    exact Built.one this
  · rw [if_neg e]
    simp only [ne_eq, not_not] at e
    unfold wireSample; rw [e]; exact Built.nil

theorem encSample_size (m : Sample) : (encSample m).length = sizeSample m := by
  unfold encSample sizeSample
  rw [List.length_append]
  congr 1
  · split_ifs <;> simp [encTag_length, toLE_length]
  · split_ifs <;> simp [encTag_length, encVarint_length]

theorem encString_size {num : Nat} (h : 8 * num + 2 < 128) (s : Str) : (encString num s).length = stringSize s := by
  simp [encString, stringSize, encTag_length h, encVarint_length]; omega

theorem encLabel_size (l : Label) : (encLabel l).length = sizeLabel l := by
  unfold encLabel sizeLabel
  rw [List.length_append]
  congr 1 <;> split_ifs <;> simp [encString_size]

theorem encRepeated_size {M : Type} {num : Nat} (h : 8 * num + 2 < 128) {size : M → Nat} {enc : M → Str} {l : List M} (hs : ∀ m ∈ l, (enc m).length = size m) :
    (encRepeated num size enc l).length = sizeRepeated size l := by
  unfold encRepeated sizeRepeated
  induction l with
  | nil => rfl
  | cons a l ih =>
    rw [List.flatMap_cons, List.length_append, ih fun m hm => hs m (by simp [hm])]
    simp [encTag_length h, encVarint_length, hs a (by simp)]; omega

theorem encSeries_size (m : PSeries) : (encSeries m).length = sizeSeries m := by
  unfold encSeries sizeSeries
  rw [List.length_append, encRepeated_size (by decide) fun l _ => encLabel_size l, encRepeated_size (by decide) fun l _ => encSample_size l]

theorem encResult_size (m : List PSeries) : (encResult m).length = sizeResult m := encRepeated_size (by decide) fun l _ => encSeries_size l

theorem encMatcher_size (m : LabelMatcher) : (encMatcher m).length = sizeMatcher m := by
  unfold encMatcher sizeMatcher
  rw [List.length_append, List.length_append]
  congr 1
  · congr 1
    · split_ifs <;> simp [encTag_length, encVarint_length]
    · split_ifs <;> simp [encString_size]
  · split_ifs <;> simp [encString_size]

theorem encQuery_size (m : PQuery) : (encQuery m).length = sizeQuery m := by
  unfold encQuery sizeQuery
  rw [List.length_append, List.length_append, encRepeated_size (by decide) fun l _ => encMatcher_size l]
  congr 1
  congr 1 <;> split_ifs <;> simp [encTag_length, encVarint_length]

/-- An element's encoding is no longer than the whole. -/
theorem encRepeated_part {M : Type} {num : Nat} {size : M → Nat} {enc : M → Str} {l : List M} {m : M} (hm : m ∈ l) :
    (enc m).length ≤ (encRepeated num size enc l).length := by
  unfold encRepeated
  induction l with
  | nil => simp at hm
  | cons a l ih =>
    rw [List.flatMap_cons, List.length_append]
    rcases List.mem_cons.mp hm with rfl | h
    · simp; omega
    · have := ih h; omega

theorem encRepeated_built {M N : Type} {num : Nat} (h0 : 0 < num) (hn : 8 * num + 2 < 2 ^ 32) {size : M → Nat} {enc : M → Str} (f : N → List M → N)
    {F : N → Str → N → Prop} {g : M → M} {l : List M} (hs : ∀ m ∈ l, (enc m).length = size m) (hb : ∀ m ∈ l, (enc m).length < 2 ^ 32)
    (hF : ∀ (n : N) (m : M) (k p : Str), m ∈ l → IsKey num 2 k → IsNested (enc m) p → F n (k ++ p) (f n [g m]))
    (hf : ∀ n, f n [] = n) (hff : ∀ n a b, f (f n a) b = f n (a ++ b)) (n : N) :
    Built F n (f n (l.map g)) (encRepeated num size enc l) := by
  unfold encRepeated
  induction l generalizing n with
  | nil => simp only [List.map_nil, hf, List.flatMap_nil]; exact Built.nil
  | cons a l ih =>
    rw [List.flatMap_cons, List.map_cons]
    have h1 : F n (encTag num 2 ++ (encVarint (size a) ++ enc a)) (f n [g a]) := by
      rw [← hs a (by simp)]
      exact hF n a _ _ (by simp) (encTag_is h0 hn) (nested_is (hb a (by simp)))
    rw [List.append_assoc (encTag num 2)]
    have h2 := ih (fun m hm => hs m (by simp [hm])) (fun m hm => hb m (by simp [hm])) (fun n m k p hm => hF n m k p (by simp [hm])) (f n [g a])
    rw [hff] at h2
    exact (Built.one h1).append h2

/-- All strings of a label are valid. -/
def LabelOk (utf8 : Str → Bool) (l : Label) : Prop := utf8 l.key = true ∧ utf8 l.value = true
/-- All strings of a series are valid, and all timestamps fit. -/
def SeriesOk (utf8 : Str → Bool) (s : PSeries) : Prop := (∀ l ∈ s.labels, LabelOk utf8 l) ∧ ∀ x ∈ s.samples, I64 x.timestamp

theorem encString_part {num : Nat} (s : Str) : s.length ≤ (encString num s).length := by simp [encString]; omega

theorem encLabel_is {utf8 : Str → Bool} {l : Label} (h : LabelOk utf8 l) (hb : (encLabel l).length < 2 ^ 32) : IsLabel utf8 l (encLabel l) := by
  unfold encLabel at hb ⊢
  rw [List.length_append] at hb
  have h1 : Built (LabelField utf8) ⟨[], []⟩ ⟨l.key, []⟩ (if l.key.isEmpty then [] else encString 1 l.key) := by
    split_ifs with e
    · rw [List.isEmpty_iff.mp e]; exact Built.nil
    · rw [if_neg e] at hb
      have := encString_part (num := 1) l.key
      unfold encString
      rw [List.append_assoc]
      exact Built.one (LabelField.name (m := ⟨[], []⟩) (encTag_is (by decide) (by decide)) (delimited_is (by omega)) h.1)
  refine h1.append ?_
  split_ifs with e
  · have : l = ⟨l.key, []⟩ := by rw [← List.isEmpty_iff.mp e]
    rw [this]; exact Built.nil
  · rw [if_neg e] at hb
    have := encString_part (num := 2) l.value
    unfold encString
    rw [List.append_assoc]
    exact Built.one (LabelField.value (m := ⟨l.key, []⟩) (encTag_is (by decide) (by decide)) (delimited_is (by omega)) h.2)

theorem encSeries_is {utf8 : Str → Bool} {m : PSeries} (h : SeriesOk utf8 m) (hb : (encSeries m).length < 2 ^ 32) : IsSeries utf8 (wireSeries m) (encSeries m) := by
  unfold encSeries at hb ⊢
  rw [List.length_append] at hb
  have h1 := encRepeated_built (num := 1) (by decide) (by decide) (size := sizeLabel) (enc := encLabel) (fun (n : PSeries) ls => { n with labels := n.labels ++ ls })
    (F := SeriesField utf8) (g := id) (l := m.labels) (fun l _ => encLabel_size l)
    (fun l hl => by have := encRepeated_part (num := 1) (size := sizeLabel) (enc := encLabel) hl; omega)
    (fun n l k p hl hk hp => SeriesField.label hk hp (encLabel_is (h.1 l hl)
      (by have := encRepeated_part (num := 1) (size := sizeLabel) (enc := encLabel) hl; simp only [id_eq]; omega)))
    (fun n => by simp) (fun n a b => by simp) ⟨[], []⟩
  have h2 := encRepeated_built (num := 2) (by decide) (by decide) (size := sizeSample) (enc := encSample) (fun (n : PSeries) ls => { n with samples := n.samples ++ ls })
    (F := SeriesField utf8) (g := wireSample) (l := m.samples) (fun l _ => encSample_size l)
    (fun l hl => by have := encRepeated_part (num := 2) (size := sizeSample) (enc := encSample) hl; omega)
    (fun n l k p hl hk hp => SeriesField.sample hk hp (encSample_is (h.2 l hl)))
    (fun n => by simp) (fun n a b => by simp) ⟨m.labels, []⟩
  simp only [List.nil_append, List.map_id] at h1 h2
  exact Built.append h1 h2

theorem encWrite_is {utf8 : Str → Bool} {m : List PSeries} (h : ∀ s ∈ m, SeriesOk utf8 s) (hb : (encWrite m).length < 2 ^ 32) :
    IsWrite utf8 (m.map wireSeries) (encWrite m) := by
  have := encRepeated_built (num := 1) (by decide) (by decide) (size := sizeSeries) (enc := encSeries) (fun (n : List PSeries) ls => n ++ ls)
    (F := WriteField utf8) (g := wireSeries) (l := m) (fun l _ => encSeries_size l)
    (fun l hl => lt_of_le_of_lt (encRepeated_part hl) hb)
    (fun n l k p hl hk hp => WriteField.series hk hp (encSeries_is (h l hl) (lt_of_le_of_lt (encRepeated_part hl) hb)))
    (fun n => by simp) (fun n a b => by simp) []
  rwa [List.nil_append] at this

theorem encResponse_is {utf8 : Str → Bool} {m : List (List PSeries)} (h : ∀ r ∈ m, ∀ s ∈ r, SeriesOk utf8 s) (hb : (encResponse m).length < 2 ^ 32) :
    IsResponse utf8 (m.map (·.map wireSeries)) (encResponse m) := by
  have := encRepeated_built (num := 1) (by decide) (by decide) (size := sizeResult) (enc := encResult) (fun (n : List (List PSeries)) ls => n ++ ls)
    (F := ResponseField utf8) (g := fun r => r.map wireSeries) (l := m) (fun l _ => encResult_size l)
    (fun l hl => lt_of_le_of_lt (encRepeated_part hl) hb)
    (fun n l k p hl hk hp => ResponseField.result hk hp (encWrite_is (h l hl) (lt_of_le_of_lt (encRepeated_part hl) hb)))
    (fun n => by simp) (fun n a b => by simp) []
  rwa [List.nil_append] at this

/-- All strings of a query are valid, and its timestamps fit. -/
def QueryOk (utf8 : Str → Bool) (q : PQuery) : Prop :=
  I64 q.start_ ∧ I64 q.end_ ∧ ∀ m ∈ q.matchers, utf8 m.name = true ∧ utf8 m.value = true

theorem encMatcher_is {utf8 : Str → Bool} {m : LabelMatcher} (h : utf8 m.name = true ∧ utf8 m.value = true) (hb : (encMatcher m).length < 2 ^ 32) :
    IsMatcher utf8 m (encMatcher m) := by
  obtain ⟨ty, name, value⟩ := m
  unfold encMatcher at hb ⊢
  simp only [] at hb h ⊢
  rw [List.length_append, List.length_append] at hb
  have h0 : Built (MatcherField utf8) ⟨.eq, [], []⟩ ⟨ty, [], []⟩ (if ty = .eq then [] else encTag 1 0 ++ encVarint (matcherCode ty)) := by
    split_ifs with e
    · rw [e]; exact Built.nil
    · exact Built.one (MatcherField.type (m := ⟨.eq, [], []⟩) (t := ty) (encTag_is (by decide) (by decide))
        (encVarint_is (by cases ty <;> decide)) (by cases ty <;> rfl))
  have h1 : Built (MatcherField utf8) ⟨ty, [], []⟩ ⟨ty, name, []⟩ (if name.isEmpty then [] else encString 2 name) := by
    split_ifs with e
    · rw [List.isEmpty_iff.mp e]; exact Built.nil
    · rw [if_neg e] at hb
      have := encString_part (num := 2) name
      unfold encString
      rw [List.append_assoc]
      exact Built.one (MatcherField.name (m := ⟨ty, [], []⟩) (encTag_is (by decide) (by decide)) (delimited_is (by omega)) h.1)
  refine (h0.append h1).append ?_
  split_ifs with e
  · rw [List.isEmpty_iff.mp e]; exact Built.nil
  · rw [if_neg e] at hb
    have := encString_part (num := 3) value
    unfold encString
    rw [List.append_assoc]
    exact Built.one (MatcherField.value (m := ⟨ty, name, []⟩) (encTag_is (by decide) (by decide)) (delimited_is (by omega)) h.2)

theorem encQuery_is {utf8 : Str → Bool} {q : PQuery} (h : QueryOk utf8 q) (hb : (encQuery q).length < 2 ^ 32) : IsQuery utf8 q (encQuery q) := by
  unfold encQuery at hb ⊢
  rw [List.length_append, List.length_append] at hb
  have h1 : Built (QueryField utf8) ⟨0, 0, []⟩ ⟨q.start_, 0, []⟩ (if q.start_ ≠ 0 then encTag 1 0 ++ encVarint (asU64 q.start_).toNat else []) := by
    by_cases e : q.start_ ≠ 0
    · rw [if_pos e]
      have := QueryField.start (utf8 := utf8) (m := ⟨0, 0, []⟩) (encTag_is (num := 1) (wt := 0) (by decide) (by decide)) (encVarint_is (asU64 q.start_).isLt)
      rw [signed_asU64 h.1] at this
      exact Built.one this
    · rw [if_neg e]; simp only [ne_eq, not_not] at e; rw [e]; exact Built.nil
  have h2 : Built (QueryField utf8) ⟨q.start_, 0, []⟩ ⟨q.start_, q.end_, []⟩ (if q.end_ ≠ 0 then encTag 2 0 ++ encVarint (asU64 q.end_).toNat else []) := by
    by_cases e : q.end_ ≠ 0
    · rw [if_pos e]
      have := QueryField.end_ (utf8 := utf8) (m := ⟨q.start_, 0, []⟩) (encTag_is (num := 2) (wt := 0) (by decide) (by decide)) (encVarint_is (asU64 q.end_).isLt)
      rw [signed_asU64 h.2.1] at this
      exact Built.one this
    · rw [if_neg e]; simp only [ne_eq, not_not] at e; rw [e]; exact Built.nil
  have h3 := encRepeated_built (num := 3) (by decide) (by decide) (size := sizeMatcher) (enc := encMatcher)
    (fun (n : PQuery) ls => { n with matchers := n.matchers ++ ls })
    (F := QueryField utf8) (g := id) (l := q.matchers) (fun l _ => encMatcher_size l)
    (fun l hl => by have := encRepeated_part (num := 3) (size := sizeMatcher) (enc := encMatcher) hl; omega)
    (fun n l k p hl hk hp => QueryField.matcher hk hp (encMatcher_is (h.2.2 l hl)
      (by have := encRepeated_part (num := 3) (size := sizeMatcher) (enc := encMatcher) hl; simp only [id_eq]; omega)))
    (fun n => by simp) (fun n a b => by simp) ⟨q.start_, q.end_, []⟩
  simp only [List.nil_append, List.map_id] at h3
  exact (h1.append h2).append h3

theorem encRead_is {utf8 : Str → Bool} {qs : List PQuery} (h : ∀ q ∈ qs, QueryOk utf8 q) (hb : (encRead qs).length < 2 ^ 32) : IsRead utf8 qs (encRead qs) := by
  have := encRepeated_built (num := 1) (by decide) (by decide) (size := sizeQuery) (enc := encQuery) (fun (n : List PQuery) ls => n ++ ls)
    (F := ReadField utf8) (g := id) (l := qs) (fun l _ => encQuery_size l)
    (fun l hl => lt_of_le_of_lt (encRepeated_part hl) hb)
    (fun n l k p hl hk hp => ReadField.query hk hp (encQuery_is (h l hl) (lt_of_le_of_lt (encRepeated_part hl) hb)))
    (fun n => by simp) (fun n a b => by simp) []
  rwa [List.nil_append, List.map_id] at this

end Verif
