import Verif.Lemmas.Proto
/-! The parsers accept nothing but encodings (for a runtime that refuses groups and lengths beyond the end). -/
namespace Verif

/-- A runtime that refuses (deprecated) groups and nested messages longer than the input. -/
structure PbRt.Strict (rt : PbRt) : Prop where
  group : ∀ s, rt.skipGroup s = none
  overrun : ∀ n s, rt.overrun n s = false

theorem readVarintFrom_sound : ∀ (s : Str) (i w : Nat) (r : Str), readVarintFrom i s = some (w, r) →
    ∃ p, VarintOf w p ∧ i + p.length ≤ 10 ∧ s = p ++ r := by
  intro s
  induction s with
  | nil => intro i w r h; simp [readVarintFrom] at h
  | cons b s ih =>
    intro i w r h
    rw [readVarintFrom] at h
    split_ifs at h with h1 h2
    · cases h
      exact ⟨[b], VarintOf.last b h2, by simp only [List.length_singleton]; omega, rfl⟩
    · rcases hv : readVarintFrom (i + 1) s with _ | ⟨v, r'⟩
      · rw [hv] at h; cases h
      · rw [hv] at h
        simp only [Option.some.injEq, Prod.mk.injEq] at h
        obtain ⟨rfl, rfl⟩ := h
        obtain ⟨p, a1, a2, rfl⟩ := ih (i + 1) v r' hv
        exact ⟨b :: p, VarintOf.more b v p (by omega) a1, by simp only [List.length_cons]; omega, rfl⟩

theorem readVarint_sound {s r : Str} {v : Nat} (h : readVarint s = some (v, r)) : ∃ p, IsVarint v p ∧ s = p ++ r := by
  unfold readVarint at h
  rcases hv : readVarintFrom 0 s with _ | ⟨w, r'⟩
  · rw [hv] at h; cases h
  · rw [hv] at h
    simp only [Option.some.injEq, Prod.mk.injEq] at h
    obtain ⟨rfl, rfl⟩ := h
    obtain ⟨p, a1, a2, rfl⟩ := readVarintFrom_sound s 0 w r' hv
    exact ⟨p, ⟨w, a1, by omega, rfl⟩, rfl⟩

theorem readVarint32_sound {s r : Str} {v : Nat} (h : readVarint32 s = some (v, r)) : ∃ w p, IsVarint w p ∧ w % 2 ^ 32 = v ∧ s = p ++ r := by
  unfold readVarint32 at h
  rcases hv : readVarint s with _ | ⟨w, r'⟩
  · rw [hv] at h; cases h
  · rw [hv] at h
    simp only [Option.some.injEq, Prod.mk.injEq] at h
    obtain ⟨rfl, rfl⟩ := h
    obtain ⟨p, a1, rfl⟩ := readVarint_sound hv
    exact ⟨w, p, a1, rfl, rfl⟩

theorem readTag_sound {s r : Str} {num wt : Nat} (h : readTag s = some (num, wt, r)) : ∃ k, IsKey num wt k ∧ s = k ++ r := by
  unfold readTag at h
  rcases hv : readVarint32 s with _ | ⟨v, r'⟩
  · rw [hv] at h; cases h
  · rw [hv] at h
    simp only [] at h
    split_ifs at h with hc
    cases h
    obtain ⟨w, k, a1, a2, rfl⟩ := readVarint32_sound hv
    exact ⟨k, ⟨w, a1, by omega, by omega, by omega⟩, rfl⟩

theorem readRaw_sound {n : Nat} {s p r : Str} (h : readRaw n s = some (p, r)) : p.length = n ∧ s = p ++ r := by
  unfold readRaw at h
  split_ifs at h with hn
  cases h
  exact ⟨by rw [List.length_take]; omega, (List.take_append_drop n s).symm⟩

theorem readBytes_sound {s d r : Str} (h : readBytes s = some (d, r)) : ∃ p, IsDelimited d p ∧ s = p ++ r := by
  unfold readBytes at h
  rcases hv : readVarint32 s with _ | ⟨v, r'⟩
  · rw [hv] at h; cases h
  · rw [hv] at h
    obtain ⟨w, n, a1, a2, rfl⟩ := readVarint32_sound hv
    obtain ⟨b1, rfl⟩ := readRaw_sound h
    exact ⟨n ++ d, ⟨w, n, a1, by omega, rfl⟩, by rw [List.append_assoc]⟩

theorem readFixed64_sound {s r : Str} {v : U64} (h : readFixed64 s = some (v, r)) : ∃ p, p.length = 8 ∧ v = BitVec.ofNat 64 (littleEndian p) ∧ s = p ++ r := by
  unfold readFixed64 at h
  rcases hv : readRaw 8 s with _ | ⟨p, r'⟩
  · rw [hv] at h; cases h
  · rw [hv] at h
    simp only [Option.some.injEq, Prod.mk.injEq] at h
    obtain ⟨rfl, rfl⟩ := h
    obtain ⟨b1, rfl⟩ := readRaw_sound hv
    exact ⟨p, b1, by rw [leNat_eq], rfl⟩

theorem readInt64_sound {wt : Nat} {old x : Int} {s r : Str} (h : readInt64 wt old s = (x, some r)) : wt = 0 ∧ ∃ v p, IsVarint v p ∧ x = signed v ∧ s = p ++ r := by
  unfold readInt64 at h
  split_ifs at h with hw
  · simp at h
  · refine ⟨by omega, ?_⟩
    rcases hv : readVarint s with _ | ⟨v, r'⟩
    · rw [hv] at h; simp at h
    · rw [hv] at h
      simp only [Prod.mk.injEq, Option.some.injEq] at h
      obtain ⟨rfl, rfl⟩ := h
      obtain ⟨p, a1, rfl⟩ := readVarint_sound hv
      exact ⟨v, p, a1, asI64_ofNat a1.lt, rfl⟩

theorem readString_sound {rt : PbRt} {wt : Nat} {old d s r : Str} (h : readString rt wt old s = (d, some r)) :
    wt = 2 ∧ rt.utf8 d = true ∧ ∃ p, IsDelimited d p ∧ s = p ++ r := by
  unfold readString at h
  split_ifs at h with hw
  · simp at h
  · refine ⟨by omega, ?_⟩
    rcases hv : readBytes s with _ | ⟨v, r'⟩
    · rw [hv] at h; simp at h
    · rw [hv] at h
      simp only [] at h
      split_ifs at h with hu
      · simp only [Prod.mk.injEq, Option.some.injEq] at h
        obtain ⟨rfl, rfl⟩ := h
        exact ⟨hu, readBytes_sound hv⟩
      · simp at h

theorem skipUnknown_sound {rt : PbRt} (hr : rt.Strict) {known : Nat → Prop} {num wt : Nat} (hn : ¬ known num) {k s r : Str} (hk : IsKey num wt k)
    (h : skipUnknown rt wt s = some r) : ∃ p, s = p ++ r ∧ UnknownField known (k ++ p) := by
  unfold skipUnknown at h
  split at h
  · rcases hv : readVarint s with _ | ⟨v, r'⟩
    · rw [hv] at h; simp at h
    · rw [hv] at h
      simp only [Option.map_some, Option.some.injEq] at h
      subst h
      obtain ⟨p, a1, rfl⟩ := readVarint_sound hv
      exact ⟨p, rfl, .varint hn hk a1⟩
  · rcases hv : readRaw 8 s with _ | ⟨p, r'⟩
    · rw [hv] at h; simp at h
    · rw [hv] at h
      simp only [Option.map_some, Option.some.injEq] at h
      subst h
      obtain ⟨a1, rfl⟩ := readRaw_sound hv
      exact ⟨p, rfl, .fixed64 hn hk a1⟩
  · rcases hv : readBytes s with _ | ⟨d, r'⟩
    · rw [hv] at h; simp at h
    · rw [hv] at h
      simp only [Option.map_some, Option.some.injEq] at h
      subst h
      obtain ⟨p, a1, rfl⟩ := readBytes_sound hv
      exact ⟨p, rfl, .bytes hn hk a1⟩
  · rw [hr.group] at h; cases h
  · rcases hv : readRaw 4 s with _ | ⟨p, r'⟩
    · rw [hv] at h; simp at h
    · rw [hv] at h
      simp only [Option.map_some, Option.some.injEq] at h
      subst h
      obtain ⟨a1, rfl⟩ := readRaw_sound hv
      exact ⟨p, rfl, .fixed32 hn hk a1⟩
  · cases h

/-- A step function accepts only fields. -/
def Sound {M : Type} (step : M → Nat → Nat → Str → M × Option Str) (F : M → Str → M → Prop) : Prop :=
  ∀ m num wt k r m' r', IsKey num wt k → step m num wt r = (m', some r') → ∃ p, r = p ++ r' ∧ F m (k ++ p) m'

theorem mergeLoop_sound {M : Type} {step : M → Nat → Nat → Str → M × Option Str} {F : M → Str → M → Prop} (hS : Sound step F) {m0 : M} (f : Nat) :
    ∀ {m m' : M} {s0 s : Str}, Built F m0 m s0 → mergeLoop step f m s = (m', true) → Built F m0 m' (s0 ++ s) := by
  induction f with
  | zero =>
    intro m m' s0 s hb h
    cases s with
    | nil => simp only [mergeLoop, Prod.mk.injEq] at h; rw [List.append_nil, ← h.1]; exact hb
    | cons b s => simp [mergeLoop] at h
  | succ f ih =>
    intro m m' s0 s hb h
    cases s with
    | nil => simp only [mergeLoop, Prod.mk.injEq] at h; rw [List.append_nil, ← h.1]; exact hb
    | cons b s =>
      rw [mergeLoop] at h
      rcases ht : readTag (b :: s) with _ | ⟨num, wt, r⟩
      · rw [ht] at h; simp at h
      · rw [ht] at h
        simp only [] at h
        rcases hst : step m num wt r with ⟨m1, _ | r'⟩
        · rw [hst] at h; simp at h
        · rw [hst] at h
          simp only [] at h
          obtain ⟨k, hk, e⟩ := readTag_sound ht
          obtain ⟨p, rfl, hF⟩ := hS m num wt k r m1 r' hk hst
          rw [e, ← List.append_assoc k p r', ← List.append_assoc]
          exact ih (Built.snoc hb hF) h

theorem merge_sound {M : Type} {step : M → Nat → Nat → Str → M × Option Str} {F : M → Str → M → Prop} (hS : Sound step F) {m0 m' : M} {s : Str}
    (h : merge step m0 s = (m', true)) : Built F m0 m' s := mergeLoop_sound hS _ Built.nil h

theorem readMessage_sound {M : Type} {rt : PbRt} (hr : rt.Strict) {step : M → Nat → Nat → Str → M × Option Str} {F : M → Str → M → Prop} (hS : Sound step F)
    {m0 m' : M} {s r : Str} (h : readMessage rt step m0 s = (m', some r)) : ∃ d p, IsNested d p ∧ Built F m0 m' d ∧ s = p ++ r := by
  unfold readMessage at h
  rcases hv : readVarint s with _ | ⟨n, r'⟩
  · rw [hv] at h; simp at h
  · rw [hv] at h
    simp only [] at h
    obtain ⟨p, a1, rfl⟩ := readVarint_sound hv
    split_ifs at h with h1 h2
    · rcases hm : merge step m0 (r'.take n) with ⟨m1, _ | _⟩
      · rw [hm] at h; simp at h
      · rw [hm] at h
        simp only [Prod.mk.injEq, Option.some.injEq] at h
        obtain ⟨rfl, rfl⟩ := h
        refine ⟨r'.take n, p ++ r'.take n, ⟨p, ?_, rfl⟩, merge_sound hS hm, by rw [List.append_assoc, List.take_append_drop]⟩
        rw [List.length_take, Nat.min_eq_left h1]; exact a1
    · rw [hr.overrun] at h2; cases h2
    · simp at h

theorem readRepeated_sound {M : Type} {rt : PbRt} (hr : rt.Strict) {step : M → Nat → Nat → Str → M × Option Str} {F : M → Str → M → Prop} (hS : Sound step F)
    {m0 : M} {wt : Nat} {l l' : List M} {s r : Str} (h1 : (readRepeated rt step m0 wt l s).1 = l') (h2 : (readRepeated rt step m0 wt l s).2 = some r) :
    wt = 2 ∧ ∃ m d p, l' = l ++ [m] ∧ IsNested d p ∧ Built F m0 m d ∧ s = p ++ r := by
  unfold readRepeated at h1 h2
  split_ifs at h1 h2 with hw
  simp only at h1 h2
  refine ⟨by omega, ?_⟩
  obtain ⟨d, p, a1, a2, a3⟩ := readMessage_sound hr hS (m' := (readMessage rt step m0 s).1) (r := r) (Prod.ext rfl h2)
  exact ⟨_, d, p, h1.symm, a1, a2, a3⟩

/-! ### All messages -/

theorem sampleStep_sound {rt : PbRt} (hr : rt.Strict) : Sound (sampleStep rt) SampleField := by
  intro m num wt k r m' r' hk h
  unfold sampleStep at h
  split_ifs at h with h1 h2 h3
  · simp at h
  · obtain rfl : wt = 1 := by omega
    subst h1
    rcases hv : readFixed64 r with _ | ⟨v, r1⟩
    · rw [hv] at h; simp at h
    · rw [hv] at h
      simp only [Prod.mk.injEq, Option.some.injEq] at h
      obtain ⟨rfl, rfl⟩ := h
      obtain ⟨p, a1, rfl, rfl⟩ := readFixed64_sound hv
      exact ⟨p, rfl, .value hk a1⟩
  · subst h3
    simp only [Prod.mk.injEq] at h
    obtain ⟨rfl, h2⟩ := h
    obtain ⟨rfl, v, p, a1, a2, rfl⟩ := readInt64_sound (x := (readInt64 wt m.timestamp r).1) (Prod.ext rfl h2)
    rw [a2]
    exact ⟨p, rfl, .timestamp hk a1⟩
  · simp only [Prod.mk.injEq] at h
    obtain ⟨rfl, h⟩ := h
    obtain ⟨p, rfl, hu⟩ := skipUnknown_sound hr (known := fun n => n = 1 ∨ n = 2) (by simp [h1, h3]) hk h
    exact ⟨p, rfl, .other hu⟩

theorem labelStep_sound {rt : PbRt} (hr : rt.Strict) : Sound (labelStep rt) (LabelField rt.utf8) := by
  intro m num wt k r m' r' hk h
  unfold labelStep at h
  split_ifs at h with h1 h3
  · subst h1
    simp only [Prod.mk.injEq] at h
    obtain ⟨rfl, h2⟩ := h
    obtain ⟨rfl, hu, p, a1, rfl⟩ := readString_sound (d := (readString rt wt m.key r).1) (Prod.ext rfl h2)
    exact ⟨p, rfl, .name hk a1 hu⟩
  · subst h3
    simp only [Prod.mk.injEq] at h
    obtain ⟨rfl, h2⟩ := h
    obtain ⟨rfl, hu, p, a1, rfl⟩ := readString_sound (d := (readString rt wt m.value r).1) (Prod.ext rfl h2)
    exact ⟨p, rfl, .value hk a1 hu⟩
  · simp only [Prod.mk.injEq] at h
    obtain ⟨rfl, h⟩ := h
    obtain ⟨p, rfl, hu⟩ := skipUnknown_sound hr (known := fun n => n = 1 ∨ n = 2) (by simp [h1, h3]) hk h
    exact ⟨p, rfl, .other hu⟩

theorem seriesStep_sound {rt : PbRt} (hr : rt.Strict) : Sound (seriesStep rt) (SeriesField rt.utf8) := by
  intro m num wt k r m' r' hk h
  unfold seriesStep at h
  split_ifs at h with h1 h3
  · subst h1
    simp only [Prod.mk.injEq] at h
    obtain ⟨rfl, h2⟩ := h
    obtain ⟨rfl, x, d, p, e, a1, a2, rfl⟩ := readRepeated_sound hr (labelStep_sound hr) rfl h2
    rw [e]
    exact ⟨p, rfl, .label hk a1 a2⟩
  · subst h3
    simp only [Prod.mk.injEq] at h
    obtain ⟨rfl, h2⟩ := h
    obtain ⟨rfl, x, d, p, e, a1, a2, rfl⟩ := readRepeated_sound hr (sampleStep_sound hr) rfl h2
    rw [e]
    exact ⟨p, rfl, .sample hk a1 a2⟩
  · simp only [Prod.mk.injEq] at h
    obtain ⟨rfl, h⟩ := h
    obtain ⟨p, rfl, hu⟩ := skipUnknown_sound hr (known := fun n => n = 1 ∨ n = 2) (by simp [h1, h3]) hk h
    exact ⟨p, rfl, .other hu⟩

theorem writeStep_sound {rt : PbRt} (hr : rt.Strict) : Sound (writeStep rt) (WriteField rt.utf8) := by
  intro m num wt k r m' r' hk h
  unfold writeStep at h
  split_ifs at h with h1
  · subst h1
    obtain ⟨rfl, x, d, p, e, a1, a2, rfl⟩ := readRepeated_sound hr (seriesStep_sound hr) rfl (congrArg Prod.snd h)
    rw [h] at e
    simp only at e
    rw [e]
    exact ⟨p, rfl, .series hk a1 a2⟩
  · simp only [Prod.mk.injEq] at h
    obtain ⟨rfl, h⟩ := h
    obtain ⟨p, rfl, hu⟩ := skipUnknown_sound hr (known := fun n => n = 1) h1 hk h
    exact ⟨p, rfl, .other hu⟩

theorem matcherStep_sound {rt : PbRt} (hr : rt.Strict) : Sound (matcherStep rt) (MatcherField rt.utf8) := by
  intro m num wt k r m' r' hk h
  unfold matcherStep at h
  split_ifs at h with h1 h2 h3 h4
  · simp at h
  · obtain rfl : wt = 0 := by omega
    subst h1
    rcases hv : readVarint r with _ | ⟨v, r1⟩
    · rw [hv] at h; simp at h
    · rw [hv] at h
      simp only [Prod.mk.injEq, Option.some.injEq] at h
      obtain ⟨rfl, rfl⟩ := h
      obtain ⟨p, a1, rfl⟩ := readVarint_sound hv
      rcases ht : matcherType v with _ | t
      · exact ⟨p, rfl, .unknownType hk a1 (matcherType_none.mp ht)⟩
      · exact ⟨p, rfl, .type hk a1 (matcherType_some ht)⟩
  · subst h3
    simp only [Prod.mk.injEq] at h
    obtain ⟨rfl, h2⟩ := h
    obtain ⟨rfl, hu, p, a1, rfl⟩ := readString_sound (d := (readString rt wt m.name r).1) (Prod.ext rfl h2)
    exact ⟨p, rfl, .name hk a1 hu⟩
  · subst h4
    simp only [Prod.mk.injEq] at h
    obtain ⟨rfl, h2⟩ := h
    obtain ⟨rfl, hu, p, a1, rfl⟩ := readString_sound (d := (readString rt wt m.value r).1) (Prod.ext rfl h2)
    exact ⟨p, rfl, .value hk a1 hu⟩
  · simp only [Prod.mk.injEq] at h
    obtain ⟨rfl, h⟩ := h
    obtain ⟨p, rfl, hu⟩ := skipUnknown_sound hr (known := fun n => n = 1 ∨ n = 2 ∨ n = 3) (by simp [h1, h3, h4]) hk h
    exact ⟨p, rfl, .other hu⟩

theorem hintsStep_sound {rt : PbRt} (hr : rt.Strict) : Sound (hintsStep rt) (HintsField rt.utf8) := by
  intro m num wt k r m' r' hk h
  unfold hintsStep at h
  split_ifs at h with h1 h3
  · simp only [Prod.mk.injEq] at h
    obtain ⟨-, h2⟩ := h
    obtain ⟨rfl, v, p, a1, a2, rfl⟩ := readInt64_sound (x := (readInt64 wt 0 r).1) (Prod.ext rfl h2)
    exact ⟨p, rfl, .int h1 hk a1⟩
  · subst h3
    simp only [Prod.mk.injEq] at h
    obtain ⟨-, h2⟩ := h
    obtain ⟨rfl, hu, p, a1, rfl⟩ := readString_sound (d := (readString rt wt [] r).1) (Prod.ext rfl h2)
    exact ⟨p, rfl, .func hk a1 hu⟩
  · simp only [Prod.mk.injEq] at h
    obtain ⟨-, h⟩ := h
    obtain ⟨p, rfl, hu⟩ := skipUnknown_sound hr (known := fun n => n = 1 ∨ n = 2 ∨ n = 3 ∨ n = 4) (by push Not at h1; simp [h1, h3]) hk h
    exact ⟨p, rfl, .other hu⟩

theorem queryStep_sound {rt : PbRt} (hr : rt.Strict) : Sound (queryStep rt) (QueryField rt.utf8) := by
  intro m num wt k r m' r' hk h
  unfold queryStep at h
  split_ifs at h with h1 h2 h3 h4 h5
  · subst h1
    simp only [Prod.mk.injEq] at h
    obtain ⟨rfl, h⟩ := h
    obtain ⟨rfl, v, p, a1, a2, rfl⟩ := readInt64_sound (x := (readInt64 wt m.start_ r).1) (Prod.ext rfl h)
    rw [a2]
    exact ⟨p, rfl, .start hk a1⟩
  · subst h2
    simp only [Prod.mk.injEq] at h
    obtain ⟨rfl, h⟩ := h
    obtain ⟨rfl, v, p, a1, a2, rfl⟩ := readInt64_sound (x := (readInt64 wt m.end_ r).1) (Prod.ext rfl h)
    rw [a2]
    exact ⟨p, rfl, .end_ hk a1⟩
  · subst h3
    simp only [Prod.mk.injEq] at h
    obtain ⟨rfl, h⟩ := h
    obtain ⟨rfl, x, d, p, e, a1, a2, rfl⟩ := readRepeated_sound hr (matcherStep_sound hr) rfl h
    rw [e]
    exact ⟨p, rfl, .matcher hk a1 a2⟩
  · simp at h
  · subst h4
    obtain rfl : wt = 2 := by omega
    simp only [Prod.mk.injEq] at h
    obtain ⟨rfl, h⟩ := h
    obtain ⟨d, p, a1, a2, rfl⟩ := readMessage_sound hr (hintsStep_sound hr) (m' := ()) (Prod.ext rfl h)
    exact ⟨p, rfl, .hints hk a1 a2⟩
  · simp only [Prod.mk.injEq] at h
    obtain ⟨rfl, h⟩ := h
    obtain ⟨p, rfl, hu⟩ := skipUnknown_sound hr (known := fun n => n = 1 ∨ n = 2 ∨ n = 3 ∨ n = 4) (by simp [h1, h2, h3, h4]) hk h
    exact ⟨p, rfl, .other hu⟩

theorem readPacked_sound (f : Nat) : ∀ {d : Str}, readPacked f d = true → Varints d := by
  induction f with
  | zero =>
    intro d h
    cases d with
    | nil => exact .nil
    | cons b d => simp [readPacked] at h
  | succ f ih =>
    intro d h
    cases d with
    | nil => exact .nil
    | cons b d =>
      rw [readPacked] at h
      rcases hv : readVarint (b :: d) with _ | ⟨v, r⟩
      · rw [hv] at h; cases h
      · rw [hv] at h
        obtain ⟨p, a1, e⟩ := readVarint_sound hv
        rw [e]
        exact .cons a1 (ih h)

theorem readStep_sound {rt : PbRt} (hr : rt.Strict) : Sound (readStep rt) (fun m t m' => ReadField rt.utf8 m.1 t m'.1) := by
  intro m num wt k r m' r' hk h
  unfold readStep at h
  split_ifs at h with h1 h2 h3 h4
  · subst h1
    simp only [Prod.mk.injEq] at h
    obtain ⟨rfl, h⟩ := h
    obtain ⟨rfl, x, d, p, e, a1, a2, rfl⟩ := readRepeated_sound hr (queryStep_sound hr) rfl h
    simp only [e]
    exact ⟨p, rfl, .query hk a1 a2⟩
  · subst h2 h3
    rcases hv : readBytes r with _ | ⟨d, r1⟩
    · rw [hv] at h; simp at h
    · rw [hv] at h
      simp only [] at h
      split_ifs at h with hp
      · simp only [Prod.mk.injEq, Option.some.injEq] at h
        obtain ⟨rfl, rfl⟩ := h
        obtain ⟨p, a1, rfl⟩ := readBytes_sound hv
        exact ⟨p, rfl, .packed hk a1 (readPacked_sound _ hp)⟩
      · simp at h
  · subst h2 h4
    simp only [Prod.mk.injEq] at h
    obtain ⟨rfl, h⟩ := h
    rcases hv : readVarint r with _ | ⟨v, r1⟩
    · rw [hv] at h; simp at h
    · rw [hv] at h
      simp only [Option.map_some, Option.some.injEq] at h
      subst h
      obtain ⟨p, a1, rfl⟩ := readVarint_sound hv
      exact ⟨p, rfl, .accepted hk a1⟩
  · simp at h
  · simp only [Prod.mk.injEq] at h
    obtain ⟨rfl, h⟩ := h
    obtain ⟨p, rfl, hu⟩ := skipUnknown_sound hr (known := fun n => n = 1 ∨ n = 2) (by simp [h1, h2]) hk h
    exact ⟨p, rfl, .other hu⟩

theorem Built.image {M N : Type} {F : M → Str → M → Prop} {G : N → Str → N → Prop} {f : M → N} (hf : ∀ m t m', F m t m' → G (f m) t (f m')) {m0 m : M} {s : Str}
    (h : Built F m0 m s) : Built G (f m0) (f m) s := by
  induction h with
  | nil => exact .nil
  | snoc _ h1 ih => exact .snoc ih (hf _ _ _ h1)

theorem read_sound {rt : PbRt} (hr : rt.Strict) {m : List PQuery × Bool} {s : Str} (h : merge (readStep rt) ([], false) s = (m, true)) : IsRead rt.utf8 m.1 s :=
  (merge_sound (readStep_sound hr) h).image (G := ReadField rt.utf8) (f := Prod.fst) fun _ _ _ h => h

theorem write_sound {rt : PbRt} (hr : rt.Strict) {m : List PSeries} {s : Str} (h : merge (writeStep rt) [] s = (m, true)) : IsWrite rt.utf8 m s :=
  merge_sound (writeStep_sound hr) h

end Verif
