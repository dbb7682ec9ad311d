import Verif.Spec.Honest
import Verif.Lemmas.Bytes
namespace Verif
open List

/-! ### What the protobuf library reads, from any bytes -/

theorem suffix_infix {r s b : Str} (h : r <:+ s) (hs : s <:+: b) : r <:+: b := h.isInfix.trans hs

/-- A step that keeps `I` on messages and goes forward in `bytes`. -/
def KeepsIn {M : Type} (bytes : Str) (I : M → Prop) (step : M → Nat → Nat → Str → M × Option Str) : Prop :=
  ∀ m num wt s, I m → s <:+: bytes → I (step m num wt s).1 ∧ ∀ r, (step m num wt s).2 = some r → r <:+ s

theorem readTag_suffix {s r : Str} {num wt : Nat} (h : readTag s = some (num, wt, r)) : r <:+ s := by
  obtain ⟨k, -, e⟩ := readTag_sound h; exact ⟨k, e.symm⟩

theorem keeps_loop {M : Type} {bytes : Str} {I : M → Prop} {step : M → Nat → Nat → Str → M × Option Str} (hk : KeepsIn bytes I step) (f : Nat) :
    ∀ m s, I m → s <:+: bytes → I (mergeLoop step f m s).1 := by
  induction f with
  | zero => intro m s hm _; cases s <;> exact hm
  | succ f ih =>
    intro m s hm hs
    cases s with
    | nil => exact hm
    | cons b s =>
      rw [mergeLoop]
      rcases ht : readTag (b :: s) with _ | ⟨num, wt, r⟩
      · exact hm
      · simp only []
        have hr := suffix_infix (readTag_suffix ht) hs
        obtain ⟨k1, k2⟩ := hk m num wt r hm hr
        rcases he : step m num wt r with ⟨m', _ | r'⟩
        · rw [he] at k1; exact k1
        · rw [he] at k1 k2
          exact ih m' r' k1 (suffix_infix (k2 r' rfl) hr)

theorem keeps_message {M : Type} {bytes : Str} {I : M → Prop} {step : M → Nat → Nat → Str → M × Option Str} (hk : KeepsIn bytes I step) (rt : PbRt) {m : M} (hm : I m)
    {s : Str} (hs : s <:+: bytes) : I (readMessage rt step m s).1 ∧ ∀ r, (readMessage rt step m s).2 = some r → r <:+ s := by
  unfold readMessage
  rcases hv : readVarint s with _ | ⟨n, r⟩
  · exact ⟨hm, by simp⟩
  · simp only []
    obtain ⟨p, -, e⟩ := readVarint_sound hv
    have hr : r <:+ s := ⟨p, e.symm⟩
    have hrb := suffix_infix hr hs
    split
    · have h1 := keeps_loop hk (r.take n).length m (r.take n) hm ((List.take_prefix n r).isInfix.trans hrb)
      rcases he : merge step m (r.take n) with ⟨m', _ | _⟩
      · have : (merge step m (r.take n)).1 = m' := by rw [he]
        exact ⟨by rw [← this]; exact h1, by simp⟩
      · have : (merge step m (r.take n)).1 = m' := by rw [he]
        refine ⟨by rw [← this]; exact h1, fun x hx => ?_⟩
        cases hx
        exact (List.drop_suffix n r).trans hr
    · split
      · have h1 := keeps_loop hk r.length m r hm hrb
        rcases he : merge step m r with ⟨m', _ | _⟩
        · have : (merge step m r).1 = m' := by rw [he]
          exact ⟨by rw [← this]; exact h1, by simp⟩
        · have : (merge step m r).1 = m' := by rw [he]
          refine ⟨by rw [← this]; exact h1, fun x hx => ?_⟩
          cases hx
          exact List.nil_suffix
      · exact ⟨hm, by simp⟩

theorem keeps_repeated {M : Type} {bytes : Str} {I : M → Prop} {step : M → Nat → Nat → Str → M × Option Str} (hk : KeepsIn bytes I step) (rt : PbRt) {d : M} (hd : I d)
    {wt : Nat} {l : List M} (hl : ∀ m ∈ l, I m) {s : Str} (hs : s <:+: bytes) :
    (∀ m ∈ (readRepeated rt step d wt l s).1, I m) ∧ ∀ r, (readRepeated rt step d wt l s).2 = some r → r <:+ s := by
  unfold readRepeated
  split
  · exact ⟨hl, by simp⟩
  · obtain ⟨h1, h2⟩ := keeps_message hk rt hd hs
    refine ⟨fun m hm => ?_, h2⟩
    rcases List.mem_append.mp hm with hm | hm
    · exact hl m hm
    · rw [List.mem_singleton] at hm; subst hm; exact h1

theorem readRaw_suffix {n : Nat} {s p r : Str} (h : readRaw n s = some (p, r)) : r <:+ s := by
  obtain ⟨-, e⟩ := readRaw_sound h; exact ⟨p, e.symm⟩

theorem readBytes_suffix {s d r : Str} (h : readBytes s = some (d, r)) : r <:+ s := by
  obtain ⟨p, -, e⟩ := readBytes_sound h; exact ⟨p, e.symm⟩

theorem skipUnknown_suffix {rt : PbRt} (hf : rt.Forward) {wt : Nat} {s r : Str} (h : skipUnknown rt wt s = some r) : r <:+ s := by
  unfold skipUnknown at h
  split at h
  · obtain ⟨⟨v, r'⟩, h1, rfl⟩ := Option.map_eq_some_iff.mp h
    obtain ⟨p, -, e⟩ := readVarint_sound h1
    exact ⟨p, e.symm⟩
  · obtain ⟨⟨v, r'⟩, h1, rfl⟩ := Option.map_eq_some_iff.mp h
    exact readRaw_suffix h1
  · obtain ⟨⟨v, r'⟩, h1, rfl⟩ := Option.map_eq_some_iff.mp h
    exact readBytes_suffix h1
  · exact hf _ _ h
  · obtain ⟨⟨v, r'⟩, h1, rfl⟩ := Option.map_eq_some_iff.mp h
    exact readRaw_suffix h1
  · cases h

theorem sample_keeps {rt : PbRt} (hf : rt.Forward) (bytes : Str) : KeepsIn bytes (FoundIn bytes) (sampleStep rt) := by
  intro m num wt s hm hs
  unfold sampleStep
  split
  · split
    · exact ⟨hm, by simp⟩
    · rcases hv : readFixed64 s with _ | ⟨v, r⟩
      · exact ⟨hm, by simp⟩
      · obtain ⟨p, h1, h2, h3⟩ := readFixed64_sound hv
        refine ⟨⟨hm.1, .inr ⟨p, h1, List.IsInfix.trans ?_ hs, h2⟩⟩, fun x hx => ?_⟩
        · rw [h3]; exact (List.prefix_append p r).isInfix
        · cases hx; exact ⟨p, h3.symm⟩
  · split
    · rcases hv : readInt64 wt m.timestamp s with ⟨x, _ | r⟩
      · refine ⟨⟨?_, hm.2⟩, by simp⟩
        have : x = m.timestamp := by
          unfold readInt64 at hv
          split at hv
          · cases hv; rfl
          · split at hv
            · cases hv; rfl
            · cases hv
        rw [this]; exact hm.1
      · obtain ⟨-, v, p, h1, h2, h3⟩ := readInt64_sound hv
        refine ⟨⟨.inr ⟨v, p, h1, List.IsInfix.trans ?_ hs, h2⟩, hm.2⟩, fun y hy => ?_⟩
        · rw [h3]; exact (List.prefix_append p r).isInfix
        · cases hy; exact ⟨p, h3.symm⟩
    · exact ⟨hm, fun r hr => skipUnknown_suffix hf hr⟩

theorem readString_keeps (rt : PbRt) {wt : Nat} {old s : Str} (ho : rt.utf8 old = true) :
    rt.utf8 (readString rt wt old s).1 = true ∧ ∀ r, (readString rt wt old s).2 = some r → r <:+ s := by
  unfold readString
  split
  · exact ⟨ho, by simp⟩
  · rcases hb : readBytes s with _ | ⟨p, r⟩
    · exact ⟨rt.utf8nil, by simp⟩
    · simp only []
      split
      · exact ⟨by assumption, fun x hx => by cases hx; exact readBytes_suffix hb⟩
      · exact ⟨rt.utf8nil, by simp⟩

theorem label_keeps {rt : PbRt} (hf : rt.Forward) (bytes : Str) : KeepsIn bytes (LabelOk rt.utf8) (labelStep rt) := by
  intro m num wt s hm hs
  unfold labelStep
  split
  · obtain ⟨h1, h2⟩ := readString_keeps rt (wt := wt) (s := s) hm.1
    exact ⟨⟨h1, hm.2⟩, h2⟩
  · split
    · obtain ⟨h1, h2⟩ := readString_keeps rt (wt := wt) (s := s) hm.2
      exact ⟨⟨hm.1, h1⟩, h2⟩
    · exact ⟨hm, fun r hr => skipUnknown_suffix hf hr⟩

/-- A series read from these bytes. -/
def SeriesIn (u : Str → Bool) (bytes : Str) (m : PSeries) : Prop := (∀ l ∈ m.labels, LabelOk u l) ∧ ∀ x ∈ m.samples, FoundIn bytes x

theorem series_keeps {rt : PbRt} (hf : rt.Forward) (bytes : Str) : KeepsIn bytes (SeriesIn rt.utf8 bytes) (seriesStep rt) := by
  intro m num wt s hm hs
  unfold seriesStep
  split
  · obtain ⟨h1, h2⟩ := keeps_repeated (label_keeps hf bytes) rt (d := ⟨[], []⟩) ⟨rt.utf8nil, rt.utf8nil⟩ (wt := wt) hm.1 hs
    exact ⟨⟨h1, hm.2⟩, h2⟩
  · split
    · obtain ⟨h1, h2⟩ := keeps_repeated (sample_keeps hf bytes) rt (d := ⟨0#64, 0⟩) ⟨.inl rfl, .inl rfl⟩ (wt := wt) hm.2 hs
      exact ⟨⟨hm.1, h1⟩, h2⟩
    · exact ⟨hm, fun r hr => skipUnknown_suffix hf hr⟩

theorem write_keeps {rt : PbRt} (hf : rt.Forward) (bytes : Str) : KeepsIn bytes (fun m => ∀ x ∈ m, SeriesIn rt.utf8 bytes x) (writeStep rt) := by
  intro m num wt s hm hs
  unfold writeStep
  split
  · exact keeps_repeated (series_keeps hf bytes) rt (d := ⟨[], []⟩) ⟨by simp, by simp⟩ (wt := wt) hm hs
  · exact ⟨hm, fun r hr => skipUnknown_suffix hf hr⟩

theorem parseWrite_in (sn : Snappy) {rt : PbRt} (hf : rt.Forward) (bytes : Str) : ∀ x ∈ (pbFormats sn rt).parseWrite bytes, SeriesIn rt.utf8 bytes x :=
  keeps_loop (write_keeps hf bytes) bytes.length [] bytes (by simp) (List.infix_refl bytes)

/-! ### The stores -/

/-- Every point stored satisfies `U`, every series stored has labels that are strings. -/
def HonestStore (u : Str → Bool) (U : TimePoint → Prop) (s : SledStores) : Prop :=
  (∃ series, StoreInv sledKey series s.ser ∧ ∀ i, ∀ p ∈ series i, U p) ∧ ∀ i v, s.idx (encodeId i) = some v → u v = true

theorem HonestStore.mono {u : Str → Bool} {U U' : TimePoint → Prop} (hU : ∀ p, U p → U' p) {s : SledStores} (h : HonestStore u U s) : HonestStore u U' s := by
  obtain ⟨⟨series, h1, h2⟩, h3⟩ := h
  exact ⟨⟨series, h1, fun i p hp => hU p (h2 i p hp)⟩, h3⟩

theorem honest_none (u : Str → Bool) (U : TimePoint → Prop) : HonestStore u U noStores :=
  ⟨⟨fun _ => [], fun i => by simp [noStores, KV.empty], by simp⟩, by simp [noStores, KV.empty]⟩

theorem honest_create {u : Str → Bool} {U : TimePoint → Prop} {s : SledStores} (h : HonestStore u U s) {ls : Labels} (hu : u (spelled (sortLabels ls)) = true) (i : U64) :
    HonestStore u U ⟨(sledCreate s.idx ls i).2, s.ser⟩ := by
  refine ⟨h.1, fun j v hv => ?_⟩
  unfold sledCreate at hv
  split at hv
  · exact h.2 j v hv
  · simp only [sledCreateSteps] at hv
    rw [List.foldl_cons, List.foldl_cons, appendId_other _ _ _ _ (fun l => encodeId_ne_label j l)] at hv
    beta_reduce at hv
    by_cases hj : j = i
    · subst hj
      rw [KV.set_same, (encodeLabels_spelled ls).1] at hv
      cases hv; exact hu
    · rw [KV.set_other _ _ (fun e => hj (encodeId_inj e)), KV.set_other _ _ (encodeId_ne_labels j ls)] at hv
      exact h.2 j v hv

theorem honest_write {u : Str → Bool} {U : TimePoint → Prop} {s : SledStores} (h : HonestStore u U s) (i : U64) {p : TimePoint} (hp : U p) :
    HonestStore u U ⟨s.idx, (sledWrite s.ser i p).2⟩ := by
  obtain ⟨⟨series, h1, h2⟩, h3⟩ := h
  refine ⟨⟨_, (sledWrite_inv h1 i p).2, fun j x hx => ?_⟩, h3⟩
  by_cases hj : j = i
  · subst hj
    rw [upd, if_pos rfl] at hx
    rcases List.mem_append.mp hx with hx | hx
    · exact h2 j x hx
    · rw [List.mem_singleton] at hx; subst hx; exact hp
  · rw [upd, if_neg hj] at hx; exact h2 j x hx

theorem honest_insert {u : Str → Bool} {U : TimePoint → Prop} {c : Chunk SledStores} (h : HonestStore u U c.store) (B : BinSearch) {ls : Labels}
    (hu : u (spelled (sortLabels ls)) = true) {p : TimePoint} (hp : U p) : HonestStore u U (c.insert (sledComp B) ls p).2.store := by
  have hb : HonestStore u U (c.insertBody (sledComp B) ls p).2.store := by
    unfold Chunk.insertBody
    rcases (sledComp B).byLabels c.store ls with (_ | i) | e | _
    · simp only [sledComp]
      have h1 := honest_create h hu (idNext c.nextId).1
      have h2 := honest_write h1 (idNext c.nextId).1 hp
      rcases (sledCreate c.store.idx ls (idNext c.nextId).1).1 with r | e | _
      · exact h2
      · exact h1
      · exact h1
    · simp only [sledComp]
      have h2 := honest_write h i hp
      rcases (sledWrite c.store.ser i p).1 with r | e | _ <;> exact h2
    · exact h
    · exact h
  unfold Chunk.insert
  split
  · exact h
  · split
    · unfold Chunk.seal
      split <;> exact hb
    · exact h

theorem honest_insertEach {u : Str → Bool} {U : TimePoint → Prop} (B : BinSearch) {ls : Labels} (hu : u (spelled (sortLabels ls)) = true) (ps : List TimePoint)
    (hp : ∀ p ∈ ps, U p) {c : Chunk SledStores} (h : HonestStore u U c.store) : HonestStore u U (insertEach (sledComp B) c ls ps).2.store := by
  induction ps generalizing c with
  | nil => exact h
  | cons p ps ih =>
    have h1 := honest_insert h B hu (hp p (by simp))
    rw [insertEach]
    rcases hi : c.insert (sledComp B) ls p with ⟨r, c'⟩
    rw [hi] at h1
    have h2 := ih (fun x hx => hp x (by simp [hx])) h1
    rcases r with x | e | _
    · exact h2
    · simp only []
      rcases hr : insertEach (sledComp B) c' ls ps with ⟨r', c''⟩
      rw [hr] at h2
      rcases r' with n | e | _ <;> exact h2
    · exact h1

theorem honest_points {u : Str → Bool} {U : TimePoint → Prop} (B : BinSearch) {ls : Labels} (hu : u (spelled (sortLabels ls)) = true) (ps : List TimePoint)
    (hp : ∀ p ∈ ps, p.ts ≠ 0#64 → U p) {c : Chunk SledStores} (h : HonestStore u U c.store) : HonestStore u U (writeTimePoints (sledComp B) c ls ps).2.store := by
  have h1 := honest_insertEach B hu (ps.filter (keepPoint c.start_ c.end_)) (fun p hm => by
    obtain ⟨m1, m2⟩ := List.mem_filter.mp hm
    refine hp p m1 ?_
    unfold keepPoint at m2
    simp only [Bool.and_eq_true, decide_eq_true_eq] at m2
    exact m2.2) h
  unfold writeTimePoints
  rcases hr : insertEach (sledComp B) c ls (ps.filter (keepPoint c.start_ c.end_)) with ⟨r, c'⟩
  rw [hr] at h1
  rcases r with n | e | _
  · cases n <;> exact h1
  · exact h1
  · exact h1

/-! ### Queries -/

/-- What a query may report. -/
def HonestSeries (u : Str → Bool) (U : TimePoint → Prop) (ls : Labels) (ps : List TimePoint) : Prop := u (spelled ls) = true ∧ ∀ p ∈ ps, U p

theorem honest_slice {ps qs : List TimePoint} {l : Nat} {r : Option Nat} (h : sliceIncl ps l r = .ok qs) : ∀ p ∈ qs, p ∈ ps := by
  unfold sliceIncl at h
  split at h
  · cases h
  · split at h
    · cases h
      intro p hp
      exact List.mem_of_mem_take (List.mem_of_mem_drop hp)
    · cases h

theorem honest_readSeries {B : BinSearch} {ps qs : List TimePoint} {a b : U64} (h : readSeries B ps a b = .ok qs) : ∀ p ∈ qs, p ∈ ps := by
  unfold readSeries at h
  split at h
  · split at h
    · cases h
    · exact honest_slice h
  · cases h

theorem honest_readAll {u : Str → Bool} {U : TimePoint → Prop} {s : SledStores} (h : HonestStore u U s) (B : BinSearch) (a b : U64) (l : List (U64 × Labels))
    (hl : ∀ e ∈ l, ∃ v, s.idx (encodeId e.1) = some v ∧ decodeLabels v = .ok e.2) {ss : List Series} (hr : readAll (sledComp B) s a b l = .ok ss) :
    ∀ y ∈ ss, HonestSeries u U y.labels y.points := by
  obtain ⟨⟨series, h1, h2⟩, h3⟩ := h
  induction l generalizing ss with
  | nil => cases hr; simp
  | cons e l ih =>
    obtain ⟨i, ls⟩ := e
    obtain ⟨v, hv, hd⟩ := hl (i, ls) (by simp)
    simp only [] at hv hd
    rw [readAll] at hr
    have hread : (sledComp B).read s i a b = if series i = [] then .err .notFound else readSeries B (series i) a b := sledRead_eq h1 B i a b
    rw [hread] at hr
    by_cases h0 : series i = []
    · rw [if_pos h0] at hr; simp at hr
    · rw [if_neg h0] at hr
      rcases hs : readSeries B (series i) a b with d | e | _
      · rw [hs, Res.bind_ok] at hr
        rcases ht : readAll (sledComp B) s a b l with r | e | _
        · rw [ht, Res.bind_ok] at hr
          cases hr
          have i2 := ih (fun e he => hl e (by simp [he])) ht
          intro y hy
          split at hy
          · exact i2 y hy
          · rcases List.mem_cons.mp hy with rfl | hy
            · refine ⟨?_, fun p hp => h2 i p (honest_readSeries hs p hp)⟩
              show u (spelled ls) = true
              rw [decode_spelled hd]; exact h3 i v hv
            · exact i2 y hy
        · rw [ht] at hr; simp at hr
        · rw [ht] at hr; simp [Res.bind] at hr
      · rw [hs] at hr; simp at hr
      · rw [hs] at hr; simp [Res.bind] at hr

theorem honest_query {u : Str → Bool} {U : TimePoint → Prop} {c : Chunk SledStores} (h : HonestStore u U c.store) (B : BinSearch) {q : Labels} {a b : U64} {ss : List Series}
    (hr : (c.view (sledComp B)).query q a b = .ok ss) : ∀ y ∈ ss, HonestSeries u U y.labels y.points := by
  have hr : c.query (sledComp B) q a b = .ok ss := hr
  unfold Chunk.query at hr
  split at hr
  · cases hr
  · split at hr
    · have hr : (sledMetadata c.store.idx q).bind (readAll (sledComp B) c.store a b) = .ok ss := hr
      rcases hm : sledMetadata c.store.idx q with r | e | _
      · rw [hm, Res.bind_ok] at hr
        exact honest_readAll h B a b r (metadata_mem hm) hr
      · rw [hm] at hr; simp at hr
      · rw [hm] at hr; simp [Res.bind] at hr
    · cases hr

/-- The map used for merging. -/
def HonestMap (u : Str → Bool) (U : TimePoint → Prop) (m : HMap) : Prop := ∀ e ∈ m, HonestSeries u U e.1 e.2

theorem honest_modify {u : Str → Bool} {U : TimePoint → Prop} {m : HMap} (h : HonestMap u U m) (k : Labels) {f : List TimePoint → List TimePoint}
    (hf : ∀ ps, (∀ p ∈ ps, U p) → ∀ p ∈ f ps, U p) : HonestMap u U (m.modify k f) := by
  intro e he
  obtain ⟨e', he', rfl⟩ := List.mem_map.mp he
  have := h e' he'
  split
  · exact ⟨this.1, hf _ this.2⟩
  · exact this

theorem honest_mapInsert {u : Str → Bool} {U : TimePoint → Prop} {H : Hash} {m m' : HMap} (h : HonestMap u U m) {k : Labels} {v : List TimePoint}
    (hk : HonestSeries u U k v) (hm : m.insert H k v = some m') : HonestMap u U m' := by
  unfold HMap.insert at hm
  split at hm
  · cases hm
  · cases hm
    intro e he
    rcases List.mem_append.mp he with he | he
    · exact h e he
    · rw [List.mem_singleton] at he; subst he; exact hk
  · cases hm
    exact honest_modify h _ fun _ _ => hk.2

theorem honest_mapAppend {u : Str → Bool} {U : TimePoint → Prop} {H : Hash} {m m' : HMap} (h : HonestMap u U m) {k : Labels} {v : List TimePoint}
    (hk : HonestSeries u U k v) (hm : m.append H k v = some m') : HonestMap u U m' := by
  unfold HMap.append at hm
  split at hm
  · cases hm
  · exact honest_mapInsert h hk hm
  · cases hm
    refine honest_modify h _ fun ps hps p hp => ?_
    rcases List.mem_append.mp hp with hp | hp
    · exact hps p hp
    · exact hk.2 p hp

theorem honest_addSeries {u : Str → Bool} {U : TimePoint → Prop} {f : HMap → Labels → List TimePoint → Option HMap}
    (hf : ∀ m m' k v, HonestMap u U m → HonestSeries u U k v → f m k v = some m' → HonestMap u U m') (ss : List Series)
    (hs : ∀ y ∈ ss, HonestSeries u U y.labels y.points) {m m' : HMap} (h : HonestMap u U m) (hm : addSeries f m ss = some m') : HonestMap u U m' := by
  induction ss generalizing m with
  | nil => cases hm; exact h
  | cons y ss ih =>
    rw [addSeries] at hm
    rcases hx : f m y.labels y.points.reverse with _ | m1
    · rw [hx] at hm; cases hm
    · rw [hx] at hm
      have hy := hs y (by simp)
      exact ih (fun z hz => hs z (by simp [hz])) (hf _ _ _ _ h ⟨hy.1, fun p hp => hy.2 p (by simpa using hp)⟩ hx) hm

theorem honest_secondary {u : Str → Bool} {U : TimePoint → Prop} {H : Hash} {q : Labels} {a b : U64} (vs : List View)
    (hv : ∀ v ∈ vs, ∀ ss, v.query q a b = .ok ss → ∀ y ∈ ss, HonestSeries u U y.labels y.points) {m m' : HMap} (h : HonestMap u U m)
    (hm : querySecondary H q a b vs m = some m') : HonestMap u U m' := by
  induction vs generalizing m with
  | nil => cases hm; exact h
  | cons v vs ih =>
    have ih := fun {m} (h : HonestMap u U m) hm => ih (fun x hx => hv x (by simp [hx])) (m := m) h hm
    rw [querySecondary] at hm
    split at hm
    · rcases hr : v.query q a b with ss | e | _
      · rw [hr] at hm
        simp only [] at hm
        rcases hx : addSeries (HMap.append H) m ss with _ | m1
        · rw [hx] at hm; cases hm
        · rw [hx] at hm
          exact ih (honest_addSeries (fun _ _ _ _ h hk hm => honest_mapAppend h hk hm) ss (hv v (by simp) ss hr) h hx) hm
      · rw [hr] at hm; exact ih h hm
      · rw [hr] at hm; cases hm
    · exact ih h hm

theorem honest_collect {u : Str → Bool} {U : TimePoint → Prop} {H : Hash} {m : HMap} (h : HonestMap u U m) (ks : List Labels) {r : List (Labels × List TimePoint)}
    (hr : collectKeys H m ks = some r) : ∀ e ∈ r, HonestSeries u U e.1 e.2 := by
  induction ks generalizing r with
  | nil => cases hr; simp
  | cons k ks ih =>
    rw [collectKeys] at hr
    split at hr
    · cases hr
    · exact ih hr
    · split at hr
      · exact ih hr
      · rename_i x hx
        have h1 := h x (List.mem_of_find?_eq_some hx)
        split at hr
        · cases hr
        · rename_i r' hr'
          cases hr
          intro e he
          rcases List.mem_cons.mp he with rfl | he
          · exact ⟨h1.1, fun p hp => h1.2 p (by simpa using hp)⟩
          · exact ih hr' e he

theorem honest_dbQuery {u : Str → Bool} {U : TimePoint → Prop} {H : Hash} {q : Labels} {a b : U64} {cur : View} {secondary : List View}
    (hv : ∀ v ∈ cur :: secondary, ∀ ss, v.query q a b = .ok ss → ∀ y ∈ ss, HonestSeries u U y.labels y.points) {r : List (Labels × List TimePoint)}
    (hr : dbQuery H cur secondary q a b = .ok r) : ∀ e ∈ r, HonestSeries u U e.1 e.2 := by
  unfold dbQuery at hr
  split at hr
  · cases hr
  · rename_i m hm
    have h1 : HonestMap u U m := by
      unfold queryCurrent at hm
      split at hm
      · rename_i ss hs
        exact honest_addSeries (fun _ _ _ _ h hk hm => honest_mapInsert h hk hm) ss (hv cur (by simp) ss hs) (by intro e he; cases he) hm
      · cases hm; intro e he; cases he
      · cases hm
    split at hr
    · cases hr
    · rename_i m' hm'
      have h2 := honest_secondary secondary.reverse (fun v hv' => hv v (by simp only [List.mem_reverse] at hv'; simp [hv'])) h1 hm'
      rcases hc : collectKeys H m' (H.order (m'.map (·.1))) with _ | r'
      · rw [hc] at hr; cases hr
      · rw [hc] at hr; cases hr
        exact honest_collect h2 _ hc

/-! ### The machine -/

/-- All that is stored satisfies `U`. -/
structure HonestDb (u : Str → Bool) (U : TimePoint → Prop) (db : LiveDb) : Prop where
  cur : HonestStore u U db.cur.store
  secondary : ∀ c ∈ db.secondary, HonestStore u U c.store
  old : ∀ s ∈ db.old, HonestStore u U s.stores

theorem HonestDb.mono {u : Str → Bool} {U U' : TimePoint → Prop} (hU : ∀ p, U p → U' p) {db : LiveDb} (h : HonestDb u U db) : HonestDb u U' db :=
  ⟨h.cur.mono hU, fun c hc => (h.secondary c hc).mono hU, fun s hs => (h.old s hs).mono hU⟩

theorem HonestDb.slots {u : Str → Bool} {U : TimePoint → Prop} {db : LiveDb} (h : HonestDb u U db) : ∀ s ∈ db.slots, HonestStore u U s.stores := by
  intro s hs
  rcases List.mem_append.mp hs with hs | hs
  · exact h.old s hs
  · rw [List.mem_singleton] at hs; subst hs; exact h.cur

theorem HonestDb.write {u : Str → Bool} {U : TimePoint → Prop} (B : BinSearch) (H : Hash) (m : List PSeries)
    (hu : ∀ ser ∈ m, u (spelled (sortLabels ser.labels)) = true) (hU : ∀ ser ∈ m, ∀ x ∈ ser.samples, x.point.ts ≠ 0#64 → U x.point) {db : LiveDb} (h : HonestDb u U db) :
    HonestDb u U (serverWrite (liveApi B H) db m).2 := by
  induction m generalizing db with
  | nil => exact h
  | cons s m ih =>
    have hst : (liveApi B H).write db (ofSeries s).1 (ofSeries s).2 = ((writeTimePoints (sledComp B) db.cur (ofSeries s).1 (ofSeries s).2).1,
      { db with cur := (writeTimePoints (sledComp B) db.cur (ofSeries s).1 (ofSeries s).2).2 }) := rfl
    have h1 : HonestDb u U { db with cur := (writeTimePoints (sledComp B) db.cur (ofSeries s).1 (ofSeries s).2).2 } :=
      ⟨honest_points B (hu s (by simp)) _ (fun p hp => by
        obtain ⟨x, hx, rfl⟩ := List.mem_map.mp hp
        exact hU s (by simp) x hx) h.cur, h.secondary, h.old⟩
    rw [serverWrite, hst]
    rcases hr : (writeTimePoints (sledComp B) db.cur (ofSeries s).1 (ofSeries s).2).1 with x | e | _
    · exact ih (fun x hx => hu x (by simp [hx])) (fun x hx => hU x (by simp [hx])) h1
    · exact h1
    · exact h1

theorem honest_readChunks {u : Str → Bool} {U : TimePoint → Prop} (base : Str) (clock : Str → U64) (ss : List Slot) (h : ∀ s ∈ ss, HonestStore u U s.stores)
    {cs : List (Chunk SledStores)} (hr : readChunks base clock ss = some cs) : ∀ c ∈ cs, HonestStore u U c.store := by
  induction ss generalizing cs with
  | nil => cases hr; simp
  | cons s ss ih =>
    have ih := fun {cs} hr => ih (fun x hx => h x (by simp [hx])) (cs := cs) hr
    rw [readChunks] at hr
    rcases hs : s.reopen base clock with _ | _ | c
    · rw [hs] at hr; cases hr
    · rw [hs] at hr; exact ih hr
    · rw [hs] at hr
      obtain ⟨cs', h1, rfl⟩ := Option.map_eq_some_iff.mp hr
      have hc : HonestStore u U c.store := by
        have h0 := h s (by simp)
        unfold Slot.reopen at hs
        split at hs
        · cases hs
        · cases hs
        · cases hs
          unfold Chunk.close
          split <;> exact h0
      intro x hx
      rcases List.mem_cons.mp hx with rfl | hx
      · exact hc
      · exact ih h1 x hx

theorem HonestDb.step {u : Str → Bool} {U : TimePoint → Prop} {db : LiveDb} (h : HonestDb u U db) (B : BinSearch) (base : Str) (size : U64) :
    (∀ r db', db.step B base size (.tick r) = some db' → HonestDb u U db') ∧
    ∀ o k n db', (∀ l, (o l).Perm l) → db.step B base size (.restart o k n) = some db' → HonestDb u U db' := by
  refine ⟨fun r db' e => ?_, fun o k n db' ho e => ?_⟩
  · cases e
    refine ⟨honest_none _ _, fun c hc => ?_, h.slots⟩
    rcases List.mem_append.mp hc with hc | hc
    · exact h.secondary c hc
    · rw [List.mem_singleton] at hc; subst hc
      unfold Chunk.close
      split <;> exact h.cur
  · obtain ⟨cs, h1, rfl⟩ := Option.map_eq_some_iff.mp e
    obtain ⟨cs', h2, rfl⟩ := Option.map_eq_some_iff.mp h1
    have hs : ∀ s ∈ o db.slots, HonestStore u U s.stores := fun s hs => h.slots s ((ho _).mem_iff.mp hs)
    exact ⟨honest_none _ _, fun c hc => honest_readChunks base k _ hs h2 c ((stableSort_perm _ _).mem_iff.mp hc), hs⟩

/-- The answer to one query of a read, in wire form. -/
def HonestResult (U : TimePoint → Prop) (r : List PSeries) : Prop := ∀ y ∈ r, ∀ z ∈ y.samples, ∃ p, U p ∧ z = asReported p

theorem HonestDb.read {rt : PbRt} (hcut : CutsAtAscii rt.utf8) {U : TimePoint → Prop} (B : BinSearch) (H : Hash) {db : LiveDb} (h : HonestDb rt.utf8 U db)
    (qs : List PQuery) {rs : List (List PSeries)} (hr : serverQuery (liveApi B H) db qs = .ok rs) :
    (∀ r ∈ rs.map (·.map wireSeries), HonestResult U r) ∧ ∀ r ∈ rs, ∀ x ∈ r, SeriesOk rt.utf8 x := by
  unfold serverQuery at hr
  have hone : ∀ r ∈ rs, (∀ y ∈ r.map wireSeries, ∀ z ∈ y.samples, ∃ p, U p ∧ z = asReported p) ∧ ∀ x ∈ r, SeriesOk rt.utf8 x := by
    intro r hm
    obtain ⟨q, -, hq⟩ := mapM_mem hr r hm
    unfold answerQuery at hq
    split at hq
    · rename_i es he
      cases hq
      have he : dbQuery H (db.cur.view (sledComp B)) (db.secondary.map fun c => c.view (sledComp B)) (q.matchers.map ofMatcher) (asU64 q.start_) (asU64 q.end_) = .ok es := he
      have hes := honest_dbQuery (u := rt.utf8) (U := U) (by
        intro v hv ss hs
        rcases List.mem_cons.mp hv with rfl | hv
        · exact honest_query h.cur B hs
        · obtain ⟨c, hc, rfl⟩ := List.mem_map.mp hv
          exact honest_query (h.secondary c hc) B hs) he
      refine ⟨fun y hy z hz => ?_, fun x hx => ?_⟩
      · rw [List.map_map] at hy
        obtain ⟨e, he', rfl⟩ := List.mem_map.mp hy
        simp only [Function.comp, wireSeries, toSeries, List.map_map, List.mem_map] at hz
        obtain ⟨p, hp, rfl⟩ := hz
        exact ⟨p, (hes e he').2 p hp, rfl⟩
      · obtain ⟨e, he', rfl⟩ := List.mem_map.mp hx
        exact toSeries_ok ((utf8_spelled hcut rt.utf8nil e.1).mp (hes e he').1)
    · cases hq; simp
    · cases hq
  refine ⟨fun r hm => ?_, fun r hm => (hone r hm).2⟩
  obtain ⟨r', hr', rfl⟩ := List.mem_map.mp hm
  exact (hone r' hr').1

/-- Any request, whatever it does. -/
theorem honest_process {rt : PbRt} (hf : rt.Forward) (hcut : CutsAtAscii rt.utf8) (sn : Snappy) (P : Paths) {U : TimePoint → Prop} (B : BinSearch) (H : Hash) {db : LiveDb}
    (h : HonestDb rt.utf8 U db) (r : Request) (hU : ∀ p, SentBy sn rt P r p → U p) :
    HonestDb rt.utf8 U (process (liveApi B H) (pbFormats sn rt) P db r).2 := by
  obtain ⟨url, rb⟩ := r
  unfold process
  rcases rb with _ | body
  · exact h
  rcases hd : (pbFormats sn rt).decompress body with _ | bytes
  · simp only [hd]; exact h
  simp only [hd]
  by_cases hu : url = P.read
  · rw [if_pos hu]
    rcases (pbFormats sn rt).parseRead bytes with _ | req
    · exact h
    · simp only []
      split
      · exact h
      · rcases serverQuery (liveApi B H) db req.queries with res | e | _ <;> exact h
  · rw [if_neg hu]
    by_cases hw : url = P.write
    · rw [if_pos hw]
      have hin := parseWrite_in sn hf bytes
      have h1 := h.write B H ((pbFormats sn rt).parseWrite bytes)
        (fun ser hs => (utf8_spelled hcut rt.utf8nil _).mpr fun l hl => (hin ser hs).1 l ((sortLabels_mem _ _).mp hl))
        (fun ser hs x hx h0 => hU _ ⟨hw, body, bytes, rfl, hd, h0, x, rfl, (hin ser hs).2 x hx, fun m hm => by
          rw [← C59_write sn rt hm]; exact ⟨ser, hs, hx⟩⟩)
      rcases hs : serverWrite (liveApi B H) db ((pbFormats sn rt).parseWrite bytes) with ⟨o, db'⟩
      rw [hs] at h1
      rcases o with x | e | _ <;> exact h1
    · rw [if_neg hw]; exact h

/-- One event. -/
theorem honest_step {rt : PbRt} (hf : rt.Forward) (hcut : CutsAtAscii rt.utf8) (sn : Snappy) (P : Paths) {U : TimePoint → Prop} (B : BinSearch) (H : Hash) (base : Str)
    (size : U64) {h : Host} (hd : HonestDb rt.utf8 U h.db) {e : HostEvent} (he : e.lists) (hU : ∀ r p, e = .request r → SentBy sn rt P r p → U p) :
    HonestDb rt.utf8 U (h.stepNamed B H (pbFormats sn rt) P base size e).2.db := by
  cases e with
  | request r =>
    simp only [Host.stepNamed]
    by_cases hu : h.up = true
    · rw [if_pos hu]
      have h1 := honest_process hf hcut sn P B H hd r (fun p => hU r p rfl)
      rcases hp : process (liveApi B H) (pbFormats sn rt) P h.db r with ⟨_ | x, db'⟩
      · rw [hp] at h1; exact h1
      · rw [hp] at h1; exact h1
    · rw [if_neg hu]; exact hd
  | tick r =>
    simp only [Host.stepNamed, LiveDb.stepNamed]
    by_cases hu : h.up = true
    · rw [if_pos hu]
      by_cases ht : h.db.taken (r + 1) (r + 1 + size) = true
      · rw [if_pos ht]; exact hd
      · rw [if_neg ht]
        rcases hs : h.db.step B base size (.tick r) with _ | db'
        · exact hd
        · exact (hd.step B base size).1 r db' hs
    · rw [if_neg hu]; exact hd
  | restart o k n =>
    simp only [Host.stepNamed, LiveDb.stepNamed]
    by_cases ht : h.db.taken n (n + size) = true
    · rw [if_pos ht]; exact hd
    · rw [if_neg ht]
      rcases hs : h.db.step B base size (.restart o k n) with _ | db'
      · exact hd
      · exact (hd.step B base size).2 o k n db' he hs

/-- A history. -/
theorem honest_run {rt : PbRt} (hf : rt.Forward) (hcut : CutsAtAscii rt.utf8) (sn : Snappy) (P : Paths) {U : TimePoint → Prop} (B : BinSearch) (H : Hash) (base : Str)
    (size : U64) (es : List HostEvent) (he : ∀ e ∈ es, e.lists) (hU : ∀ r p, .request r ∈ es → SentBy sn rt P r p → U p) {h : Host} (hd : HonestDb rt.utf8 U h.db) :
    HonestDb rt.utf8 U (h.runNamed B H (pbFormats sn rt) P base size es).2.db := by
  induction es generalizing h with
  | nil => exact hd
  | cons e es ih =>
    exact ih (fun x hx => he x (by simp [hx])) (fun r p hr => hU r p (by simp [hr]))
      (honest_step hf hcut sn P B H base size hd (he e (by simp)) fun r p e' => hU r p (by simp [e']))

theorem fresh_honest (u : Str → Bool) (U : TimePoint → Prop) (size now : U64) : HonestDb u U (Host.fresh size now).db :=
  ⟨honest_none _ _, by simp [Host.fresh, LiveDb.fresh], by simp [Host.fresh, LiveDb.fresh]⟩

end Verif
