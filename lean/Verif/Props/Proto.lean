import Verif.Lemmas.ProtoEnc
import Verif.Props.Server
/-! Properties C59-C62: the bytes of the remote read/write protocol. -/
namespace Verif

/-- A runtime for examples: every string valid, no groups, no overrun. -/
def exRt : PbRt := ⟨fun _ => true, fun _ => none, fun _ _ => false, by simp, rfl⟩
/-- The identity as compression, for examples. -/
def exSnappy : Snappy := ⟨id, some, fun _ => rfl⟩

/-! ### C59 -/

/-- C59: whatever encoder produced it, a valid encoding of a write request is understood as exactly that request. -/
theorem C59_write (sn : Snappy) (rt : PbRt) {m : List PSeries} {s : Str} (h : IsWrite rt.utf8 m s) : (pbFormats sn rt).parseWrite s = m := by
  show (merge (writeStep rt) [] s).1 = m
  rw [built_merge (writeStep_understands rt) h]

/-- C59: so is a read request with at least one query. -/
theorem C59_read (sn : Snappy) (rt : PbRt) {qs : List PQuery} {s : Str} (h : IsRead rt.utf8 qs s) (hq : qs ≠ []) :
    (pbFormats sn rt).parseRead s = some ⟨qs, false⟩ := by
  obtain ⟨b, hb⟩ := read_merge rt h
  show (match merge (readStep rt) ([], false) s with | (m, true) => some (⟨m.1, m.1.isEmpty && !m.2⟩ : ReadReq) | (_, false) => none) = _
  rw [hb]
  cases qs with
  | nil => exact absurd rfl hq
  | cons q qs => rfl

/-- C59: no byte string encodes two different write requests. -/
theorem C59_write_unique (rt : PbRt) {m m' : List PSeries} {s : Str} (h : IsWrite rt.utf8 m s) (h' : IsWrite rt.utf8 m' s) : m = m' :=
  (C59_write exSnappy rt h).symm.trans (C59_write exSnappy rt h')

/-- C59: nor two different read requests. -/
theorem C59_read_unique (rt : PbRt) {qs qs' : List PQuery} {s : Str} (h : IsRead rt.utf8 qs s) (h' : IsRead rt.utf8 qs' s) : qs = qs' := by
  obtain ⟨b, hb⟩ := read_merge rt h
  obtain ⟨b', hb'⟩ := read_merge rt h'
  rw [hb] at hb'
  simp only [Prod.mk.injEq] at hb'
  exact hb'.1.1

/-- C59: the writer of the same messages produces valid encodings, so that what one side writes the other reads; only the sign of a
zero gets lost. -/
theorem C59_roundtrip (sn : Snappy) (rt : PbRt) (m : List PSeries) (h : ∀ s ∈ m, SeriesOk rt.utf8 s) (hb : (encWrite m).length < 2 ^ 32) :
    (pbFormats sn rt).parseWrite (encWrite m) = m.map wireSeries := C59_write sn rt (encWrite_is h hb)

theorem C59_read_roundtrip (sn : Snappy) (rt : PbRt) (qs : List PQuery) (hne : qs ≠ []) (h : ∀ q ∈ qs, QueryOk rt.utf8 q) (hb : (encRead qs).length < 2 ^ 32) :
    (pbFormats sn rt).parseRead (encRead qs) = some ⟨qs, false⟩ := C59_read sn rt (encRead_is h hb) hne

/-- C59: the sizes written in front of nested messages are the lengths of their encodings. -/
theorem C59_sizes (s : PSeries) (r : List PSeries) (q : PQuery) :
    sizeSeries s = (encSeries s).length ∧ sizeResult r = (encResult r).length ∧ sizeQuery q = (encQuery q).length :=
  ⟨(encSeries_size s).symm, (encResult_size r).symm, (encQuery_size q).symm⟩

/-- Example: a request in which the samples come before the labels, with a long varint, an unknown field (exemplars, field 3) and a
label given twice. -/
def exWire : Str :=
  -- series, 24 bytes
  [0x0a, 24,
   -- sample: value 1.0, timestamp 300 in three bytes
   0x12, 13, 0x09, 0, 0, 0, 0, 0, 0, 0xf0, 0x3f, 0x10, 0xac, 0x82, 0x00,
   -- unknown field 3: two bytes
   0x1a, 2, 7, 7,
   -- label a with empty value
   0x0a, 3, 0x0a, 1, 97]

example : (pbFormats exSnappy exRt).parseWrite exWire = [⟨[⟨[97#8], []⟩], [⟨0x3ff0000000000000#64, 300⟩]⟩] := by decide +kernel

theorem isVarint_of {v : Nat} {s : Str} (h : VarintOf v s) (hl : s.length ≤ 10) (hv : v < 2 ^ 64) : IsVarint v s :=
  ⟨v, h, hl, (Nat.mod_eq_of_lt hv).symm⟩

/-- A read request has one meaning: the hypotheses of C59_read_unique hold. -/
example (qs : List PQuery) (h : IsRead exRt.utf8 qs (encRead [wireQuery [lbl "a" "1"] 5#64 1550#64])) : qs = [wireQuery [lbl "a" "1"] 5#64 1550#64] :=
  C59_read_unique exRt h (encRead_is (by
    intro q hq
    simp only [List.mem_singleton] at hq
    subst hq
    exact ⟨⟨by decide, by decide⟩, ⟨by decide, by decide⟩, fun _ _ => ⟨rfl, rfl⟩⟩) (by decide +kernel))

/-- The example is a valid encoding. -/
theorem exWire_valid : IsWrite exRt.utf8 [⟨[⟨[97#8], []⟩], [⟨0x3ff0000000000000#64, 300⟩]⟩] exWire := by
  have v1 : ∀ b : Byte, b.toNat < 128 → IsVarint b.toNat [b] := fun b hb => isVarint_of (VarintOf.last b hb) (by simp) (by omega)
  have key : ∀ num wt (b : Byte), 8 * num + wt = b.toNat → b.toNat < 128 → 0 < num → (hw : wt < 8 := by decide) → IsKey num wt [b] := fun num wt b h1 h2 h3 hw =>
    ⟨b.toNat, v1 b h2, by rw [h1]; omega, hw, h3⟩
  have delim : ∀ (b : Byte) (d : Str), d.length = b.toNat → b.toNat < 128 → IsDelimited d (b :: d) := fun b d h1 h2 =>
    ⟨b.toNat, [b], v1 b h2, by rw [h1]; omega, rfl⟩
  have nest : ∀ (b : Byte) (d : Str), d.length = b.toNat → b.toNat < 128 → IsNested d (b :: d) := fun b d h1 h2 =>
    ⟨[b], by rw [h1]; exact v1 b h2, rfl⟩
  have s300 : IsVarint 300 [0xac#8, 0x82#8, 0x00#8] :=
    isVarint_of (VarintOf.more 0xac#8 2 _ (by decide) (VarintOf.more 0x82#8 0 _ (by decide) (VarintOf.last 0x00#8 (by decide)))) (by decide) (by decide)
  have sample : IsSample ⟨0x3ff0000000000000#64, 300⟩ ([0x09, 0, 0, 0, 0, 0, 0, 0xf0, 0x3f] ++ [0x10, 0xac, 0x82, 0x00]) := by
    have h1 := SampleField.value (m := ⟨0#64, 0⟩) (key 1 1 0x09#8 (by decide) (by decide) (by decide)) (p := [0, 0, 0, 0, 0, 0, 0xf0, 0x3f]) (by decide)
    have h2 := SampleField.timestamp (m := ⟨0x3ff0000000000000#64, 0⟩) (key 2 0 0x10#8 (by decide) (by decide) (by decide)) s300
    exact (Built.one h1).append (Built.one h2)
  have label : IsLabel exRt.utf8 ⟨[97#8], []⟩ [0x0a, 1, 97] := by
    have h1 := LabelField.name (utf8 := exRt.utf8) (m := ⟨[], []⟩) (key 1 2 0x0a#8 (by decide) (by decide) (by decide)) (delim 1#8 [97#8] (by decide) (by decide)) rfl
    exact Built.one h1
  have series : IsSeries exRt.utf8 ⟨[⟨[97#8], []⟩], [⟨0x3ff0000000000000#64, 300⟩]⟩
      (([0x12, 13, 0x09, 0, 0, 0, 0, 0, 0, 0xf0, 0x3f, 0x10, 0xac, 0x82, 0x00] ++ [0x1a, 2, 7, 7]) ++ [0x0a, 3, 0x0a, 1, 97]) := by
    have h1 := SeriesField.sample (utf8 := exRt.utf8) (m := ⟨[], []⟩) (key 2 2 0x12#8 (by decide) (by decide) (by decide))
      (nest 13#8 _ (by decide) (by decide)) sample
    have h2 : SeriesField exRt.utf8 ⟨[], [⟨0x3ff0000000000000#64, 300⟩]⟩ [0x1a, 2, 7, 7] ⟨[], [⟨0x3ff0000000000000#64, 300⟩]⟩ :=
      SeriesField.other (UnknownField.bytes (num := 3) (k := [0x1a#8]) (by decide) (key 3 2 0x1a#8 (by decide) (by decide) (by decide))
        (delim 2#8 [7, 7] (by decide) (by decide)))
    have h3 := SeriesField.label (utf8 := exRt.utf8) (m := ⟨[], [⟨0x3ff0000000000000#64, 300⟩]⟩) (key 1 2 0x0a#8 (by decide) (by decide) (by decide))
      (nest 3#8 _ (by decide) (by decide)) label
    exact ((Built.one h1).append (Built.one h2)).append (Built.one h3)
  have := WriteField.series (utf8 := exRt.utf8) (m := []) (key 1 2 0x0a#8 (by decide) (by decide) (by decide)) (nest 24#8 _ (by decide) (by decide)) series
  exact Built.one this

example : (pbFormats exSnappy exRt).parseWrite exWire = [⟨[⟨[97#8], []⟩], [⟨0x3ff0000000000000#64, 300⟩]⟩] := C59_write exSnappy exRt exWire_valid
example : (pbFormats exSnappy exRt).parseWrite (encWrite exRequest) = exRequest.map wireSeries :=
  C59_roundtrip exSnappy exRt exRequest (fun s _ => ⟨fun _ _ => ⟨rfl, rfl⟩, by
    intro x hx
    have : ∀ s ∈ exRequest, ∀ x ∈ s.samples, -2 ^ 63 ≤ x.timestamp ∧ x.timestamp < 2 ^ 63 := by decide +kernel
    exact this s ‹_› x hx⟩) (by decide +kernel)
example : (pbFormats exSnappy exRt).parseRead (encRead [wireQuery [lbl "a" "1"] 5#64 1550#64]) = some ⟨[wireQuery [lbl "a" "1"] 5#64 1550#64], false⟩ :=
  C59_read_roundtrip exSnappy exRt _ (by simp) (by
    intro q hq
    simp only [List.mem_singleton] at hq
    subst hq
    exact ⟨⟨by decide, by decide⟩, ⟨by decide, by decide⟩, fun _ _ => ⟨rfl, rfl⟩⟩) (by decide +kernel)

/-! ### C60 -/

/-- One field of a response, for reading it back. -/
def responseStep (rt : PbRt) (m : List (List PSeries)) (num wt : Nat) (s : Str) : List (List PSeries) × Option Str :=
  if num = 1 then readRepeated rt (writeStep rt) [] wt m s
  else (m, skipUnknown rt wt s)

theorem responseStep_understands (rt : PbRt) : Understands (responseStep rt) (ResponseField rt.utf8) := by
  intro m t m' rest h
  cases h with
  | result h1 h2 h3 =>
    exact ⟨by simp [h1.ne_nil], _, _, _, by rw [List.append_assoc]; exact readTag_of h1 (by decide) _,
      by simp [responseStep, readRepeated_of rt (writeStep_understands rt) h3 h2]⟩
  | other h1 =>
    obtain ⟨hn, num, wt, r, e1, e2, -, e3⟩ := unknown_of rt h1 rest
    exact ⟨hn, num, wt, r, e1, by simp [responseStep, e2, e3]⟩

theorem response_unique (rt : PbRt) {m m' : List (List PSeries)} {s : Str} (h : IsResponse rt.utf8 m s) (h' : IsResponse rt.utf8 m' s) : m = m' := by
  have e := built_merge (responseStep_understands rt) h
  have e' := built_merge (responseStep_understands rt) h'
  rw [e] at e'
  exact (Prod.mk.injEq _ _ _ _ ▸ e').1

/-- No sample is the negative zero. -/
def NoNegZero (s : PSeries) : Prop := ∀ x ∈ s.samples, x.value ≠ 0x8000000000000000#64

theorem wireSeries_id {s : PSeries} (h : NoNegZero s) : wireSeries s = s := by
  obtain ⟨ls, xs⟩ := s
  unfold wireSeries
  congr 1
  conv_rhs => rw [← List.map_id xs]
  refine List.map_congr_left fun x hx => ?_
  unfold wireSample wireValue
  rw [if_neg (h x hx)]; rfl

/-- What holds of C60: the body of a response is a valid encoding of exactly one list of results, namely the results with every
negative zero replaced by the positive one. -/
theorem C60_response_partial (sn : Snappy) (rt : PbRt) (rs : List (List PSeries)) (h : ∀ r ∈ rs, ∀ s ∈ r, SeriesOk rt.utf8 s)
    (hb : (encResponse rs).length < 2 ^ 32) :
    ∃ out, sn.decompress ((pbFormats sn rt).respond rs) = some out ∧ ∀ m, IsResponse rt.utf8 m out ↔ m = rs.map (·.map wireSeries) :=
  ⟨_, sn.undo _, fun _ => ⟨fun hm => response_unique rt hm (encResponse_is h hb), fun e => e ▸ encResponse_is h hb⟩⟩

/-- C60, without negative zeros: the client reads back exactly the results. -/
theorem C60_exact_partial (sn : Snappy) (rt : PbRt) (rs : List (List PSeries)) (h : ∀ r ∈ rs, ∀ s ∈ r, SeriesOk rt.utf8 s ∧ NoNegZero s)
    (hb : (encResponse rs).length < 2 ^ 32) :
    ∃ out, sn.decompress ((pbFormats sn rt).respond rs) = some out ∧ ∀ m, IsResponse rt.utf8 m out ↔ m = rs := by
  obtain ⟨out, h1, h2⟩ := C60_response_partial sn rt rs (fun r hr s hs => (h r hr s hs).1) hb
  have : rs.map (·.map wireSeries) = rs := by
    conv_rhs => rw [← List.map_id rs]
    refine List.map_congr_left fun r hr => ?_
    show r.map wireSeries = r
    conv_rhs => rw [← List.map_id r]
    exact List.map_congr_left fun s hs => wireSeries_id (h r hr s hs).2
  rw [this] at h2
  exact ⟨out, h1, h2⟩

/-- C60 fails for every result with a negative zero in it: no client can read it back. -/
theorem C60_violated (sn : Snappy) (rt : PbRt) (rs : List (List PSeries)) (h : ∀ r ∈ rs, ∀ s ∈ r, SeriesOk rt.utf8 s)
    (hb : (encResponse rs).length < 2 ^ 32) (hz : ∃ r ∈ rs, ∃ s ∈ r, ¬NoNegZero s) :
    ∃ out, sn.decompress ((pbFormats sn rt).respond rs) = some out ∧ ¬IsResponse rt.utf8 rs out := by
  obtain ⟨out, h1, h2⟩ := C60_response_partial sn rt rs h hb
  refine ⟨out, h1, fun hm => ?_⟩
  have e := (h2 rs).mp hm
  obtain ⟨r, hr, s, hs, hz⟩ := hz
  have hall : ∀ r' ∈ rs.map (·.map wireSeries), ∀ s' ∈ r', NoNegZero s' := by
    intro r' hr' s' hs'
    obtain ⟨r0, -, rfl⟩ := List.mem_map.mp hr'
    obtain ⟨s0, -, rfl⟩ := List.mem_map.mp hs'
    intro x hx
    obtain ⟨x0, -, rfl⟩ := List.mem_map.mp hx
    unfold wireSample wireValue
    simp only []
    split_ifs with hx0
    · decide
    · exact hx0
  rw [← e] at hall
  exact hz (hall r hr s hs)

-- a stored −0.0 at time 5
example : ∃ out, exSnappy.decompress ((pbFormats exSnappy exRt).respond [[⟨[lbl "a" "1"], [⟨0x8000000000000000#64, 5⟩]⟩]]) = some out ∧
    ¬IsResponse exRt.utf8 [[⟨[lbl "a" "1"], [⟨0x8000000000000000#64, 5⟩]⟩]] out :=
  C60_violated exSnappy exRt _ (by
    intro r hr s hs
    simp only [List.mem_singleton] at hr; subst hr
    simp only [List.mem_singleton] at hs; subst hs
    exact ⟨fun _ _ => ⟨rfl, rfl⟩, by intro x hx; simp only [List.mem_singleton] at hx; subst hx; exact ⟨by decide, by decide⟩⟩)
    (by decide +kernel) ⟨_, List.mem_singleton_self _, _, List.mem_singleton_self _, fun h => h _ (List.mem_singleton_self _) rfl⟩
-- and a result without one
example : ∃ out, exSnappy.decompress ((pbFormats exSnappy exRt).respond [[⟨[lbl "a" "1"], [⟨1#64, -5⟩, ⟨0#64, 7⟩]⟩], []]) = some out ∧
    ∀ m, IsResponse exRt.utf8 m out ↔ m = [[⟨[lbl "a" "1"], [⟨1#64, -5⟩, ⟨0#64, 7⟩]⟩], []] :=
  C60_exact_partial exSnappy exRt _ (by
    intro r hr s hs
    simp only [List.mem_cons, List.not_mem_nil, or_false] at hr
    rcases hr with rfl | rfl
    · simp only [List.mem_singleton] at hs; subst hs
      refine ⟨⟨fun _ _ => ⟨rfl, rfl⟩, ?_⟩, ?_⟩
      · intro x hx; simp only [List.mem_cons, List.not_mem_nil, or_false] at hx; rcases hx with rfl | rfl <;> exact ⟨by decide, by decide⟩
      · intro x hx; simp only [List.mem_cons, List.not_mem_nil, or_false] at hx; rcases hx with rfl | rfl <;> decide
    · simp at hs) (by decide +kernel)

/-! ### C61 -/

/-- A tag of field number zero is an error wherever it occurs. -/
theorem readTag_zero (t : Str) : readTag (0#8 :: t) = none := by
  simp [readTag, readVarint32, readVarint, readVarintFrom]

/-- C61 fails: after a valid request `s`, an error in the bytes is not reported; the rest of the body, whatever it contains, is
ignored, and the answer is the answer to `s` alone. -/
theorem C61_violated {δ : Type} (D : DbApi δ) (sn : Snappy) (rt : PbRt) (P : Paths) (hP : P.read ≠ P.write) (db : δ) {m : List PSeries} {s : Str}
    (h : IsWrite rt.utf8 m s) (t : Str) :
    process D (pbFormats sn rt) P db ⟨P.write, some (sn.compress (s ++ 0#8 :: t))⟩ = process D (pbFormats sn rt) P db ⟨P.write, some (sn.compress s)⟩ ∧
    (merge (writeStep rt) [] (s ++ 0#8 :: t)).2 = false ∧ ∀ m', ¬IsWrite rt.utf8 m' (s ++ 0#8 :: t) := by
  have hm : merge (writeStep rt) [] (s ++ 0#8 :: t) = (m, false) := by
    obtain ⟨f', h1, h2⟩ := built_loop (writeStep_understands rt) h (s ++ 0#8 :: t).length (0#8 :: t) (le_refl _)
    unfold merge
    rw [h2]
    obtain ⟨g, rfl⟩ : ∃ g, f' = g + 1 := ⟨f' - 1, by simp at h1; omega⟩
    rw [mergeLoop, readTag_zero]
  refine ⟨?_, by rw [hm], fun m' h' => ?_⟩
  · rw [C48_status D (pbFormats sn rt) P hP db _ (s ++ 0#8 :: t) (sn.undo _), C48_status D (pbFormats sn rt) P hP db _ s (sn.undo _)]
    have e1 : (pbFormats sn rt).parseWrite (s ++ 0#8 :: t) = m := by show (merge _ _ _).1 = m; rw [hm]
    rw [e1, C59_write sn rt h]
  · have := built_merge (writeStep_understands rt) h'
    rw [hm] at this
    simp at this

/-- A database that stores nothing and always succeeds, for examples. -/
def nullDb : DbApi Unit := ⟨fun _ _ _ _ => .ok [], fun _ _ _ => (.ok (), ())⟩

-- the empty request followed by garbage, or by a whole request that was damaged: accepted with 200
example (P : Paths) (hP : P.read ≠ P.write) (t : Str) :
    (process nullDb (pbFormats exSnappy exRt) P () ⟨P.write, some (exSnappy.compress (encWrite exRequest ++ 0#8 :: t))⟩).1 = some ⟨200, []⟩ := by
  rw [(C61_violated nullDb exSnappy exRt P hP () (encWrite_is (utf8 := exRt.utf8) (m := exRequest) (fun s hs => ⟨fun _ _ => ⟨rfl, rfl⟩, by
    intro x hx
    have : ∀ s ∈ exRequest, ∀ x ∈ s.samples, -2 ^ 63 ≤ x.timestamp ∧ x.timestamp < 2 ^ 63 := by decide +kernel
    exact this s hs x hx⟩) (by decide +kernel)) t).1]
  rw [C48_status nullDb _ P hP () _ _ (exSnappy.undo _)]
  have : ∀ ss, serverWrite nullDb () ss = (.ok (), ()) := by
    intro ss; induction ss with
    | nil => rfl
    | cons s ss ih => exact ih
  rw [this]

/-- The request with one series `{a=1}` and one sample (300, 1.0). -/
def exOne : List PSeries := [⟨[lbl "a" "1"], [⟨0x3ff0000000000000#64, 300⟩]⟩]

/-- C61 fails for truncated requests as well: the request for one sample, cut 12 bytes before its end, is answered by 200 although
the sample is lost, whatever the runtime does about lengths that exceed the data. -/
theorem C61_violated_truncated (B : BinSearch) (H : Hash) (sn : Snappy) (rt : PbRt) (P : Paths) (hP : P.read ≠ P.write) (hu : ∀ s, rt.utf8 s = true)
    (c : Chunk SledStores) :
    process (sledDb B H []) (pbFormats sn rt) P c ⟨P.write, some (sn.compress ((encWrite exOne).take 12))⟩ = (some ⟨200, []⟩, c) := by
  have hcut : (encWrite exOne).take 12 = [10#8, 22#8, 10#8, 6#8, 10#8, 1#8, 97#8, 18#8, 1#8, 49#8, 18#8, 12#8] := by decide +kernel
  have hparse : (pbFormats sn rt).parseWrite [10#8, 22#8, 10#8, 6#8, 10#8, 1#8, 97#8, 18#8, 1#8, 49#8, 18#8, 12#8] = [⟨[], []⟩] ∨
      (pbFormats sn rt).parseWrite [10#8, 22#8, 10#8, 6#8, 10#8, 1#8, 97#8, 18#8, 1#8, 49#8, 18#8, 12#8] = [⟨[lbl "a" "1"], [⟨0#64, 0⟩]⟩] := by
    have hl : lbl "a" "1" = ⟨[97#8], [49#8]⟩ := by decide
    rw [hl]
    show (merge (writeStep rt) [] _).1 = _ ∨ (merge (writeStep rt) [] _).1 = _
    cases h1 : rt.overrun 22 [10#8, 6#8, 10#8, 1#8, 97#8, 18#8, 1#8, 49#8, 18#8, 12#8] <;> cases h2 : rt.overrun 12 [] <;>
    simp [merge, mergeLoop, readTag, readVarint32, readVarint, readVarintFrom, writeStep, readRepeated, readMessage, h1, h2, seriesStep, labelStep, sampleStep,
      readString, readBytes, readRaw, hu]
  rw [C48_status _ _ P hP c _ _ (sn.undo _), hcut]
  have hw : ∀ (ls : Labels) (xs : List Sample), (∀ x ∈ xs, x = ⟨0#64, 0⟩) → serverWrite (sledDb B H []) c [⟨ls, xs⟩] = (.ok (), c) := by
    intro ls xs hx
    have : (sledDb B H []).write c ls (xs.map ofSample) = (.ok (), c) :=
      C37_dropped_silently (sledComp B) c ls _ (by
        intro p hp
        obtain ⟨x, h1, rfl⟩ := List.mem_map.mp hp
        rw [hx x h1]
        exact Or.inr (Or.inr rfl))
    rw [serverWrite]
    unfold ofSeries
    simp only []
    rw [this]
    rfl
  rcases hparse with e | e
  · rw [e, hw [] [] (by simp)]
  · rw [e, hw _ _ (by simp)]


example (c : Chunk SledStores) : process (sledDb stdBinSearch idealHash []) (pbFormats exSnappy exRt) ⟨[114#8], [119#8]⟩ c
    ⟨[119#8], some ((encWrite exOne).take 12)⟩ = (some ⟨200, []⟩, c) :=
  C61_violated_truncated stdBinSearch idealHash exSnappy exRt ⟨[114#8], [119#8]⟩ (by decide) (fun _ => rfl) c

/-! ### C62 -/

theorem asU64_nat {t : Int} (h0 : 0 ≤ t) (h1 : t < 2 ^ 63) : ((asU64 t).toNat : Int) = t := by
  unfold asU64
  rw [BitVec.toNat_ofInt]
  have : (2 : Int) ^ 64 = ((2 ^ 64 : Nat) : Int) := by norm_num
  rw [Int.toNat_of_nonneg (Int.emod_nonneg _ (by norm_num))]
  exact Int.emod_eq_of_lt h0 (by norm_num; omega)

theorem answer_from {acc : List TimePoint → TimePoint → Bool} {d : Desc} {q : Labels} {a b : U64} {s : Series} (hs : s ∈ d.answer acc q a b) :
    ∃ w ∈ d.h, sortLabels w.1 = s.labels := by
  unfold Desc.answer at hs
  split at hs
  · unfold specQuery at hs
    split at hs
    · simp [okSeries] at hs
    · simp only [okSeries, restrict] at hs
      obtain ⟨x, hx, rfl⟩ := List.mem_map.mp (List.mem_filter.mp hs).1
      unfold matched at hx
      split at hx
      · simp at hx
      · obtain ⟨y, hy, rfl⟩ := List.mem_map.mp hx
        obtain ⟨w, hw, e⟩ := labelSets_mem (number_mem (List.mem_filter.mp hy).1)
        exact ⟨w, hw, by rw [e]⟩
  · simp at hs

/-- C62, in general: on a sled database without older chunks, holding the results of any earlier inserts `h`, a write request in any
valid encoding, none of whose points lies exactly on a window bound, is answered by 200; a following read request is answered by 200
with one result per query: the matching series of everything inserted so far, restricted to the range. -/
theorem C62_general (B : BinSearch) (H : Hash) (sn : Snappy) (rt : PbRt) (P : Paths) (hP : P.read ≠ P.write) (lo hi : U64) (h : Inserts)
    (hf : ∀ w ∈ h, WFSet w.1) (m : List PSeries) (hm : ∀ s ∈ m, WFSet s.labels) (hok : ∀ s ∈ m, ¬failsIn lo hi s)
    (hlen : h.length + (m.map fun s => s.samples.length).sum + 1 < 2 ^ 64 - 1) (qs : List PQuery) (hqs : qs ≠ [])
    (hwf : ∀ q ∈ qs, ∀ x ∈ q.matchers, WFLabel ⟨x.name, x.value⟩) (hab : ∀ q ∈ qs, (asU64 q.start_).toNat ≤ (asU64 q.end_).toNat)
    (hincr : ∀ ls, SIncr (pointsFor (insideOnly lo hi (h ++ requestInserts lo hi m)) ls))
    (hg : H.Good fun ls => ∃ w ∈ insideOnly lo hi (h ++ requestInserts lo hi m), sortLabels w.1 = ls)
    {wbytes rbytes wbody rbody : Str} (hw : IsWrite rt.utf8 m wbytes) (hr : IsRead rt.utf8 qs rbytes)
    (hwb : sn.decompress wbody = some wbytes) (hrb : sn.decompress rbody = some rbytes) :
    ∃ rs db', serve (sledDb B H []) (pbFormats sn rt) P (sledChunk B ⟨lo, hi, h⟩) [⟨P.write, some wbody⟩, ⟨P.read, some rbody⟩] =
        ([some ⟨200, []⟩, some ⟨200, sn.compress (encResponse rs)⟩], db') ∧ rs.length = qs.length ∧
      ∀ (i : Nat) (hi' : i < qs.length) (hr' : i < rs.length), ∃ r, rs[i] = r.map toSeries ∧
        IsMerge [(⟨lo, hi, insideOnly lo hi (h ++ requestInserts lo hi m)⟩ : Desc).answer sledAccepts (qs[i].matchers.map fun x => ⟨x.name, x.value⟩)
          (asU64 qs[i].start_) (asU64 qs[i].end_)] r := by
  have hatt : ∀ (m : List PSeries), (∀ s ∈ m, ¬failsIn lo hi s) → attempted lo hi m = m := by
    intro m hok
    induction m with
    | nil => rfl
    | cons s m ih => rw [attempted, if_neg (hok s (by simp)), ih fun x hx => hok x (by simp [hx])]
  have hwrite := C48_sled B H [] lo hi h m hf hm hlen
  rw [if_neg (by rintro ⟨s, hs, hx⟩; exact hok s hs hx), hatt m hok] at hwrite
  have hlen2 : (requestInserts lo hi m).length ≤ (m.map fun s => s.samples.length).sum := by
    clear hok hm hlen hincr hg hw hwrite
    induction m with
    | nil => simp [requestInserts]
    | cons s m ih =>
      have hk : (keptPoints lo hi (s.samples.map ofSample)).length ≤ s.samples.length := by
        unfold keptPoints
        exact (List.length_filter_le _ _).trans (by simp)
      unfold requestInserts at ih ⊢
      rw [List.flatMap_cons, List.length_append, List.length_map, List.map_cons, List.sum_cons]
      omega
  have hfine : Fine (h ++ requestInserts lo hi m) := by
    refine ⟨fun w hw' => ?_, by rw [List.length_append]; omega⟩
    rcases List.mem_append.mp hw' with hw' | hw'
    · exact hf w hw'
    · unfold requestInserts at hw'
      obtain ⟨s, hs, hx⟩ := List.mem_flatMap.mp hw'
      obtain ⟨p, -, rfl⟩ := List.mem_map.mp hx
      exact hm s hs
  have hquery : ∀ q ∈ qs, ∃ r, dbAnswer (sledDb B H []) (sledChunk B ⟨lo, hi, h ++ requestInserts lo hi m⟩) q = .ok r ∧
      IsMerge [(⟨lo, hi, insideOnly lo hi (h ++ requestInserts lo hi m)⟩ : Desc).answer sledAccepts (q.matchers.map fun x => ⟨x.name, x.value⟩)
          (asU64 q.start_) (asU64 q.end_)] r := by
    intro q hq
    obtain ⟨r, h1, h2, -⟩ := C40_sled B H [] ⟨lo, hi, h ++ requestInserts lo hi m⟩ (by simpa using hfine) (by simpa using hincr)
      (q.matchers.map fun x => ⟨x.name, x.value⟩) (by intro l hl; obtain ⟨x, hx, rfl⟩ := List.mem_map.mp hl; exact hwf q hq x hx)
      (asU64 q.start_) (asU64 q.end_) (hab q hq) (by
        rintro k k' ⟨d, hd, s, hs, rfl⟩ ⟨d', hd', s', hs', rfl⟩ ht
        have key : ∀ (d : Desc) (s : Series), d ∈ ([] : List Desc) ++ [⟨lo, hi, h ++ requestInserts lo hi m⟩] →
            s ∈ (made d).answer sledAccepts (q.matchers.map fun x => ⟨x.name, x.value⟩) (asU64 q.start_) (asU64 q.end_) →
            ∃ w ∈ insideOnly lo hi (h ++ requestInserts lo hi m), sortLabels w.1 = s.labels := by
          intro d s hd hs
          simp only [List.nil_append, List.mem_singleton] at hd
          subst hd
          exact answer_from hs
        exact hg _ _ (key d s hd hs) (key d' s' hd' hs') ht)
    exact ⟨r, h1, h2⟩
  obtain ⟨rs, e1, e2, e3⟩ := C47_results (sledDb B H []) (sledChunk B ⟨lo, hi, h ++ requestInserts lo hi m⟩) qs (by
    intro q hq
    obtain ⟨r, h1, -⟩ := hquery q hq
    rw [h1]; simp)
  refine ⟨rs, sledChunk B ⟨lo, hi, h ++ requestInserts lo hi m⟩, ?_, e2, ?_⟩
  · have p1 : process (sledDb B H []) (pbFormats sn rt) P (sledChunk B ⟨lo, hi, h⟩) ⟨P.write, some wbody⟩ =
        (some ⟨200, []⟩, sledChunk B ⟨lo, hi, h ++ requestInserts lo hi m⟩) := by
      rw [C48_status _ (pbFormats sn rt) P hP _ wbody wbytes hwb, C59_write sn rt hw]
      show (match (serverWrite (sledDb B H []) ((newSled lo hi).insertAll (sledComp B) h) m).1 with | .ok () => _ | .err _ => _ | .panic => _,
        (serverWrite (sledDb B H []) ((newSled lo hi).insertAll (sledComp B) h) m).2) = _
      rw [hwrite]; rfl
    have p2 := C47_response (sledDb B H []) (pbFormats sn rt) P (sledChunk B ⟨lo, hi, h ++ requestInserts lo hi m⟩) rbody rbytes ⟨qs, false⟩ rs hrb
      (C59_read sn rt hr hqs) rfl e1
    rw [serve, p1]
    simp only []
    rw [serve, p2]
    rfl
  · intro i hi' hr'
    obtain ⟨r, h1, h2⟩ := hquery qs[i] (List.getElem_mem hi')
    exact ⟨r, ((e3 i hi' hr').1 r h1).1, h2⟩

theorem labelSets_same (ls : Labels) (ps : List TimePoint) (hne : ps ≠ []) : labelSets (asInserts ls ps) = [ls] := by
  induction ps using List.reverseRecOn with
  | nil => exact absurd rfl hne
  | append_singleton ps p ih =>
    unfold asInserts at ih ⊢
    rw [List.map_append, List.map_singleton, labelSets_append]
    by_cases h : ps = []
    · subst h; rfl
    · rw [ih h]; simp

theorem pointsFor_same (ls : Labels) (ps : List TimePoint) : pointsFor (asInserts ls ps) ls = ps := by
  unfold pointsFor asInserts
  rw [List.filter_eq_self.mpr (by intro w hw; obtain ⟨p, -, rfl⟩ := List.mem_map.mp hw; simp)]
  simp [List.map_map, Function.comp_def]

/-- What a chunk holding one series answers. -/
theorem answer_single (lo hi : U64) (ls : Labels) (ps : List TimePoint) (hne : ps ≠ []) (q : Labels) (hq : q ≠ []) (hsub : ∀ l ∈ q, l ∈ ls) (a b : U64)
    (hin : ∀ p ∈ ps, lo.toNat < p.ts.toNat ∧ p.ts.toNat < hi.toNat) (hab : ∀ p ∈ ps, a.toNat ≤ p.ts.toNat ∧ p.ts.toNat ≤ b.toNat) :
    (⟨lo, hi, asInserts ls ps⟩ : Desc).answer sledAccepts q a b = [⟨1#64, sortLabels ls, ps⟩] := by
  have hnum : numbered (asInserts ls ps) = [(ls, 1#64)] := by
    unfold numbered; rw [labelSets_same ls ps hne]; rfl
  have hkn : knownLabels [(ls, 1#64)] q = q := by
    unfold knownLabels
    rw [List.filter_eq_self]
    intro l hl
    simpa using hsub l hl
  have hmat : matched sledAccepts (asInserts ls ps) q = [⟨1#64, sortLabels ls, ps⟩] := by
    unfold matched
    rw [hnum, hkn, if_neg hq]
    have : (List.all q fun l => decide (l ∈ ls)) = true := by rw [List.all_eq_true]; intro l hl; simpa using hsub l hl
    simp [this, keepBy_sled, pointsFor_same]
  obtain ⟨f, hf⟩ : ∃ f, ps.head? = some f := by cases ps with | nil => exact absurd rfl hne | cons f _ => exact ⟨f, rfl⟩
  obtain ⟨l, hl⟩ : ∃ l, ps.getLast? = some l := by
    rcases e : ps.getLast? with _ | l
    · rw [List.getLast?_eq_none_iff] at e; exact absurd e hne
    · exact ⟨l, rfl⟩
  have hfm := List.mem_of_mem_head? hf
  have hlm := List.mem_of_mem_getLast? hl
  have hout : outside a b ⟨1#64, sortLabels ls, ps⟩ = false := by
    unfold outside
    simp only [hf, hl]
    have h1 := hab f hfm
    have h2 := hab l hlm
    simp; omega
  have hir : inRange ps a b = ps := by
    unfold inRange
    rw [List.filter_eq_self]
    intro p hp
    simpa using hab p hp
  unfold Desc.answer
  have hov : overlaps lo hi a b = true := by
    unfold overlaps
    have h1 := hab f hfm
    have h2 := hin f hfm
    simp; omega
  simp only [hov, if_true]
  rw [hmat]
  unfold specQuery
  simp only [List.find?_cons, hout, List.find?_nil]
  simp [okSeries, restrict, hir, hne]

theorem merge_single {s : Series} {r : List (Labels × List TimePoint)} (h : IsMerge [[s]] r) : r = [(s.labels, s.points)] := by
  have hmem : ∀ e, e ∈ r ↔ e = (s.labels, s.points) := by
    rintro ⟨ls, ps⟩
    rw [h.entries]
    unfold mergedPoints seriesWith
    by_cases hl : s.labels = ls
    · subst hl; simp
    · simp [hl, Ne.symm hl]
  have hnd := h.once
  cases r with
  | nil => have := (hmem (s.labels, s.points)).mpr rfl; simp at this
  | cons e r =>
    have he := (hmem e).mp (by simp)
    cases r with
    | nil => rw [he]
    | cons e' r =>
      have he' := (hmem e').mp (by simp)
      rw [he, he'] at hnd
      simp at hnd

/-- C62: what a client writes is what a client reads. One series with at least one sample, timestamps increasing and strictly inside the
window of the (fresh) current chunk, no negative zero, is sent in any valid encoding; then any query naming some of its labels over
a range that contains its timestamps is sent in any valid encoding. Both are answered by 200, and the body of the second answer is
an encoding of exactly that series, labels sorted, all samples bit for bit, and of nothing else. -/
theorem C62_write_then_read (B : BinSearch) (H : Hash) (sn : Snappy) (rt : PbRt) (P : Paths) (hP : P.read ≠ P.write) (lo hi : U64)
    (ls : Labels) (hls : WFSet ls) (hutf : ∀ l ∈ ls, LabelOk rt.utf8 l) (xs : List Sample) (hne : xs ≠ [])
    (hin : ∀ x ∈ xs, (lo.toNat : Int) < x.timestamp ∧ x.timestamp < hi.toNat ∧ x.timestamp < 2 ^ 63)
    (hincr : xs.Pairwise fun x y => x.timestamp < y.timestamp) (hz : ∀ x ∈ xs, x.value ≠ 0x8000000000000000#64)
    (hlen : xs.length + 1 < 2 ^ 64 - 1) (hsize : (encResponse [[⟨sortLabels ls, xs⟩]]).length < 2 ^ 32)
    (q : PQuery) (hq : q.matchers ≠ []) (hsub : ∀ x ∈ q.matchers, (⟨x.name, x.value⟩ : Label) ∈ ls)
    (hrange : ∀ x ∈ xs, q.start_ ≤ x.timestamp ∧ x.timestamp ≤ q.end_) (h0 : 0 ≤ q.start_) (h1 : q.end_ < 2 ^ 63)
    {wbytes rbytes wbody rbody : Str} (hw : IsWrite rt.utf8 [⟨ls, xs⟩] wbytes) (hr : IsRead rt.utf8 [q] rbytes)
    (hwb : sn.decompress wbody = some wbytes) (hrb : sn.decompress rbody = some rbytes) :
    ∃ body out db', serve (sledDb B H []) (pbFormats sn rt) P (newSled lo hi) [⟨P.write, some wbody⟩, ⟨P.read, some rbody⟩] =
        ([some ⟨200, []⟩, some ⟨200, body⟩], db') ∧ sn.decompress body = some out ∧
      ∀ m, IsResponse rt.utf8 m out ↔ m = [[⟨sortLabels ls, xs⟩]] := by
  have hts : ∀ x ∈ xs, ((ofSample x).ts.toNat : Int) = x.timestamp := fun x hx => asU64_nat (by have := hin x hx; omega) (hin x hx).2.2
  have hkeep : keptPoints lo hi (xs.map ofSample) = xs.map ofSample := by
    unfold keptPoints
    rw [List.filter_eq_self]
    intro p hp
    obtain ⟨x, hx, rfl⟩ := List.mem_map.mp hp
    have := hts x hx
    have := hin x hx
    simp only [decide_eq_true_eq]
    omega
  have hreq : requestInserts lo hi [⟨ls, xs⟩] = asInserts ls (xs.map ofSample) := by
    unfold requestInserts asInserts
    simp [hkeep]
  have hpin : ∀ p ∈ xs.map ofSample, lo.toNat < p.ts.toNat ∧ p.ts.toNat < hi.toNat := by
    intro p hp
    obtain ⟨x, hx, rfl⟩ := List.mem_map.mp hp
    have := hts x hx
    have := hin x hx
    omega
  have hins : insideOnly lo hi (asInserts ls (xs.map ofSample)) = asInserts ls (xs.map ofSample) := by
    unfold insideOnly
    rw [List.filter_eq_self]
    intro w hw'
    unfold asInserts at hw'
    obtain ⟨p, hp, rfl⟩ := List.mem_map.mp hw'
    have := hpin p hp
    simp [inside, this.1, this.2]
  have hsi : SIncr (xs.map ofSample) := by
    unfold SIncr
    rw [List.pairwise_map]
    refine hincr.imp_of_mem fun {x y} hx hy hxy => ?_
    have := hts x hx
    have := hts y hy
    omega
  have hall : ([] : Inserts) ++ requestInserts lo hi [⟨ls, xs⟩] = asInserts ls (xs.map ofSample) := by rw [hreq]; rfl
  have hqs : (asU64 q.start_).toNat = q.start_.toNat ∧ (asU64 q.end_).toNat = q.end_.toNat ∧ q.start_ ≤ q.end_ := by
    obtain ⟨x, hx⟩ := List.exists_mem_of_ne_nil xs hne
    have := hrange x hx
    have e1 := asU64_nat (t := q.start_) h0 (by omega)
    have e2 := asU64_nat (t := q.end_) (by omega) h1
    refine ⟨by omega, by omega, by omega⟩
  have hfail : ¬failsIn lo hi ⟨ls, xs⟩ := by
    rintro ⟨x, hx, hb, -⟩
    have h2 := hpin (ofSample x) (List.mem_map.mpr ⟨x, hx, rfl⟩)
    rcases hb with hb | hb <;> rw [hb] at h2 <;> omega
  obtain ⟨rs, db', e1, e2, e3⟩ := C62_general B H sn rt P hP lo hi [] (by simp) [⟨ls, xs⟩] (by simpa using hls) (by simpa using hfail)
    (by simpa using hlen) [q] (by simp) (by
      intro q' hq' x hx
      simp only [List.mem_singleton] at hq'; subst hq'
      exact hls.wf _ (hsub x hx))
    (by
      intro q' hq'
      simp only [List.mem_singleton] at hq'; subst hq'
      omega)
    (by
      intro ls'
      rw [hall, hins]
      refine incr_pointsFor ?_ ls'
      unfold asInserts
      simpa [List.map_map, Function.comp_def] using hsi)
    (by
      rintro k k' ⟨w, hw', rfl⟩ ⟨w', hw'', rfl⟩ -
      rw [hall, hins] at hw' hw''
      unfold asInserts at hw' hw''
      obtain ⟨p, -, rfl⟩ := List.mem_map.mp hw'
      obtain ⟨p', -, rfl⟩ := List.mem_map.mp hw''
      exact ⟨fun h => h.2 rfl, fun h => h.2 rfl⟩) hw hr hwb hrb
  rw [List.length_singleton] at e2
  obtain ⟨r0, hr0⟩ := List.length_eq_one_iff.mp e2
  subst hr0
  obtain ⟨r, h2, h3⟩ := e3 0 (by simp) (by simp)
  rw [hall, hins] at h3
  simp only [List.getElem_cons_zero] at h2 h3
  rw [answer_single lo hi ls (xs.map ofSample) (by simpa using hne) _ (by simpa using hq)
    (by intro l hl; obtain ⟨x, hx, rfl⟩ := List.mem_map.mp hl; exact hsub x hx) _ _ hpin (by
      intro p hp
      obtain ⟨x, hx, rfl⟩ := List.mem_map.mp hp
      have := hts x hx
      have := hrange x hx
      omega)] at h3
  have h4 := merge_single h3
  have hxs : (xs.map ofSample).map toSample = xs := by
    rw [List.map_map]
    conv_rhs => rw [← List.map_id xs]
    refine List.map_congr_left fun x hx => C47_sample_roundtrip x ?_
    have := hin x hx
    omega
  have h5 : r0 = [⟨sortLabels ls, xs⟩] := by
    rw [h2, h4]
    simp only [List.map_cons, List.map_nil, toSeries, hxs]
  subst h5
  obtain ⟨out, o1, o2⟩ := C60_exact_partial sn rt [[⟨sortLabels ls, xs⟩]] (by
    intro r' hr' s hs
    simp only [List.mem_singleton] at hr'; subst hr'
    simp only [List.mem_singleton] at hs; subst hs
    refine ⟨⟨fun l hl => hutf l ((sortLabels_mem _ _).mp hl), fun x hx => ?_⟩, hz⟩
    have := hin x hx
    exact ⟨by omega, by omega⟩) hsize
  exact ⟨_, out, db', e1, o1, o2⟩

/-- Example sample values: 1.0 at 300, 2.5 at 400. -/
def exTwo : List Sample := [⟨0x3ff0000000000000#64, 300⟩, ⟨0x4004000000000000#64, 400⟩]

example : ∃ body out db', serve (sledDb stdBinSearch idealHash []) (pbFormats exSnappy exRt) ⟨[114#8], [119#8]⟩ (newSled 100#64 1000#64)
      [⟨[119#8], some (encWrite [⟨[lbl "b" "2", lbl "a" "1"], exTwo⟩])⟩, ⟨[114#8], some (encRead [⟨250, 500, [⟨.eq, (lbl "a" "1").key, (lbl "a" "1").value⟩]⟩])⟩] =
        ([some ⟨200, []⟩, some ⟨200, body⟩], db') ∧ exSnappy.decompress body = some out ∧
      ∀ m, IsResponse exRt.utf8 m out ↔ m = [[⟨[lbl "a" "1", lbl "b" "2"], exTwo⟩]] := by
  have hsort : sortLabels [lbl "b" "2", lbl "a" "1"] = [lbl "a" "1", lbl "b" "2"] := by decide +kernel
  have hw : IsWrite exRt.utf8 [⟨[lbl "b" "2", lbl "a" "1"], exTwo⟩] (encWrite [⟨[lbl "b" "2", lbl "a" "1"], exTwo⟩]) := by
    have := encWrite_is (utf8 := exRt.utf8) (m := [⟨[lbl "b" "2", lbl "a" "1"], exTwo⟩]) (by
      intro s hs
      simp only [List.mem_singleton] at hs; subst hs
      exact ⟨fun _ _ => ⟨rfl, rfl⟩, by
        intro x hx; simp only [exTwo, List.mem_cons, List.not_mem_nil, or_false] at hx; rcases hx with rfl | rfl <;> exact ⟨by decide, by decide⟩⟩)
      (by decide +kernel)
    have e : [⟨[lbl "b" "2", lbl "a" "1"], exTwo⟩].map wireSeries = [⟨[lbl "b" "2", lbl "a" "1"], exTwo⟩] := by decide +kernel
    rwa [e] at this
  have hr : IsRead exRt.utf8 [⟨250, 500, [⟨.eq, (lbl "a" "1").key, (lbl "a" "1").value⟩]⟩] (encRead [⟨250, 500, [⟨.eq, (lbl "a" "1").key, (lbl "a" "1").value⟩]⟩]) :=
    encRead_is (by
      intro q hq
      simp only [List.mem_singleton] at hq; subst hq
      exact ⟨⟨by decide, by decide⟩, ⟨by decide, by decide⟩, fun _ _ => ⟨rfl, rfl⟩⟩) (by decide +kernel)
  have := C62_write_then_read stdBinSearch idealHash exSnappy exRt ⟨[114#8], [119#8]⟩ (by decide) 100#64 1000#64 [lbl "b" "2", lbl "a" "1"]
    (wfSet_of (by decide +kernel)) (fun _ _ => ⟨rfl, rfl⟩) exTwo (by simp [exTwo]) (by decide +kernel) (by decide +kernel) (by decide +kernel) (by decide)
    (by decide +kernel) ⟨250, 500, [⟨.eq, (lbl "a" "1").key, (lbl "a" "1").value⟩]⟩ (by simp) (by decide +kernel) (by decide +kernel) (by decide) (by decide)
    hw hr rfl rfl
  rwa [hsort] at this

end Verif
