import Verif.Lemmas.Crc
import Mathlib.Data.List.Induction
/-! Properties C51-C54: the write-ahead log. -/
namespace Verif

/-- CRC-32 of some bytes, computed at once. -/
def crc32 (bs : List Byte) : BitVec 32 := crcUpdate ieee 0 bs
/-- CRC-64 of some bytes, computed at once. -/
def crc64 (bs : List Byte) : BitVec 64 := crcUpdate ecma 0 bs

-- the values of the program's test and of the catalogue of CRC algorithms ("123456789")
example : crc32 [1#8, 2#8, 3#8, 4#8] = 0xB63CFBCD#32 := by decide +kernel
example : crc32 [49#8, 50#8, 51#8, 52#8, 53#8, 54#8, 55#8, 56#8, 57#8] = 0xCBF43926#32 := by decide +kernel
example : crc64 [49#8, 50#8, 51#8, 52#8, 53#8, 54#8, 55#8, 56#8, 57#8] = 0x995DC9BBDF1939FA#64 := by decide +kernel

/-! ### C51 -/

/-- An entry as the program makes one: `Entry::new` and any number of pushes. -/
def entryOf (seq : U64) (type : Byte) (pushes : List (List Byte)) : Entry := pushes.foldl Entry.push (Entry.new seq type)

/-- An entry made by the program, by pushes and clones in any order. -/
inductive Made : Entry → Prop
  | new (seq : U64) (type : Byte) : Made (Entry.new seq type)
  | default : Made Entry.default
  | push {e : Entry} (bs : List Byte) : Made e → Made (e.push bs)
  | clone {e : Entry} : Made e → Made e.clone

/-- What an entry says. -/
def Entry.record (e : Entry) : Record := ⟨e.seqId, e.type, e.content⟩

theorem made_entryOf (seq : U64) (type : Byte) (pushes : List (List Byte)) : Made (entryOf seq type pushes) := by
  unfold entryOf
  induction pushes using List.reverseRecOn with
  | nil => exact Made.new seq type
  | append_singleton ps p ih => rw [List.foldl_append]; exact Made.push p ih

theorem made_crc {e : Entry} (h : Made e) : e.crc.sum = crc32 e.content := by
  induction h with
  | new => exact (crcUpdate_nil _ _).symm
  | default => exact (crcUpdate_nil _ _).symm
  | push bs _ ih =>
    unfold Entry.push Digest.write Digest.sum crc32 at *
    simp only []
    rw [crcUpdate_append, ih]
  | clone _ ih => exact ih

theorem made_bytes {e : Entry} (h : Made e) (hl : e.content.length < 65536) : e.getBytes = recordBytes crc32 e.record := by
  unfold Entry.getBytes recordBytes Entry.record
  rw [made_crc h, Nat.mod_eq_of_lt hl]

theorem made_flatMap {es : List Entry} (h : ∀ e ∈ es, Made e ∧ e.content.length < 65536) :
    es.flatMap Entry.getBytes = (es.map Entry.record).flatMap (recordBytes crc32) := by
  induction es with
  | nil => rfl
  | cons e es ih =>
    rw [List.flatMap_cons, List.map_cons, List.flatMap_cons, ih fun x hx => h x (by simp [hx]), made_bytes (h e (by simp)).1 (h e (by simp)).2]

/-- C51: the reader recovers every sequence of entries from its bytes. -/
theorem C51_decodes (es : List Entry) (h : ∀ e ∈ es, Made e ∧ e.content.length < 65536) :
    readLog crc32 (es.flatMap Entry.getBytes) = es.map Entry.record := by
  rw [made_flatMap h]
  apply readLog_all
  intro r hr
  obtain ⟨e, he, rfl⟩ := List.mem_map.mp hr
  exact (h e he).2

/-- C51: so the bytes determine the entries. -/
theorem C51_injective (es es' : List Entry) (h : ∀ e ∈ es, Made e ∧ e.content.length < 65536)
    (h' : ∀ e ∈ es', Made e ∧ e.content.length < 65536) (he : es.flatMap Entry.getBytes = es'.flatMap Entry.getBytes) :
    es.map Entry.record = es'.map Entry.record := by
  rw [← C51_decodes es h, he, C51_decodes es' h']

/-- C51, torn writes: of a log cut after any number of bytes the reader recovers exactly the entries wholly before the cut. -/
theorem C51_torn (es : List Entry) (h : ∀ e ∈ es, Made e ∧ e.content.length < 65536) (k : Nat) :
    ∃ m, readLog crc32 ((es.flatMap Entry.getBytes).take k) = (es.take m).map Entry.record ∧
      ((es.take m).flatMap Entry.getBytes).length ≤ k ∧
      ∀ j, ((es.take j).flatMap Entry.getBytes).length ≤ k → (es.take j).length ≤ m := by
  have hsub : ∀ n, ∀ e ∈ es.take n, Made e ∧ e.content.length < 65536 := fun n e he => h e (List.mem_of_mem_take he)
  obtain ⟨m, h1, h2, h3⟩ := readLog_take crc32 (es.map Entry.record) (by
    intro r hr
    obtain ⟨e, he, rfl⟩ := List.mem_map.mp hr
    exact (h e he).2) k
  refine ⟨m, by rw [made_flatMap h, h1, List.map_take], ?_, ?_⟩
  · rw [made_flatMap (hsub m), List.map_take]; exact h2
  · intro j hj
    rw [made_flatMap (hsub j), List.map_take] at hj
    have := h3 j hj
    simpa using this

/-- C51: the checksum is that of the content, whatever the header and however the content was pushed. -/
theorem C51_checksum (e : Entry) (h : Made e) : e.getBytes.drop (e.getBytes.length - 4) = beBytes 4 (crc32 e.content).toNat := by
  have hl : e.getBytes.length = 11 + e.content.length + 4 := by
    simp only [Entry.getBytes, List.length_append, toBE_length, beBytes_length, List.length_cons, List.length_nil]
  rw [hl, Nat.add_sub_cancel, ← made_crc h]
  unfold Entry.getBytes
  rw [List.drop_left']
  simp only [List.length_append, toBE_length, beBytes_length, List.length_cons, List.length_nil]

/-- C51: a change of the content confined to 32 consecutive bits changes the checksum, whatever surrounds it. -/
theorem C51_detects_burst (xs ys : List Byte) (h : BurstWithin 32 xs ys) : crc32 xs ≠ crc32 ys :=
  crc_detects (w := 31) (by omega) (by decide) h 0

/-- C51: the CRC-64 of a segment detects changes confined to 64 consecutive bits. -/
theorem C51_detects_burst64 (xs ys : List Byte) (h : BurstWithin 64 xs ys) : crc64 xs ≠ crc64 ys :=
  crc_detects (w := 63) (by omega) (by decide) h 0

/-- Different strings of at most four bytes in the same surroundings differ in a burst of 32 bits. -/
theorem burst_bytes (n : Nat) (pre post u v : List Byte) (hl : u.length = v.length) (hn : u.length ≤ n) (hne : u ≠ v) :
    BurstWithin (8 * n) (pre ++ u ++ post) (pre ++ v ++ post) := by
  refine ⟨fun he => hne ?_, by simp [hl], 8 * pre.length, ?_⟩
  · exact (List.append_inj (List.append_inj' he rfl).1 rfl).2
  · intro i hi
    have happ : ∀ a b : List Byte, wireBits (a ++ b) = wireBits a ++ wireBits b := fun a b => by simp [wireBits]
    rw [happ, happ, happ, happ] at hi
    by_contra hc
    apply hi
    have e1 := wireBits_length pre
    have e2 := wireBits_length u
    have e3 := wireBits_length v
    by_cases h1 : i < 8 * pre.length
    · rw [List.append_assoc, List.append_assoc, List.getElem?_append_left (by omega), List.getElem?_append_left (by omega)]
    · rw [List.getElem?_append_right (by rw [List.length_append]; omega), List.getElem?_append_right (by rw [List.length_append]; omega)]
      rw [List.length_append, List.length_append, e2, e3, hl]

/-- C51: any change of up to four adjacent bytes of the content changes the checksum. -/
theorem C51_detects_bytes (pre post u v : List Byte) (hl : u.length = v.length) (hn : u.length ≤ 4) (hne : u ≠ v) :
    crc32 (pre ++ u ++ post) ≠ crc32 (pre ++ v ++ post) :=
  C51_detects_burst _ _ (burst_bytes 4 pre post u v hl hn hne)

/-- C51, damaged logs: if the content of one entry is overwritten by one that differs in a burst of at most 32 bits, the
reader recovers exactly the entries before it and nothing that was not written. -/
theorem C51_damaged (before after : List Entry) (e : Entry) (h : ∀ x ∈ before ++ e :: after, Made x ∧ x.content.length < 65536)
    (bad : List Byte) (hb : BurstWithin 32 e.content bad) :
    readLog crc32 (before.flatMap Entry.getBytes ++ { e with content := bad }.getBytes ++ after.flatMap Entry.getBytes) = before.map Entry.record := by
  have he := h e (by simp)
  rw [made_flatMap (es := before) fun x hx => h x (by simp [hx]), List.append_assoc]
  apply readLog_until
  · intro r hr
    obtain ⟨x, hx, rfl⟩ := List.mem_map.mp hr
    exact (h x (by simp [hx])).2
  · have hlb : bad.length < 65536 := by rw [← hb.2.1]; exact he.2
    have := readRecord_wrong crc32 (toBE e.seqId ++ [e.type]) (by simp) bad hlb e.crc.sum (by
      rw [made_crc he.1]
      exact C51_detects_burst _ _ hb) (after.flatMap Entry.getBytes)
    unfold Entry.getBytes
    simp only [Nat.mod_eq_of_lt hlb]
    exact this

/-- C51: the checksum says nothing about the header. A damaged sequence number or type is read as if it had been written. -/
theorem C51_header_unprotected (e : Entry) (h : Made e) (hl : e.content.length < 65536) (seq : U64) (type : Byte) :
    readLog crc32 { e with seqId := seq, type := type }.getBytes = [⟨seq, type, e.content⟩] := by
  have hb : { e with seqId := seq, type := type }.getBytes = [(⟨seq, type, e.content⟩ : Record)].flatMap (recordBytes crc32) := by
    rw [List.flatMap_cons, List.flatMap_nil, List.append_nil]
    unfold Entry.getBytes recordBytes
    simp only []
    rw [made_crc h, Nat.mod_eq_of_lt hl]
  rw [hb]
  exact readLog_all crc32 [⟨seq, type, e.content⟩] fun r hr => by rw [List.mem_singleton.mp hr]; exact hl

-- a burst across a byte boundary, and the damaged log of which one entry is left
example : BurstWithin 32 [1#8, 0x80#8, 2#8, 3#8] [1#8, 0x00#8, 3#8, 3#8] := by
  refine ⟨by decide, by decide, 15, ?_⟩
  intro i hi
  by_cases h : i < 32
  · revert hi; revert i; decide +kernel
  · exfalso; apply hi
    rw [List.getElem?_eq_none (by rw [wireBits_length]; simp; omega), List.getElem?_eq_none (by rw [wireBits_length]; simp; omega)]

theorem entryOf_one (seq : U64) (type : Byte) (c : List Byte) : (entryOf seq type [c]).content = c := rfl

/-- C51: the bound on the length is needed. An entry of 65536 zero bytes is not read back. -/
theorem C51_bound : ∃ e : Entry, Made e ∧ e.content.length = 65536 ∧ readLog crc32 e.getBytes ≠ [e.record] := by
  refine ⟨entryOf 1#64 0#8 [List.replicate 65536 0#8], made_entryOf _ _ _, by rw [entryOf_one, List.length_replicate], ?_⟩
  intro h
  set e := entryOf 1#64 0#8 [List.replicate 65536 0#8] with he
  have hc : e.content.length = 65536 := by rw [he, entryOf_one, List.length_replicate]
  have hg : e.getBytes = toBE e.seqId ++ [e.type] ++ beBytes 2 0 ++ e.content ++ beBytes 4 e.crc.sum.toNat := by
    unfold Entry.getBytes; rw [hc]
  have d9 : (e.getBytes.drop 9).take 2 = beBytes 2 0 := by
    have : e.getBytes = (toBE e.seqId ++ [e.type]) ++ (beBytes 2 0 ++ (e.content ++ beBytes 4 e.crc.sum.toNat)) := by rw [hg]; simp
    rw [this, List.drop_left' (by simp), List.take_left' (beBytes_length _ _)]
  have hlen : e.getBytes.length = 65551 := by
    rw [hg]; simp only [List.length_append, toBE_length, beBytes_length, List.length_cons, List.length_nil, hc]
  have hone : ∀ r rest, readRecord crc32 e.getBytes = some (r, rest) → r.content = [] := by
    intro r rest hr
    unfold readRecord at hr
    rw [if_neg (by rw [hlen]; omega), d9, show beNat (beBytes 2 0) = 0 from by decide] at hr
    simp only [] at hr
    rw [if_neg (by rw [hlen]; omega)] at hr
    split at hr
    · simp only [Option.some.injEq, Prod.mk.injEq] at hr
      rw [← hr.1]; simp
    · cases hr
  unfold readLog at h
  rw [hlen] at h
  rw [readLogN] at h
  rcases hr : readRecord crc32 e.getBytes with _ | ⟨r, rest⟩
  · rw [hr] at h; simp at h
  · rw [hr] at h
    simp only [List.cons.injEq] at h
    have := hone r rest hr
    rw [h.1] at this
    have h2 : e.content = [] := this
    rw [h2] at hc; simp at hc

/-- Example log: two entries, one made by two pushes and a clone. -/
def exLog : List Entry := [entryOf 1#64 0#8 [[1#8, 2#8], [3#8, 4#8]], (entryOf 2#64 0#8 [[9#8]]).clone]

theorem exLog_made : ∀ e ∈ exLog, Made e ∧ e.content.length < 65536 := by
  intro e he
  simp only [exLog, List.mem_cons, List.not_mem_nil, or_false] at he
  rcases he with rfl | rfl
  · exact ⟨made_entryOf _ _ _, by decide⟩
  · exact ⟨Made.clone (made_entryOf _ _ _), by decide⟩

-- the content of the second entry is damaged, the first is recovered
example : readLog crc32 ([entryOf 1#64 0#8 [[1#8, 2#8]]].flatMap Entry.getBytes ++ { entryOf 2#64 0#8 [[9#8]] with content := [8#8] }.getBytes) =
    [⟨1#64, 0#8, [1#8, 2#8]⟩] := by decide +kernel
-- cut in the middle of the second entry, the first is recovered
example : readLog crc32 ((exLog.flatMap Entry.getBytes).take 25) = [⟨1#64, 0#8, [1#8, 2#8, 3#8, 4#8]⟩] := by decide +kernel
example : (exLog.flatMap Entry.getBytes).take 19 =
    [0#8, 0#8, 0#8, 0#8, 0#8, 0#8, 0#8, 1#8, 0#8, 0#8, 4#8, 1#8, 2#8, 3#8, 4#8, 182#8, 60#8, 251#8, 205#8] := by decide +kernel

/-! ### C52 -/

/-- C52: a clone and its original give the same bytes after the same further pushes. -/
theorem C52_clone (e : Entry) (pushes : List (List Byte)) : (pushes.foldl Entry.push e.clone).getBytes = (pushes.foldl Entry.push e).getBytes := by
  have key : ∀ (ps : List (List Byte)) (a b : Entry), a.seqId = b.seqId → a.type = b.type → a.content = b.content → a.crc.sum = b.crc.sum →
      (ps.foldl Entry.push a).getBytes = (ps.foldl Entry.push b).getBytes := by
    intro ps
    induction ps with
    | nil =>
      intro a b h1 h2 h3 h4
      simp only [List.foldl_nil]
      unfold Entry.getBytes
      rw [h1, h2, h3, h4]
    | cons p ps ih =>
      intro a b h1 h2 h3 h4
      rw [List.foldl_cons, List.foldl_cons]
      apply ih
      · exact h1
      · exact h2
      · show a.content ++ p = b.content ++ p; rw [h3]
      · show crcUpdate ieee a.crc.value p = crcUpdate ieee b.crc.value p
        have : a.crc.value = b.crc.value := h4
        rw [this]
  exact key pushes e.clone e rfl rfl rfl rfl

-- the states differ (the clone's digest starts from the sum), the bytes do not
example : (entryOf 1#64 0#8 [[1#8, 2#8]]).clone ≠ entryOf 1#64 0#8 [[1#8, 2#8]] := by decide +kernel

/-! ### C53 -/

/-- A writer that accepts all bytes of every call. -/
def Accepts.Full (A : Accepts) : Prop := ∀ n l, ∃ m, A n l = some m ∧ l ≤ m

theorem sink_full {A : Accepts} (hA : A.Full) (s : Sink) (bs : List Byte) :
    s.write A bs = (some bs.length, ⟨s.data ++ bs, s.calls + 1⟩) := by
  obtain ⟨m, h1, h2⟩ := hA s.calls bs.length
  unfold Sink.write
  rw [h1]
  simp only []
  rw [Nat.min_eq_right h2, List.take_of_length_le h2]

/-- The invariant of an immediate segment: everything is in the file and in the checksum. -/
def ImmInv (bytes : List Byte) (s : Segment) : Prop := s.cache = .none ∧ s.writer.data = toBE walMagic ++ bytes ∧ s.crc.value = crc64 bytes

theorem immInv_write {A : Accepts} (hA : A.Full) {bytes : List Byte} {s : Segment} (h : ImmInv bytes s) (bs : List Byte) :
    (s.write A bs).1 = some bs.length ∧ ImmInv (bytes ++ bs) (s.write A bs).2 := by
  obtain ⟨h1, h2, h3⟩ := h
  unfold Segment.write
  rw [sink_full hA]
  refine ⟨rfl, h1, ?_, ?_⟩
  · simp only []; rw [h2, List.append_assoc]
  · show crcUpdate ecma s.crc.value bs = _
    unfold crc64 at *
    rw [h3, crcUpdate_append]

theorem immInv_entry {A : Accepts} (hA : A.Full) {bytes : List Byte} {s : Segment} (h : ImmInv bytes s) (e : Entry) :
    (s.writeEntry A e).1 = .ok () ∧ ImmInv (bytes ++ e.getBytes) (s.writeEntry A e).2 := by
  have hw := immInv_write hA h e.getBytes
  unfold Segment.writeEntry
  rw [h.1]
  simp only []
  rcases he : s.write A e.getBytes with ⟨r, s'⟩
  rw [he] at hw
  simp only [] at hw
  rw [hw.1]
  refine ⟨rfl, ?_⟩
  simp only []
  unfold Segment.flush
  rw [hw.2.1]
  exact hw.2

theorem immInv_all {A : Accepts} (hA : A.Full) {bytes : List Byte} {s : Segment} (h : ImmInv bytes s) (es : List Entry) :
    (s.writeAll A es).1 = es.map (fun _ => .ok ()) ∧ ImmInv (bytes ++ es.flatMap Entry.getBytes) (s.writeAll A es).2 := by
  induction es generalizing bytes s with
  | nil => exact ⟨rfl, by simpa [Segment.writeAll] using h⟩
  | cons e es ih =>
    have he := immInv_entry hA h e
    rcases hr : s.writeEntry A e with ⟨r, s'⟩
    rw [hr] at he
    simp only [] at he
    obtain ⟨rfl, hi⟩ := he
    have := ih hi
    rw [Segment.writeAll, hr]
    simp only []
    refine ⟨by rw [this.1]; rfl, ?_⟩
    rw [List.flatMap_cons, ← List.append_assoc]
    exact this.2

theorem immInv_new {A : Accepts} (hA : A.Full) : ImmInv [] (Segment.new A .immediate) := by
  unfold Segment.new
  rw [sink_full hA]
  exact ⟨rfl, by simp, (crcUpdate_nil _ _).symm⟩

/-- C53: on a writer that accepts all bytes of every call, with the immediate policy, every `write_entry` succeeds, and after
any sequence the file is the magic number followed by the encodings of all entries so far; after `close`, which succeeds,
also by the CRC-64 of those encodings. -/
theorem C53_immediate_partial (A : Accepts) (hA : A.Full) (es : List Entry) :
    ((Segment.new A .immediate).writeAll A es).1 = es.map (fun _ => .ok ()) ∧
    ((Segment.new A .immediate).writeAll A es).2.writer.data = toBE walMagic ++ es.flatMap Entry.getBytes ∧
    (((Segment.new A .immediate).writeAll A es).2.close A).1 = some () ∧
    (((Segment.new A .immediate).writeAll A es).2.close A).2.writer.data =
      toBE walMagic ++ es.flatMap Entry.getBytes ++ toBE (crc64 (es.flatMap Entry.getBytes)) := by
  obtain ⟨h1, h2⟩ := immInv_all hA (immInv_new hA) es
  rw [List.nil_append] at h2
  refine ⟨h1, h2.2.1, ?_, ?_⟩
  · unfold Segment.close
    rw [(immInv_write hA h2 _).1]; rfl
  · unfold Segment.close
    simp only []
    rw [(immInv_write hA h2 _).2.2.1, List.append_assoc]
    have : ((Segment.new A Policy.immediate).writeAll A es).2.crc.sum = crc64 (es.flatMap Entry.getBytes) := h2.2.2
    rw [this]; rfl

/-- C53, crashes: cut the file anywhere after the magic number; a reader gets exactly the entries wholly before the cut. -/
theorem C53_crash_partial (A : Accepts) (hA : A.Full) (es : List Entry) (h : ∀ e ∈ es, Made e ∧ e.content.length < 65536) (k : Nat) (hk : 8 ≤ k) :
    ∃ m, readLog crc32 ((((Segment.new A .immediate).writeAll A es).2.writer.data.take k).drop 8) = (es.take m).map Entry.record ∧
      ∀ j, 8 + ((es.take j).flatMap Entry.getBytes).length ≤ k → (es.take j).length ≤ m := by
  rw [(C53_immediate_partial A hA es).2.1, List.drop_take, List.drop_left' (toBE_length _)]
  obtain ⟨m, h1, -, h3⟩ := C51_torn es h (k - 8)
  exact ⟨m, h1, fun j hj => h3 j (by omega)⟩

/-- A writer that accepts at most so many bytes per call, as `std::io::Write` allows. -/
def shortWriter (n : Nat) : Accepts := fun _ l => some (min n l)

/-- C53 fails for a writer that accepts only a part of the bytes: the count is not looked at, `write_entry` reports success,
the file lacks the rest of the entry. -/
theorem C53_violated : ∃ (A : Accepts) (e : Entry), (∀ n l, ∃ m, A n l = some m ∧ (0 < l → 0 < m)) ∧
    ((Segment.new A .immediate).writeEntry A e).1 = .ok () ∧
    ((Segment.new A .immediate).writeEntry A e).2.writer.data ≠ toBE walMagic ++ e.getBytes ∧
    ((Segment.new A .immediate).writeEntry A e).2.writer.data = toBE walMagic ++ e.getBytes.take 10 := by
  refine ⟨shortWriter 10, entryOf 1#64 0#8 [[1#8]], ?_, by decide +kernel, by decide +kernel, by decide +kernel⟩
  intro n l
  exact ⟨min 10 l, rfl, by omega⟩

/-- C53 fails after a failed write: the caller is told of the error, but the lost bytes stay in the running checksum, so the
segment written afterwards closes with a checksum that does not match the file. -/
theorem C53_violated_error : ∃ (A : Accepts) (e e' : Entry),
    ((Segment.new A .immediate).writeAll A [e, e']).1 = [.err .ioErr, .ok ()] ∧
    (((Segment.new A .immediate).writeAll A [e, e']).2.close A).1 = some () ∧
    (((Segment.new A .immediate).writeAll A [e, e']).2.close A).2.writer.data = toBE walMagic ++ e'.getBytes ++ toBE (crc64 (e.getBytes ++ e'.getBytes)) ∧
    crc64 (e.getBytes ++ e'.getBytes) ≠ crc64 e'.getBytes := by
  refine ⟨fun n l => if n = 1 then none else some l, entryOf 1#64 0#8 [[1#8]], entryOf 2#64 0#8 [[2#8]], ?_⟩
  decide +kernel

/-- C53 on every writer, immediate policy: `write_entry` never panics, and the file is a prefix of the magic number followed by
one prefix of each entry's encoding, in the order of the calls; the prefix of an entry whose write was refused is empty. -/
theorem C53_any_writer_partial (A : Accepts) (es : List Entry) :
    ∃ (magic : List Byte) (parts : List (Res Unit × Entry × List Byte)), magic <+: toBE walMagic ∧
      parts.map (·.1) = ((Segment.new A .immediate).writeAll A es).1 ∧ parts.map (·.2.1) = es ∧
      (∀ x ∈ parts, x.2.2 <+: x.2.1.getBytes ∧ (x.1 = .ok () ∨ x.1 = .err .ioErr ∧ x.2.2 = [])) ∧
      ((Segment.new A .immediate).writeAll A es).2.writer.data = magic ++ parts.flatMap (·.2.2) := by
  have hsink : ∀ (s : Sink) (bs : List Byte), ∃ p, p <+: bs ∧ (s.write A bs).2.data = s.data ++ p ∧ ((s.write A bs).1 = none → p = []) := by
    intro s bs
    unfold Sink.write
    rcases A s.calls bs.length with _ | n
    · exact ⟨[], List.nil_prefix, by simp, fun _ => rfl⟩
    · exact ⟨bs.take n, List.take_prefix _ _, rfl, by simp⟩
  have hentry : ∀ (s : Segment) (e : Entry), s.cache = .none → ∃ p, p <+: e.getBytes ∧ (s.writeEntry A e).2.cache = .none ∧
      (s.writeEntry A e).2.writer.data = s.writer.data ++ p ∧
      ((s.writeEntry A e).1 = .ok () ∨ (s.writeEntry A e).1 = .err .ioErr ∧ p = []) := by
    intro s e hc
    obtain ⟨p, h1, h2, h3⟩ := hsink s.writer e.getBytes
    unfold Segment.writeEntry Segment.write
    rw [hc]
    simp only []
    rcases hr : s.writer.write A e.getBytes with ⟨r, w⟩
    rw [hr] at h2 h3
    rcases r with _ | n
    · exact ⟨p, h1, rfl, h2, Or.inr ⟨rfl, h3 rfl⟩⟩
    · exact ⟨p, h1, rfl, h2, Or.inl rfl⟩
  have key : ∀ (es : List Entry) (s : Segment), s.cache = .none → ∃ parts : List (Res Unit × Entry × List Byte),
      parts.map (·.1) = (s.writeAll A es).1 ∧ parts.map (·.2.1) = es ∧
      (∀ x ∈ parts, x.2.2 <+: x.2.1.getBytes ∧ (x.1 = .ok () ∨ x.1 = .err .ioErr ∧ x.2.2 = [])) ∧
      (s.writeAll A es).2.writer.data = s.writer.data ++ parts.flatMap (·.2.2) := by
    intro es
    induction es with
    | nil => intro s _; exact ⟨[], rfl, rfl, by simp, by simp [Segment.writeAll]⟩
    | cons e es ih =>
      intro s hc
      obtain ⟨p, h1, h2, h3, h4⟩ := hentry s e hc
      rcases hr : s.writeEntry A e with ⟨r, s'⟩
      rw [hr] at h2 h3 h4
      obtain ⟨parts, g1, g2, g3, g4⟩ := ih s' h2
      have hw : s.writeAll A (e :: es) = (r :: (s'.writeAll A es).1, (s'.writeAll A es).2) := by
        rw [Segment.writeAll, hr]
        rcases h4 with h4 | ⟨h4, -⟩ <;> simp only [] at h4 <;> rw [h4]
      refine ⟨(r, e, p) :: parts, ?_, ?_, ?_, ?_⟩
      · rw [hw, List.map_cons, g1]
      · rw [List.map_cons, g2]
      · intro x hx
        rcases List.mem_cons.mp hx with rfl | hx
        · exact ⟨h1, h4⟩
        · exact g3 x hx
      · rw [hw]
        show (s'.writeAll A es).2.writer.data = _
        rw [g4, List.flatMap_cons, ← List.append_assoc, ← h3]
  obtain ⟨magic, m1, m2, -⟩ := hsink ⟨[], 0⟩ (toBE walMagic)
  obtain ⟨parts, g1, g2, g3, g4⟩ := key es (Segment.new A .immediate) rfl
  refine ⟨magic, parts, m1, g1, g2, g3, ?_⟩
  rw [g4]
  show (Sink.write A ⟨[], 0⟩ (toBE walMagic)).2.data ++ _ = _
  rw [m2]; simp

-- a writer that refuses the first entry and takes half of the second
example : ((Segment.new (fun n l => if n = 1 then none else some (min l 8)) .immediate).writeAll
    (fun n l => if n = 1 then none else some (min l 8)) exLog).1 = [.err .ioErr, .ok ()] := by decide +kernel

example : Accepts.Full (fun _ l => some l) := fun _ l => ⟨l, rfl, Nat.le_refl _⟩
example : (((Segment.new (fun _ l => some l) .immediate).writeAll (fun _ l => some l) exLog).2.close (fun _ l => some l)).2.writer.data.length = 51 := by
  decide +kernel

/-! ### C54: not true -/

/-- C54 fails, number-based policy, every limit and every writer: the first `write_entry` panics. -/
theorem C54_violated_num (A : Accepts) (limit : Nat) (e : Entry) (es : List Entry) :
    ((Segment.new A (.numBased limit)).writeEntry A e).1 = .panic ∧
    ((Segment.new A (.numBased limit)).writeAll A (e :: es)).1 = [.panic] := by
  have h : (Segment.new A (.numBased limit)).writeEntry A e = (.panic, Segment.new A (.numBased limit)) := rfl
  refine ⟨by rw [h], ?_⟩
  rw [Segment.writeAll, h]

/-- C54 fails, size-based policy: entries that together stay below the limit are missing from the file after `close`, in every
sequence and on every full writer. -/
theorem C54_violated_close (A : Accepts) (hA : A.Full) (limit : Nat) (es : List Entry) (hlim : (es.map Entry.len).sum < limit) :
    (((Segment.new A (.sizeBased limit)).writeAll A es).2.close A).2.writer.data = toBE walMagic ++ toBE (crc64 []) := by
  have key : ∀ (es : List Entry) (n : Nat) (c : List Entry) (s : Segment), s.cache = .sizeBased limit n c → n + (es.map Entry.len).sum < limit →
      (s.writeAll A es).2.writer = s.writer ∧ (s.writeAll A es).2.crc = s.crc := by
    intro es
    induction es with
    | nil => intro n c s _ _; exact ⟨rfl, rfl⟩
    | cons e es ih =>
      intro n c s hc hl
      simp only [List.map_cons, List.sum_cons] at hl
      have hw : s.writeEntry A e = (.ok (), { s with cache := .sizeBased limit (n + e.len) (c ++ [e]) }) := by
        unfold Segment.writeEntry
        rw [hc]
        simp only []
        rw [if_neg (by omega)]
      rw [Segment.writeAll, hw]
      simp only []
      exact ih (n + e.len) (c ++ [e]) _ rfl (by omega)
  obtain ⟨h1, h2⟩ := key es 0 [] (Segment.new A (.sizeBased limit)) rfl (by simpa using hlim)
  unfold Segment.close Segment.write
  rw [sink_full hA]
  simp only []
  rw [h1, h2]
  unfold Segment.new
  rw [sink_full hA]
  have : (Digest.new : Digest 64).sum = crc64 [] := (crcUpdate_nil _ _).symm
  simp only [List.nil_append]
  rw [this]; rfl

/-- C54 fails also for entries that were flushed: only contents are written, so different logs give the same file. -/
theorem C54_violated_framing : ∃ (es es' : List Entry), es.map Entry.record ≠ es'.map Entry.record ∧
    (((Segment.new (fun _ l => some l) (.sizeBased 20)).writeAll (fun _ l => some l) es).2.writer.data =
      ((Segment.new (fun _ l => some l) (.sizeBased 20)).writeAll (fun _ l => some l) es').2.writer.data) ∧
    ((Segment.new (fun _ l => some l) (.sizeBased 20)).writeAll (fun _ l => some l) es).2.cache = .sizeBased 20 0 [] ∧
    ((Segment.new (fun _ l => some l) (.sizeBased 20)).writeAll (fun _ l => some l) es').2.cache = .sizeBased 20 0 [] :=
  ⟨[entryOf 1#64 0#8 [[1#8]], entryOf 2#64 0#8 [[2#8]]], [entryOf 7#64 0#8 [[1#8, 2#8]], entryOf 8#64 0#8 []],
    by decide +kernel, by decide +kernel, by decide +kernel, by decide +kernel⟩

/-- The time-based policy never writes an entry. -/
theorem C54_violated_time (A : Accepts) (es : List Entry) :
    ((Segment.new A .timeBased).writeAll A es).2.writer = (Segment.new A .timeBased).writer := by
  have key : ∀ (es : List Entry) (c : List Entry) (s : Segment), s.cache = .timeBased c → (s.writeAll A es).2.writer = s.writer := by
    intro es
    induction es with
    | nil => intros; rfl
    | cons e es ih =>
      intro c s hc
      have hw : s.writeEntry A e = (.ok (), { s with cache := .timeBased (c ++ [e]) }) := by unfold Segment.writeEntry; rw [hc]
      rw [Segment.writeAll, hw]
      exact ih (c ++ [e]) _ rfl
  exact key es [] _ rfl

/-- The entries waiting in a size-based cache. -/
def Segment.waiting (s : Segment) : List Entry :=
  match s.cache with
  | .sizeBased _ _ c => c
  | _ => []

/-- Invariant of the size-based policy. -/
def SizeInv (limit : Nat) (es : List Entry) (s : Segment) : Prop :=
  ∃ n c done, s.cache = .sizeBased limit n c ∧ n = (c.map Entry.len).sum ∧ (n < limit ∨ c = []) ∧ es = done ++ c ∧
    s.writer.data = toBE walMagic ++ done.flatMap (·.content) ∧ s.crc.value = crc64 (done.flatMap (·.content))

theorem writeContents_full {A : Accepts} (hA : A.Full) (es : List Entry) (s : Segment) :
    (s.writeContents A es).1 = some () ∧ (s.writeContents A es).2.cache = s.cache ∧
    (s.writeContents A es).2.writer.data = s.writer.data ++ es.flatMap (·.content) ∧
    (s.writeContents A es).2.crc.value = crcUpdate ecma s.crc.value (es.flatMap (·.content)) := by
  induction es generalizing s with
  | nil => exact ⟨rfl, rfl, by simp [Segment.writeContents], (crcUpdate_nil _ _).symm⟩
  | cons e es ih =>
    have hw : s.write A e.content = (some e.content.length,
        { s with crc := s.crc.write ecma e.content, writer := ⟨s.writer.data ++ e.content, s.writer.calls + 1⟩ }) := by
      unfold Segment.write; rw [sink_full hA]
    rw [Segment.writeContents, hw]
    simp only []
    obtain ⟨h1, h2, h3, h4⟩ := ih { s with crc := s.crc.write ecma e.content, writer := ⟨s.writer.data ++ e.content, s.writer.calls + 1⟩ }
    refine ⟨h1, h2, ?_, ?_⟩
    · rw [h3]; simp
    · rw [h4, List.flatMap_cons, crcUpdate_append]; rfl

theorem clone_contents (c : List Entry) : (c.map Entry.clone).flatMap (·.content) = c.flatMap (·.content) := by
  induction c with
  | nil => rfl
  | cons e c ih => rw [List.map_cons, List.flatMap_cons, List.flatMap_cons, ih]; rfl

theorem sizeInv_flush {A : Accepts} (hA : A.Full) {limit n : Nat} {c done : List Entry} {s : Segment} (h1 : s.cache = .sizeBased limit n c)
    (h5 : s.writer.data = toBE walMagic ++ done.flatMap (·.content)) (h6 : s.crc.value = crc64 (done.flatMap (·.content))) :
    (s.flush A).1 = some () ∧ (s.flush A).2.writer.data = toBE walMagic ++ (done ++ c).flatMap (·.content) ∧
    (s.flush A).2.waiting = [] ∧ SizeInv limit (done ++ c) (s.flush A).2 := by
  have hf : s.flush A = Segment.writeContents A { s with cache := .sizeBased limit 0 [] } (c.map Entry.clone) := by
    unfold Segment.flush; rw [h1]
  obtain ⟨w1, w2, w3, w4⟩ := writeContents_full hA (c.map Entry.clone) { s with cache := .sizeBased limit 0 [] }
  rw [← hf] at w1 w2 w3 w4
  rw [clone_contents] at w3 w4
  simp only [] at w2 w3 w4
  have hd : (s.flush A).2.writer.data = toBE walMagic ++ (done ++ c).flatMap (·.content) := by
    rw [w3, h5, List.flatMap_append, List.append_assoc]
  refine ⟨w1, hd, by unfold Segment.waiting; rw [w2], 0, [], done ++ c, w2, rfl, Or.inr rfl, by simp, hd, ?_⟩
  rw [w4, h6, List.flatMap_append]
  unfold crc64
  rw [crcUpdate_append]

theorem sizeInv_entry {A : Accepts} (hA : A.Full) {limit : Nat} {es : List Entry} {s : Segment} (h : SizeInv limit es s) (e : Entry) :
    (s.writeEntry A e).1 = .ok () ∧ SizeInv limit (es ++ [e]) (s.writeEntry A e).2 := by
  obtain ⟨n, c, done, h1, h2, h3, h4, h5, h6⟩ := h
  unfold Segment.writeEntry
  rw [h1]
  simp only []
  by_cases hge : n + e.len ≥ limit
  · rw [if_pos hge]
    refine ⟨rfl, ?_⟩
    have := (sizeInv_flush hA (s := { s with cache := .sizeBased limit n (c ++ [e]) }) (c := c ++ [e]) rfl h5 h6).2.2.2
    rw [h4, List.append_assoc]
    exact this
  · rw [if_neg hge]
    refine ⟨rfl, n + e.len, c ++ [e], done, rfl, by rw [h2]; simp, Or.inl (by omega), by rw [h4, List.append_assoc], h5, h6⟩

/-- What holds of the size-based policy on a full writer: writing never panics or fails; the file is the magic number followed
by the contents (not the encodings) of all entries but the last few, which wait in memory and together stay below the
limit; an explicit flush writes the contents of those. -/
theorem C54_size_partial (A : Accepts) (hA : A.Full) (limit : Nat) (es : List Entry) :
    ((Segment.new A (.sizeBased limit)).writeAll A es).1 = es.map (fun _ => .ok ()) ∧
    (∃ written, es = written ++ ((Segment.new A (.sizeBased limit)).writeAll A es).2.waiting ∧
      ((Segment.new A (.sizeBased limit)).writeAll A es).2.writer.data = toBE walMagic ++ written.flatMap (·.content) ∧
      ((((Segment.new A (.sizeBased limit)).writeAll A es).2.waiting.map Entry.len).sum < limit ∨
        ((Segment.new A (.sizeBased limit)).writeAll A es).2.waiting = [])) ∧
    (((Segment.new A (.sizeBased limit)).writeAll A es).2.flush A).1 = some () ∧
    (((Segment.new A (.sizeBased limit)).writeAll A es).2.flush A).2.writer.data = toBE walMagic ++ es.flatMap (·.content) := by
  have key : ∀ (es pre : List Entry) (s : Segment), SizeInv limit pre s →
      (s.writeAll A es).1 = es.map (fun _ => .ok ()) ∧ SizeInv limit (pre ++ es) (s.writeAll A es).2 := by
    intro es
    induction es with
    | nil => intro pre s h; exact ⟨rfl, by simpa [Segment.writeAll] using h⟩
    | cons e es ih =>
      intro pre s h
      have he := sizeInv_entry hA h e
      rcases hr : s.writeEntry A e with ⟨r, s'⟩
      rw [hr] at he
      simp only [] at he
      obtain ⟨rfl, hi⟩ := he
      have := ih _ _ hi
      rw [Segment.writeAll, hr]
      simp only []
      refine ⟨by rw [this.1]; rfl, ?_⟩
      have e2 : pre ++ e :: es = pre ++ [e] ++ es := by simp
      rw [e2]
      exact this.2
  have h0 : SizeInv limit [] (Segment.new A (.sizeBased limit)) := by
    refine ⟨0, [], [], rfl, rfl, Or.inr rfl, rfl, ?_, (crcUpdate_nil _ _).symm⟩
    unfold Segment.new
    rw [sink_full hA]
    simp
  obtain ⟨h1, h2⟩ := key es [] _ h0
  rw [List.nil_append] at h2
  generalize (Segment.new A (.sizeBased limit)).writeAll A es = r at *
  obtain ⟨n, c, done, g1, g2, g3, g4, g5, g6⟩ := h2
  have hw : r.2.waiting = c := by unfold Segment.waiting; rw [g1]
  obtain ⟨f1, f2, -⟩ := sizeInv_flush hA g1 g5 g6
  refine ⟨h1, ⟨done, by rw [hw]; exact g4, g5, by rw [hw, ← g2]; exact g3⟩, f1, by rw [f2, ← g4]⟩

example : ((Segment.new (fun _ l => some l) (.sizeBased 30)).writeAll (fun _ l => some l) exLog).2.waiting = [] := by decide +kernel
example : ((Segment.new (fun _ l => some l) (.sizeBased 40)).writeAll (fun _ l => some l) exLog).2.waiting.length = 2 := by decide +kernel

/-- Violated: an entry that fills a size-based cache while the writer reports an error is acknowledged; all cached entries and the new
one are dropped, none of their bytes reaches the file. -/
theorem C54_violated_error (A : Accepts) (s : Segment) (l n : Nat) (c0 : Entry) (cs : List Entry) (e : Entry)
    (hc : s.cache = .sizeBased l n (c0 :: cs)) (hfull : n + e.len ≥ l) (hA : A s.writer.calls c0.content.length = none) :
    (s.writeEntry A e).1 = .ok () ∧ (s.writeEntry A e).2.writer.data = s.writer.data ∧ (s.writeEntry A e).2.cache = .sizeBased l 0 [] := by
  unfold Segment.writeEntry
  rw [hc]
  simp only [if_pos hfull]
  unfold Segment.flush
  simp only [List.cons_append, List.map_cons]
  unfold Segment.writeContents Segment.write Sink.write
  have : A s.writer.calls (Entry.clone c0).content.length = none := hA
  simp only [this]
  exact ⟨trivial, trivial, trivial⟩

example : ((Segment.new (fun n k => if n = 1 then none else some k) (.sizeBased 20)).writeAll (fun n k => if n = 1 then none else some k)
    [Entry.new 1#64 0#8, Entry.new 2#64 0#8]).1 = [.ok (), .ok ()] := by decide +kernel

end Verif
