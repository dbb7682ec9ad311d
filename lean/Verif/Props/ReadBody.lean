import Verif.Lemmas.ProtoSound
import Verif.Props.Proto
/-! Property C71: malformed read requests are refused. -/
namespace Verif
open List

/-- Parsing a read request is exact: it succeeds for encodings of read requests only, with the encoded queries. -/
theorem C71_parse_partial (sn : Snappy) (rt : PbRt) (hr : rt.Strict) (s : Str) (qs : List PQuery) :
    (∃ z, (pbFormats sn rt).parseRead s = some ⟨qs, z⟩) ↔ IsRead rt.utf8 qs s := by
  constructor
  · rintro ⟨z, h⟩
    change (match merge (readStep rt) ([], false) s with | (m, true) => some (⟨m.1, m.1.isEmpty && !m.2⟩ : ReadReq) | (_, false) => none) = _ at h
    rcases hm : merge (readStep rt) ([], false) s with ⟨m, _ | _⟩
    · rw [hm] at h; cases h
    · rw [hm] at h
      simp only [Option.some.injEq, ReadReq.mk.injEq] at h
      rw [← h.1]
      exact read_sound hr hm
  · intro h
    obtain ⟨b, hb⟩ := read_merge rt h
    refine ⟨qs.isEmpty && !b, ?_⟩
    show (match merge (readStep rt) ([], false) s with | (m, true) => some (⟨m.1, m.1.isEmpty && !m.2⟩ : ReadReq) | (_, false) => none) = _
    rw [hb]

/-- C71 for runtimes that refuse groups and lengths beyond the end of the data: a read request whose decompressed body encodes no
read request is answered with 500 and an empty body, and changes nothing. Missing: other runtimes (see `C71_overrun`). -/
theorem C71_refused_partial {δ : Type} (D : DbApi δ) (sn : Snappy) (rt : PbRt) (hr : rt.Strict) (P : Paths) (db : δ) (body content : Str)
    (hd : sn.decompress body = some content) (hbad : ∀ qs, ¬ IsRead rt.utf8 qs content) :
    process D (pbFormats sn rt) P db ⟨P.read, some body⟩ = (some ⟨500, []⟩, db) := by
  have hn : (pbFormats sn rt).parseRead content = none := by
    rcases h : (pbFormats sn rt).parseRead content with _ | ⟨qs, z⟩
    · rfl
    · exact absurd ((C71_parse_partial sn rt hr content qs).mp ⟨z, h⟩) (hbad qs)
  have hd' : (pbFormats sn rt).decompress body = some content := hd
  simp [process, hd', hn]

/-- The same from the client's side: an answer with status 200 answers exactly the queries the body encodes. -/
theorem C71_answers_partial {δ : Type} (D : DbApi δ) (sn : Snappy) (rt : PbRt) (hr : rt.Strict) (P : Paths) (db db' : δ) (body out : Str)
    (h : process D (pbFormats sn rt) P db ⟨P.read, some body⟩ = (some ⟨200, out⟩, db')) :
    ∃ content qs rs, sn.decompress body = some content ∧ IsRead rt.utf8 qs content ∧ serverQuery D db qs = .ok rs ∧
      out = sn.compress (encResponse rs) ∧ db' = db := by
  unfold process at h
  simp only [if_true] at h
  rcases hd : (pbFormats sn rt).decompress body with _ | content
  · rw [hd] at h; simp at h
  · rw [hd] at h
    simp only [] at h
    rcases hp : (pbFormats sn rt).parseRead content with _ | ⟨qs, z⟩
    · rw [hp] at h; simp at h
    · rw [hp] at h
      simp only [] at h
      split at h
      · simp at h
      · rcases hs : serverQuery D db qs with rs | e | _
        · rw [hs] at h
          simp only [Prod.mk.injEq, Option.some.injEq, Response.mk.injEq, true_and] at h
          exact ⟨content, qs, rs, hd, (C71_parse_partial sn rt hr content qs).mp ⟨z, hp⟩, hs, h.1.symm, h.2.symm⟩
        · rw [hs] at h; simp at h
        · rw [hs] at h; simp at h

/-- The write side (C61): the parser's verdict, which the server ignores, is exact as well: with a strict runtime it is success
exactly for encodings of write requests. -/
theorem C61_verdict_partial (rt : PbRt) (hr : rt.Strict) (s : Str) : (merge (writeStep rt) [] s).2 = true ↔ ∃ m, IsWrite rt.utf8 m s := by
  constructor
  · intro h
    exact ⟨(merge (writeStep rt) [] s).1, write_sound hr (Prod.ext rfl h)⟩
  · rintro ⟨m, h⟩
    rw [built_merge (writeStep_understands rt) h]

/-! ### Requests cut short -/

theorem readVarintFrom_cut {v : Nat} {s : Str} (h : VarintOf v s) : ∀ (i n : Nat), n < s.length → readVarintFrom i (s.take n) = none := by
  induction h with
  | last b hb =>
    intro i n hn
    simp only [length_singleton] at hn
    obtain rfl : n = 0 := by omega
    simp [readVarintFrom]
  | more b v s hb _ ih =>
    intro i n hn
    cases n with
    | zero => simp [readVarintFrom]
    | succ n =>
      rw [length_cons] at hn
      rw [take_succ_cons, readVarintFrom, ih (i + 1) n (by omega)]
      split_ifs <;> first | rfl | omega

theorem nested_cut {M : Type} {rt : PbRt} (hr : rt.Strict) {step : M → Nat → Nat → Str → M × Option Str} {m0 : M} {d : Str} (hd : d.length < 2 ^ 32) {n : Nat}
    (hn : n < (encVarint d.length ++ d).length) : (readMessage rt step m0 ((encVarint d.length ++ d).take n)).2 = none := by
  rw [length_append] at hn
  by_cases h : n < (encVarint d.length).length
  · have : readVarint ((encVarint d.length ++ d).take n) = none := by
      unfold readVarint
      rw [take_append_of_le_length (by omega), readVarintFrom_cut (encVarint_of d.length) 0 n h]
    unfold readMessage
    rw [this]
  · have e : (encVarint d.length ++ d).take n = encVarint d.length ++ d.take (n - (encVarint d.length).length) := by
      rw [take_append, take_of_length_le (by omega)]
    unfold readMessage
    rw [e, readVarint_of (encVarint_is (lt_trans hd (by decide)))]
    simp only [length_take, hr.overrun]
    rw [if_neg (by omega)]
    simp

/-- The parser fails on a field that is cut short. -/
theorem mergeLoop_cut {rt : PbRt} (hr : rt.Strict) {q : PQuery} (hq : (encQuery q).length < 2 ^ 32) (m : List PQuery × Bool) {n : Nat}
    (hn : 0 < n) (hn' : n < (encTag 1 2 ++ encVarint (sizeQuery q) ++ encQuery q).length) (f : Nat) :
    (mergeLoop (readStep rt) f m ((encTag 1 2 ++ encVarint (sizeQuery q) ++ encQuery q).take n)).2 = false := by
  have ht : encTag 1 2 = [0x0a#8] := by decide +kernel
  rw [← encQuery_size, append_assoc, ht] at hn'
  rw [← encQuery_size, append_assoc, ht]
  obtain ⟨n, rfl⟩ : ∃ k, n = k + 1 := ⟨n - 1, by omega⟩
  rw [show [0x0a#8] ++ (encVarint (encQuery q).length ++ encQuery q) = 0x0a#8 :: (encVarint (encQuery q).length ++ encQuery q) from rfl, take_succ_cons]
  rw [length_append, length_singleton] at hn'
  cases f with
  | zero => rfl
  | succ f =>
    have hk : IsKey 1 2 [0x0a#8] := ht ▸ encTag_is (num := 1) (wt := 2) (by decide) (by decide)
    have := readTag_of hk (by decide) ((encVarint (encQuery q).length ++ encQuery q).take n)
    rw [show [0x0a#8] ++ (encVarint (encQuery q).length ++ encQuery q).take n = 0x0a#8 :: (encVarint (encQuery q).length ++ encQuery q).take n from rfl] at this
    rw [mergeLoop, this]
    have hm := nested_cut hr (step := queryStep rt) (m0 := ⟨0, 0, []⟩) hq (n := n) (by omega)
    simp [readStep, readRepeated, hm]

theorem encRead_cons (q : PQuery) (qs : List PQuery) : encRead (q :: qs) = (encTag 1 2 ++ encVarint (sizeQuery q) ++ encQuery q) ++ encRead qs := by
  unfold encRead encRepeated; rw [flatMap_cons]

theorem read_cut {rt : PbRt} (hr : rt.Strict) (qs : List PQuery) (h : ∀ q ∈ qs, QueryOk rt.utf8 q) (hb : (encRead qs).length < 2 ^ 32) :
    ∀ (m : List PQuery × Bool) (n f : Nat), (mergeLoop (readStep rt) f m ((encRead qs).take n)).2 = true → ∃ j ≤ qs.length, (encRead qs).take n = encRead (qs.take j) := by
  induction qs with
  | nil => intro m n f _; exact ⟨0, le_refl _, by simp [encRead, encRepeated]⟩
  | cons q qs ih =>
    intro m n f ht
    rw [encRead_cons] at ht ⊢
    rw [encRead_cons, length_append] at hb
    set x := encTag 1 2 ++ encVarint (sizeQuery q) ++ encQuery q with hx
    have hlq : (encQuery q).length ≤ x.length := by rw [hx, length_append]; omega
    by_cases hn0 : n = 0
    · exact ⟨0, Nat.zero_le _, by subst hn0; simp [encRead, encRepeated]⟩
    by_cases hn : n < x.length
    · rw [take_append_of_le_length (by omega)] at ht
      rw [mergeLoop_cut hr (by omega) m (by omega) hn f] at ht
      cases ht
    · have e : (x ++ encRead qs).take n = x ++ (encRead qs).take (n - x.length) := by rw [take_append, take_of_length_le (by omega)]
      rw [e] at ht ⊢
      have hF : ReadField rt.utf8 m.1 x (m.1 ++ [q]) := by
        rw [hx, append_assoc, ← encQuery_size]
        exact .query (encTag_is (by decide) (by decide)) (nested_is (by omega)) (encQuery_is (h q (by simp)) (by omega))
      obtain ⟨hne, num, wt, r, b', h3, h4⟩ := readStep_of rt m.1 m.2 x (m.1 ++ [q]) ((encRead qs).take (n - x.length)) hF
      cases f with
      | zero =>
        cases hxx : x with
        | nil => exact absurd hxx hne
        | cons a l => rw [hxx] at ht; simp [mergeLoop] at ht
      | succ f =>
        rw [mergeLoop_step hne h3 h4] at ht
        obtain ⟨j, hj, hj'⟩ := ih (fun q' hq' => h q' (by simp [hq'])) (by omega) _ _ _ ht
        exact ⟨j + 1, by rw [length_cons]; omega, by rw [hj', take_succ_cons, encRead_cons]⟩

/-- A read request that is cut short at any point: it is refused, unless the cut falls between two queries, in which case the
queries before the cut are answered. -/
theorem C71_cut_partial {δ : Type} (D : DbApi δ) (sn : Snappy) (rt : PbRt) (hr : rt.Strict) (P : Paths) (db : δ) (qs : List PQuery)
    (h : ∀ q ∈ qs, QueryOk rt.utf8 q) (hb : (encRead qs).length < 2 ^ 32) (n : Nat) :
    process D (pbFormats sn rt) P db ⟨P.read, some (sn.compress ((encRead qs).take n))⟩ = (some ⟨500, []⟩, db) ∨
    ∃ j ≤ qs.length, j ≠ 0 ∧ (encRead qs).take n = encRead (qs.take j) ∧
      (pbFormats sn rt).parseRead ((encRead qs).take n) = some ⟨qs.take j, false⟩ := by
  by_cases hp : (pbFormats sn rt).parseRead ((encRead qs).take n) = none
  · left
    have hd : (pbFormats sn rt).decompress (sn.compress ((encRead qs).take n)) = some ((encRead qs).take n) := sn.undo _
    simp [process, hd, hp]
  · have ht : (merge (readStep rt) ([], false) ((encRead qs).take n)).2 = true := by
      by_contra hne
      apply hp
      show (match merge (readStep rt) ([], false) ((encRead qs).take n) with | (m, true) => some (⟨m.1, m.1.isEmpty && !m.2⟩ : ReadReq) | (_, false) => none) = _
      rcases hm : merge (readStep rt) ([], false) ((encRead qs).take n) with ⟨m, _ | _⟩
      · rfl
      · rw [hm] at hne; simp at hne
    obtain ⟨j, hj, e⟩ := read_cut hr qs h hb ([], false) n _ ht
    by_cases hj0 : qs.take j = []
    · left
      rw [e, hj0]
      have hd : (pbFormats sn rt).decompress (sn.compress (encRead [])) = some (encRead []) := sn.undo _
      have hpp : (pbFormats sn rt).parseRead (encRead []) = some ⟨[], true⟩ := by
        show (match merge (readStep rt) ([], false) (encRead []) with | (m, true) => some (⟨m.1, m.1.isEmpty && !m.2⟩ : ReadReq) | (_, false) => none) = _
        simp [encRead, encRepeated, merge, mergeLoop]
      simp [process, hd, hpp]
    · right
      refine ⟨j, hj, fun e0 => hj0 (by rw [e0]; rfl), e, ?_⟩
      rw [e]
      have hle : (encRead (qs.take j)).length ≤ (encRead qs).length := by rw [← e, length_take]; omega
      exact C59_read_roundtrip sn rt _ hj0 (fun q hq => h q (mem_of_mem_take hq)) (by omega)

/-- Why only partial: a runtime that reads what there is of a nested message that announces more bytes accepts the two bytes
`0a 05`, which encode nothing, as a request with one query without matchers. -/
theorem C71_overrun (sn : Snappy) (rt : PbRt) (ho : rt.overrun 5 [] = true) :
    (pbFormats sn rt).parseRead [0x0a#8, 0x05#8] = some ⟨[⟨0, 0, []⟩], false⟩ ∧ ∀ qs, ¬ IsRead rt.utf8 qs [0x0a#8, 0x05#8] := by
  have key : ∀ rt' : PbRt, rt'.overrun 5 [] = false → merge (readStep rt') ([], false) [0x0a#8, 0x05#8] = (([⟨0, 0, []⟩], false), false) := by
    intro rt' ho'
    simp [merge, mergeLoop, readTag, readVarint32, readVarint, readVarintFrom, readStep, readRepeated, readMessage, ho']
  constructor
  · show (match merge (readStep rt) ([], false) [0x0a#8, 0x05#8] with | (m, true) => some (⟨m.1, m.1.isEmpty && !m.2⟩ : ReadReq) | (_, false) => none) = _
    have : merge (readStep rt) ([], false) [0x0a#8, 0x05#8] = (([⟨0, 0, []⟩], false), true) := by
      simp [merge, mergeLoop, readTag, readVarint32, readVarint, readVarintFrom, readStep, readRepeated, readMessage, ho]
    rw [this]; rfl
  · intro qs hq
    obtain ⟨b, hb⟩ := read_merge ⟨rt.utf8, rt.skipGroup, fun _ _ => false, rt.shrinks, rt.utf8nil⟩ hq
    rw [key _ rfl] at hb
    simp at hb

/-! ### Examples -/

example : (merge (writeStep exRt) [] exWire).2 = true ∧ ∃ m, IsWrite exRt.utf8 m exWire := ⟨by decide +kernel, _, exWire_valid⟩

theorem exRt_strict : exRt.Strict := ⟨fun _ => rfl, fun _ _ => rfl⟩

-- a query with a field of number zero is refused, a query is answered, a query cut after five bytes is refused
example : process nullDb (pbFormats exSnappy exRt) ⟨[114#8], [119#8]⟩ () ⟨[114#8], some [0x0a#8, 0x02#8, 0x00#8, 0x01#8]⟩ = (some ⟨500, []⟩, ()) :=
  C71_refused_partial nullDb exSnappy exRt exRt_strict ⟨[114#8], [119#8]⟩ () [0x0a#8, 0x02#8, 0x00#8, 0x01#8] _ rfl (by
    intro qs h
    obtain ⟨z, hz⟩ := (C71_parse_partial exSnappy exRt exRt_strict _ qs).mpr h
    have : (pbFormats exSnappy exRt).parseRead [0x0a#8, 0x02#8, 0x00#8, 0x01#8] |>.isNone := by decide +kernel
    rw [hz] at this; cases this)
example : process nullDb (pbFormats exSnappy exRt) ⟨[114#8], [119#8]⟩ () ⟨[114#8], some (encRead [wireQuery [lbl "a" "1"] 5#64 1550#64])⟩ =
    (some ⟨200, encResponse [[]]⟩, ()) := by decide +kernel
example : process nullDb (pbFormats exSnappy exRt) ⟨[114#8], [119#8]⟩ () ⟨[114#8], some ((encRead [wireQuery [lbl "a" "1"] 5#64 1550#64]).take 5)⟩ =
    (some ⟨500, []⟩, ()) := by
  rcases C71_cut_partial nullDb exSnappy exRt exRt_strict ⟨[114#8], [119#8]⟩ () [wireQuery [lbl "a" "1"] 5#64 1550#64] (by
    intro q hq
    simp only [List.mem_singleton] at hq
    subst hq
    exact ⟨⟨by decide, by decide⟩, ⟨by decide, by decide⟩, fun _ _ => ⟨rfl, rfl⟩⟩) (by decide +kernel) 5 with h | ⟨j, hj, h0, h, -⟩
  · exact h
  · have : j = 1 := by simp at hj; omega
    subst this
    have h1 := congrArg List.length h
    revert h1; decide +kernel

end Verif
