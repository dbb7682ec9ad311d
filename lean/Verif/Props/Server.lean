import Verif.Model.Server
import Verif.Props.Db
/-! Properties C47-C50: the HTTP endpoints. -/
namespace Verif

/-! ### C47 -/

theorem asU64_asI64 (t : U64) : asU64 (asI64 t) = t := by
  unfold asU64 asI64; exact BitVec.ofInt_toInt

/-- C47: a stored point survives the conversion to a wire sample and back, for all 64-bit timestamps and values. -/
theorem C47_point_roundtrip (p : TimePoint) : ofSample (toSample p) = p := by
  unfold ofSample toSample; rw [asU64_asI64]

/-- C47: a sample with any `i64` timestamp survives the conversion to a stored point and back. -/
theorem C47_sample_roundtrip (s : Sample) (h : -2 ^ 63 ≤ s.timestamp ∧ s.timestamp < 2 ^ 63) : toSample (ofSample s) = s := by
  obtain ⟨v, t⟩ := s
  unfold ofSample toSample asU64 asI64
  simp only [] at h
  congr 1
  rw [BitVec.toInt_ofInt]
  refine Int.bmod_eq_of_le ?_ ?_ <;> (norm_num; omega)

/-- C47: the sample on the wire has the value's bits, and the same number as timestamp if it is below 2^63. -/
theorem C47_sample_value (p : TimePoint) : (toSample p).value = p.val ∧ (p.ts.toNat < 2 ^ 63 → (toSample p).timestamp = p.ts.toNat) := by
  refine ⟨rfl, fun h => ?_⟩
  show p.ts.toInt = _
  rw [BitVec.toInt_eq_toNat_of_lt (by omega)]

/-- C47: a series survives as well. -/
theorem C47_series_roundtrip (e : Labels × List TimePoint) : ofSeries (toSeries e) = e := by
  unfold ofSeries toSeries
  have : (ofSample ∘ toSample) = id := funext C47_point_roundtrip
  simp [List.map_map, this]

/-- The database's answer to a wire query. -/
def dbAnswer {δ : Type} (D : DbApi δ) (db : δ) (q : PQuery) : Res (List (Labels × List TimePoint)) :=
  D.query db (q.matchers.map fun m => ⟨m.name, m.value⟩) (asU64 q.start_) (asU64 q.end_)

theorem mapM_ok {α β : Type} {f : α → Res β} (l : List α) (h : ∀ a ∈ l, ∃ b, f a = .ok b) :
    ∃ r, Res.mapM f l = .ok r ∧ r.length = l.length ∧ ∀ (i : Nat) (hi : i < l.length) (hr : i < r.length), f l[i] = .ok r[i] := by
  induction l with
  | nil => exact ⟨[], rfl, rfl, by simp⟩
  | cons a as ih =>
    obtain ⟨b, hb⟩ := h a (by simp)
    obtain ⟨r, h1, h2, h3⟩ := ih fun x hx => h x (by simp [hx])
    refine ⟨b :: r, by rw [Res.mapM, hb, Res.bind_ok, h1, Res.bind_ok], by simp [h2], ?_⟩
    intro i hi hr
    cases i with
    | zero => exact hb
    | succ i => exact h3 i (by simpa using hi) (by simpa using hr)

/-- C47: if the database panics for no query of a request, the read endpoint returns one result per query, in request order:
the result of a query the database answers is that answer, unchanged when converted back; that of a query it refuses is empty. -/
theorem C47_results {δ : Type} (D : DbApi δ) (db : δ) (qs : List PQuery) (hp : ∀ q ∈ qs, dbAnswer D db q ≠ .panic) :
    ∃ rs, serverQuery D db qs = .ok rs ∧ rs.length = qs.length ∧ ∀ (i : Nat) (hi : i < qs.length) (hr : i < rs.length),
      (∀ r, dbAnswer D db qs[i] = .ok r → rs[i] = r.map toSeries ∧ rs[i].map ofSeries = r) ∧
      (∀ e, dbAnswer D db qs[i] = .err e → rs[i] = []) := by
  have hall : ∀ q ∈ qs, ∃ b, answerQuery D db q = .ok b := by
    intro q hq
    have := hp q hq
    unfold answerQuery
    show ∃ b, (match dbAnswer D db q with | .ok r => Res.ok (r.map toSeries) | .err _ => .ok [] | .panic => .panic) = .ok b
    rcases h : dbAnswer D db q with r | e | _
    · exact ⟨_, rfl⟩
    · exact ⟨_, rfl⟩
    · exact absurd h this
  obtain ⟨rs, h1, h2, h3⟩ := mapM_ok qs hall
  refine ⟨rs, h1, h2, ?_⟩
  intro i hi hr
  have := h3 i hi hr
  have e : answerQuery D db qs[i] =
      (match dbAnswer D db qs[i] with | .ok r => Res.ok (r.map toSeries) | .err _ => .ok [] | .panic => .panic) := rfl
  rw [e] at this
  refine ⟨fun r h => ?_, fun er h => ?_⟩
  · rw [h] at this
    simp only [Res.ok.injEq] at this
    rw [← this]
    refine ⟨rfl, ?_⟩
    have : (ofSeries ∘ toSeries) = id := funext C47_series_roundtrip
    rw [List.map_map, this, List.map_id]
  · rw [h] at this
    simp only [Res.ok.injEq] at this
    exact this.symm

/-- C47: a read request that decompresses and parses, with non-zero size, is answered by status 200 and the encoding of those
results; the database is unchanged. -/
theorem C47_response {δ : Type} (D : DbApi δ) (F : Formats) (P : Paths) (db : δ) (body content : Str) (req : ReadReq)
    (rs : List (List PSeries)) (hd : F.decompress body = some content) (hr : F.parseRead content = some req) (hz : req.sizeZero = false)
    (hs : serverQuery D db req.queries = .ok rs) :
    process D F P db ⟨P.read, some body⟩ = (some ⟨200, F.respond rs⟩, db) := by
  simp [process, hd, hr, hz, hs]

/-- A wire query. -/
def wireQuery (ls : Labels) (a b : U64) : PQuery := ⟨asI64 a, asI64 b, ls.map fun l => ⟨.eq, l.key, l.value⟩⟩

theorem wireQuery_answer {δ : Type} (D : DbApi δ) (db : δ) (ls : Labels) (a b : U64) : dbAnswer D db (wireQuery ls a b) = D.query db ls a b := by
  unfold dbAnswer wireQuery
  simp only [asU64_asI64, List.map_map]
  congr 1
  conv_rhs => rw [← List.map_id ls]
  rfl

-- two queries on the example database: the second has no data and gets an empty result
example : ∃ rs r, serverQuery (sledDb stdBinSearch idealHash [(sledChunk stdBinSearch exOld).view (sledComp stdBinSearch)]) (sledChunk stdBinSearch exCur)
      [wireQuery [lbl "a" "1"] 5#64 1550#64] = .ok rs ∧ rs = [r] ∧ (⟨[lbl "a" "1"], [⟨5#64, 10⟩, ⟨8#64, 1500⟩]⟩ : PSeries) ∈ r := by
  obtain ⟨r, h1, h2, -⟩ := C40_sled stdBinSearch idealHash [exOld] exCur exDescs_fine exDescs_incr [lbl "a" "1"] exQ_wf 5#64 1550#64 (by decide)
    (idealHash_good _)
  have hq : dbAnswer (sledDb stdBinSearch idealHash [(sledChunk stdBinSearch exOld).view (sledComp stdBinSearch)]) (sledChunk stdBinSearch exCur)
      (wireQuery [lbl "a" "1"] 5#64 1550#64) = .ok r := by rw [wireQuery_answer]; exact h1
  obtain ⟨rs, e1, e2, e3⟩ := C47_results (sledDb stdBinSearch idealHash [(sledChunk stdBinSearch exOld).view (sledComp stdBinSearch)])
    (sledChunk stdBinSearch exCur) [wireQuery [lbl "a" "1"] 5#64 1550#64] (by
      intro q hq'
      simp only [List.mem_singleton] at hq'
      subst hq'
      rw [hq]; simp)
  have hl : 0 < rs.length := by rw [e2]; simp
  have := ((e3 0 (by simp) hl).1 r hq).1
  refine ⟨rs, r.map toSeries, e1, ?_, ?_⟩
  · obtain ⟨x, hx⟩ := List.length_eq_one_iff.mp e2
    subst hx
    rw [← this]; rfl
  · have hm : ([lbl "a" "1"], [⟨10#64, 5#64⟩, ⟨1500#64, 8#64⟩]) ∈ r := (h2.entries _ _).mpr (by decide +kernel)
    exact List.mem_map_of_mem hm
example : ofSample ⟨0x8000000000000000#64, -5⟩ = ⟨0xFFFFFFFFFFFFFFFB#64, 0x8000000000000000#64⟩ := by decide

/-! ### C48 -/

/-- Writing series one after another through the batch write, ignoring the outcomes. -/
def writeInOrder {δ : Type} (D : DbApi δ) (db : δ) (ss : List PSeries) : δ :=
  ss.foldl (fun db s => (D.write db s.labels (s.samples.map ofSample)).2) db

/-- All series are written successfully. -/
def allWritten {δ : Type} (D : DbApi δ) (db : δ) (ss : List PSeries) : Prop :=
  ∀ pre s post, ss = pre ++ s :: post → (D.write (writeInOrder D db pre) s.labels (s.samples.map ofSample)).1 = .ok ()

/-- C48, every database: a write request either writes all its series in order and succeeds, or there is a first series that
fails: then the request fails in the same way, all earlier series were written successfully, the failing one left whatever its
batch write leaves, and no later one was attempted. -/
theorem C48_order {δ : Type} (D : DbApi δ) (db : δ) (ss : List PSeries) :
    (allWritten D db ss ∧ serverWrite D db ss = (.ok (), writeInOrder D db ss)) ∨
    ∃ pre s post, ss = pre ++ s :: post ∧ allWritten D db pre ∧
      (D.write (writeInOrder D db pre) s.labels (s.samples.map ofSample)).1 ≠ .ok () ∧
      serverWrite D db ss = D.write (writeInOrder D db pre) s.labels (s.samples.map ofSample) := by
  induction ss generalizing db with
  | nil => exact Or.inl ⟨by intro pre s post e; simp at e, rfl⟩
  | cons s ss ih =>
    rcases h : D.write db s.labels (s.samples.map ofSample) with ⟨r, db'⟩
    have hstep : serverWrite D db (s :: ss) = (match (r, db') with | (.ok (), db') => serverWrite D db' ss | r => r) := by
      rw [serverWrite]; unfold ofSeries; rw [h]; rfl
    have hfold : ∀ l, writeInOrder D db (s :: l) = writeInOrder D db' l := by
      intro l; unfold writeInOrder; rw [List.foldl_cons, h]
    have hcons : ∀ l, r = .ok () → allWritten D db' l → allWritten D db (s :: l) := by
      intro l hr hl pre x post e
      cases pre with
      | nil =>
        simp only [List.nil_append, List.cons.injEq] at e
        obtain ⟨rfl, rfl⟩ := e
        show (D.write db _ _).1 = _
        rw [h]; exact hr
      | cons y pre =>
        simp only [List.cons_append, List.cons.injEq] at e
        obtain ⟨rfl, e⟩ := e
        rw [hfold]
        exact hl pre x post e
    rcases r with ⟨⟩ | e | _
    · rcases ih db' with ⟨h1, h2⟩ | ⟨pre, x, post, rfl, h1, h2, h3⟩
      · exact Or.inl ⟨hcons _ rfl h1, by rw [hstep, hfold]; exact h2⟩
      · exact Or.inr ⟨s :: pre, x, post, rfl, hcons _ rfl h1, by rw [hfold]; exact h2, by rw [hstep, hfold]; exact h3⟩
    · exact Or.inr ⟨[], s, ss, rfl, by intro pre x post e; simp at e, by show (D.write db _ _).1 ≠ _; rw [h]; simp,
        by rw [hstep]; show _ = D.write db _ _; rw [h]⟩
    · exact Or.inr ⟨[], s, ss, rfl, by intro pre x post e; simp at e, by show (D.write db _ _).1 ≠ _; rw [h]; simp,
        by rw [hstep]; show _ = D.write db _ _; rw [h]⟩

/-- The status tells the outcome. -/
theorem C48_status {δ : Type} (D : DbApi δ) (F : Formats) (P : Paths) (hP : P.read ≠ P.write) (db : δ) (body content : Str)
    (hd : F.decompress body = some content) :
    process D F P db ⟨P.write, some body⟩ =
      ((match (serverWrite D db (F.parseWrite content)).1 with | .ok () => some ⟨200, []⟩ | .err _ => some ⟨500, []⟩ | .panic => none),
        (serverWrite D db (F.parseWrite content)).2) := by
  simp only [process, hd, if_neg (Ne.symm hP), if_true]
  rcases serverWrite D db (F.parseWrite content) with ⟨⟨⟩ | e | _, db'⟩ <;> rfl

/-- A series of a request fails if it has a point exactly on the start or end of the window (C37). -/
def failsIn (lo hi : U64) (s : PSeries) : Prop := ∃ x ∈ s.samples, onBoundary lo hi (ofSample x)

instance (lo hi : U64) (s : PSeries) : Decidable (failsIn lo hi s) := by unfold failsIn; infer_instance

/-- The series a request writes: up to and including the first failing one. -/
def attempted (lo hi : U64) : List PSeries → List PSeries
  | [] => []
  | s :: ss => if failsIn lo hi s then [s] else s :: attempted lo hi ss

/-- The inserts these series stand for. -/
def requestInserts (lo hi : U64) (ss : List PSeries) : Inserts :=
  ss.flatMap fun s => (keptPoints lo hi (s.samples.map ofSample)).map fun p => (s.labels, p)

/-- C48, sled: a write request fails iff one of its series has a point on the window boundary, and the chunk then holds the
kept points of the series up to and including the first such one, else those of all. -/
theorem C48_sled (B : BinSearch) (H : Hash) (sec : List View) (lo hi : U64) (h : Inserts) (ss : List PSeries) (hf : ∀ w ∈ h, WFSet w.1)
    (hs : ∀ s ∈ ss, WFSet s.labels) (hlen : h.length + (ss.map fun s => s.samples.length).sum + 1 < 2 ^ 64 - 1) :
    serverWrite (sledDb B H sec) ((newSled lo hi).insertAll (sledComp B) h) ss =
      (if ∃ s ∈ ss, failsIn lo hi s then .err .internal else .ok (),
       (newSled lo hi).insertAll (sledComp B) (h ++ requestInserts lo hi (attempted lo hi ss))) := by
  induction ss generalizing h with
  | nil => simp [serverWrite, attempted, requestInserts]
  | cons s ss ih =>
    simp only [List.map_cons, List.sum_cons] at hlen
    have hb := C37_sled B lo hi h s.labels (hs s (by simp)) (s.samples.map ofSample) hf (by simp only [List.length_map]; omega)
    have hw : (sledDb B H sec).write ((newSled lo hi).insertAll (sledComp B) h) s.labels (s.samples.map ofSample) =
        (if failsIn lo hi s then .err .internal else .ok (),
          (newSled lo hi).insertAll (sledComp B) (h ++ asInserts s.labels (keptPoints lo hi (s.samples.map ofSample)))) := by
      refine Prod.ext ?_ hb.2
      refine hb.1.trans ?_
      have : (∃ p ∈ s.samples.map ofSample, onBoundary lo hi p) ↔ failsIn lo hi s := by
        unfold failsIn; simp
      by_cases hx : failsIn lo hi s
      · rw [if_pos (this.mpr hx), if_pos hx]
      · rw [if_neg (fun c => hx (this.mp c)), if_neg hx]
    rw [serverWrite]
    unfold ofSeries
    simp only []
    rw [hw]
    by_cases hx : failsIn lo hi s
    · simp only [if_pos hx]
      rw [if_pos ⟨s, by simp, hx⟩]
      simp [attempted, hx, requestInserts, asInserts]
    · simp only [if_neg hx]
      have hk : (keptPoints lo hi (s.samples.map ofSample)).length ≤ s.samples.length := by
        unfold keptPoints
        exact (List.length_filter_le _ _).trans (by simp)
      rw [ih]
      · have : (∃ x ∈ s :: ss, failsIn lo hi x) ↔ ∃ x ∈ ss, failsIn lo hi x := by simp [hx]
        simp only [this]
        simp [attempted, hx, requestInserts, asInserts, List.append_assoc]
      · intro w hw'
        rw [List.mem_append] at hw'
        rcases hw' with hw' | hw'
        · exact hf w hw'
        · unfold asInserts at hw'
          obtain ⟨p, -, rfl⟩ := List.mem_map.mp hw'
          exact hs s (by simp)
      · exact fun x hx => hs x (by simp [hx])
      · simp only [List.length_append, asInserts, List.length_map]
        omega

/-- Example request: three series, the second with a point on the end of the window (100, 1000). -/
def exRequest : List PSeries :=
  [⟨[lbl "a" "1"], [⟨1#64, 200⟩]⟩, ⟨[lbl "b" "1"], [⟨2#64, 1000⟩, ⟨3#64, 300⟩]⟩, ⟨[lbl "c" "1"], [⟨4#64, 400⟩]⟩]

-- the request fails; series `a` is written, series `b` in part (its good point, 300), series `c` not at all
example : serverWrite (sledDb stdBinSearch idealHash []) ((newSled 100#64 1000#64).insertAll (sledComp stdBinSearch) []) exRequest =
    (.err .internal, (newSled 100#64 1000#64).insertAll (sledComp stdBinSearch)
      [([lbl "a" "1"], ⟨200#64, 1#64⟩), ([lbl "b" "1"], ⟨1000#64, 2#64⟩), ([lbl "b" "1"], ⟨300#64, 3#64⟩)]) := by
  rw [C48_sled stdBinSearch idealHash [] 100#64 1000#64 [] exRequest (by simp) (by
    intro s hs
    simp only [exRequest, List.mem_cons, List.not_mem_nil, or_false] at hs
    rcases hs with rfl | rfl | rfl <;> exact wfSet_of (by decide +kernel)) (by decide)]
  have h1 : ∃ s ∈ exRequest, failsIn 100#64 1000#64 s := by decide +kernel
  rw [if_pos h1]
  have h2 : [] ++ requestInserts 100#64 1000#64 (attempted 100#64 1000#64 exRequest) =
    [([lbl "a" "1"], ⟨200#64, 1#64⟩), ([lbl "b" "1"], ⟨1000#64, 2#64⟩), ([lbl "b" "1"], ⟨300#64, 3#64⟩)] := by decide +kernel
  rw [h2]

/-! ### C49: not true -/

/-- C49 fails: the answer does not depend on the types of the matchers, in any database. -/
theorem C49_violated_types {δ : Type} (D : DbApi δ) (db : δ) (q : PQuery) (ts : LabelMatcher → MatcherType) :
    answerQuery D db { q with matchers := q.matchers.map fun m => { m with type := ts m } } = answerQuery D db q := by
  unfold answerQuery
  simp only [List.map_map]
  rfl

/-- C49 fails: asking a database that holds the series `{a=1}` for everything with `a` not equal to `1` returns `{a=1}`. -/
theorem C49_violated (B : BinSearch) :
    answerQuery (sledDb B idealHash []) (sledChunk B exShort) ⟨5, 50, [⟨.neq, (lbl "a" "1").key, (lbl "a" "1").value⟩]⟩ =
      .ok [⟨[lbl "a" "1"], [⟨5#64, 10⟩]⟩] := by
  have hincr : ∀ ls, SIncr (pointsFor (insideOnly exShort.lo exShort.hi exShort.h) ls) := fun ls => incr_pointsFor (by unfold SIncr; decide +kernel) ls
  have hq : ((sledChunk B exShort).view (sledComp B)).query [lbl "a" "1"] 5#64 50#64 = .ok [⟨1#64, [lbl "a" "1"], [⟨10#64, 5#64⟩]⟩] := by
    rw [sledView_query B exShort exShort_fine hincr [lbl "a" "1"] exQ_wf 5#64 50#64 (by decide)]
    decide +kernel
  have hl := labelsEq_self [lbl "a" "1"]
  have ha : (sledDb B idealHash []).query (sledChunk B exShort) [lbl "a" "1"] 5#64 50#64 = .ok [([lbl "a" "1"], [⟨10#64, 5#64⟩])] := by
    unfold sledDb dbQuery queryCurrent
    simp only []
    rw [hq]
    simp [addSeries, HMap.insert, HMap.find, order_nil, order_one, Hash.scan, querySecondary, collectKeys, hl, Res.ofPanic, idealHash]
  unfold answerQuery
  have e1 : asU64 5 = 5#64 := by decide
  have e2 : asU64 50 = 50#64 := by decide
  show (match (sledDb B idealHash []).query (sledChunk B exShort) [lbl "a" "1"] (asU64 5) (asU64 50) with
    | .ok r => Res.ok (r.map toSeries) | .err _ => .ok [] | .panic => .panic) = _
  rw [e1, e2, ha]
  rfl

/-- What a matcher asks of a series: an equality matcher its label, a not-equal matcher the absence of it; regular expressions
are left open. -/
def asks (m : LabelMatcher) (s : PSeries) : Prop :=
  match m.type with
  | .eq => (⟨m.name, m.value⟩ : Label) ∈ s.labels
  | .neq => (⟨m.name, m.value⟩ : Label) ∉ s.labels
  | _ => True

/-- The listed statement is false. -/
theorem C49_violated_statement (B : BinSearch) : ¬ ∀ (d : Desc) (q : PQuery) (r : List PSeries), Fine d.h →
    answerQuery (sledDb B idealHash []) (sledChunk B d) q = .ok r → ∀ s ∈ r, ∀ m ∈ q.matchers, asks m s := by
  intro hall
  have := hall exShort _ _ exShort_fine (C49_violated B) ⟨[lbl "a" "1"], [⟨5#64, 10⟩]⟩ List.mem_cons_self
    ⟨.neq, (lbl "a" "1").key, (lbl "a" "1").value⟩ List.mem_cons_self
  exact this List.mem_cons_self

theorem answer_labels {acc : List TimePoint → TimePoint → Bool} {d : Desc} {q : Labels} {a b : U64} {s : Series} (hs : s ∈ d.answer acc q a b)
    {l : Label} (hl : l ∈ q) (hk : ∃ w ∈ d.h, l ∈ w.1) : l ∈ s.labels := by
  unfold Desc.answer at hs
  split at hs
  · unfold specQuery at hs
    split at hs
    · simp [okSeries] at hs
    · simp only [okSeries, restrict] at hs
      obtain ⟨x, hx, rfl⟩ := List.mem_map.mp (List.mem_filter.mp hs).1
      unfold matched at hx
      split at hx
      · simp at hx
      · obtain ⟨y, hy, rfl⟩ := List.mem_map.mp hx
        obtain ⟨-, hy⟩ := List.mem_filter.mp hy
        rw [List.all_eq_true] at hy
        have : l ∈ knownLabels (numbered d.h) q := by
          unfold knownLabels
          rw [List.mem_filter]
          refine ⟨hl, ?_⟩
          obtain ⟨w, hw, hlw⟩ := hk
          obtain ⟨ls, hls, hp⟩ := labelSets_complete hw
          rw [← number_fst (labelSets d.h)] at hls
          obtain ⟨s, hs, rfl⟩ := List.mem_map.mp hls
          rw [List.any_eq_true]
          exact ⟨s, hs, by simpa using hp.mem_iff.mpr hlw⟩
        exact (sortLabels_mem _ _).mpr (by simpa using hy l this)
  · simp at hs

/-- What holds: with only equality matchers whose labels every chunk knows, every returned series satisfies all of them. (A
label that a chunk does not know is ignored in that chunk, C20.) -/
theorem C49_equality_partial (B : BinSearch) (H : Hash) (secondary : List Desc) (cur : Desc) (hf : ∀ d ∈ secondary ++ [cur], Fine d.h)
    (hincr : ∀ d ∈ secondary ++ [cur], ∀ ls, SIncr (pointsFor (insideOnly d.lo d.hi d.h) ls)) (ms : List LabelMatcher)
    (hq : ∀ m ∈ ms, WFLabel ⟨m.name, m.value⟩) (t1 t2 : Int) (hab : (asU64 t1).toNat ≤ (asU64 t2).toNat)
    (hg : H.Good fun ls => ∃ d ∈ secondary ++ [cur], ∃ s ∈ (made d).answer sledAccepts (ms.map fun m => ⟨m.name, m.value⟩) (asU64 t1) (asU64 t2), s.labels = ls)
    (hk : ∀ d ∈ secondary ++ [cur], ∀ m ∈ ms, ∃ w ∈ insideOnly d.lo d.hi d.h, (⟨m.name, m.value⟩ : Label) ∈ w.1) :
    ∃ r, answerQuery (sledDb B H (secondary.map fun d => (sledChunk B d).view (sledComp B))) (sledChunk B cur) ⟨t1, t2, ms⟩ = .ok r ∧
      ∀ s ∈ r, ∀ m ∈ ms, m.type = .eq → asks m s := by
  obtain ⟨r, h1, h2, -⟩ := C40_sled B H secondary cur hf hincr (ms.map fun m => ⟨m.name, m.value⟩)
    (by intro l hl; obtain ⟨m, hm, rfl⟩ := List.mem_map.mp hl; exact hq m hm) (asU64 t1) (asU64 t2) hab hg
  refine ⟨r.map toSeries, ?_, ?_⟩
  · unfold answerQuery
    show (match dbQuery _ _ _ (ms.map fun m => (⟨m.name, m.value⟩ : Label)) _ _ with | .ok r => Res.ok (r.map toSeries) | .err _ => .ok [] | .panic => .panic) = _
    rw [h1]
  · intro s hs m hm ht
    obtain ⟨⟨ls, ps⟩, he, rfl⟩ := List.mem_map.mp hs
    obtain ⟨hne, -⟩ := (h2.entries ls ps).mp he
    obtain ⟨x, hx⟩ := List.exists_mem_of_ne_nil _ hne
    unfold seriesWith at hx
    obtain ⟨y, hy, hxy⟩ := List.mem_flatMap.mp hx
    obtain ⟨d, hd, rfl⟩ := List.mem_map.mp hy
    rw [List.mem_filter, decide_eq_true_eq] at hxy
    obtain ⟨hxa, rfl⟩ := hxy
    unfold asks
    rw [ht]
    exact answer_labels hxa (List.mem_map_of_mem (f := fun m : LabelMatcher => (⟨m.name, m.value⟩ : Label)) hm) (hk d hd m hm)

example : ∃ r, answerQuery (sledDb stdBinSearch idealHash ([exOld].map fun d => (sledChunk stdBinSearch d).view (sledComp stdBinSearch)))
      (sledChunk stdBinSearch exCur) ⟨5, 1550, [⟨.eq, (lbl "a" "1").key, (lbl "a" "1").value⟩]⟩ = .ok r ∧
      ∀ s ∈ r, ∀ m ∈ [⟨.eq, (lbl "a" "1").key, (lbl "a" "1").value⟩], m.type = .eq → asks m s :=
  C49_equality_partial stdBinSearch idealHash [exOld] exCur exDescs_fine exDescs_incr _ (by
    intro m hm
    simp only [List.mem_singleton] at hm
    subst hm
    exact wfLabel_of (by decide +kernel)) 5 1550 (by decide) (idealHash_good _)
    (by decide +kernel)

/-! ### C50: not true -/

/-- A database that never panics. -/
def DbApi.Calm {δ : Type} (D : DbApi δ) : Prop :=
  (∀ db q a b, D.query db q a b ≠ .panic) ∧ ∀ db ls ps, (D.write db ls ps).1 ≠ .panic

/-- C50 fails, in every database: a request whose body is not Snappy data gets no response from the program, and neither does
any later request, whatever it is. Requests before it are served as if it were absent. -/
theorem C50_violated {δ : Type} (D : DbApi δ) (F : Formats) (P : Paths) (db : δ) (bad : Request) (later : List Request)
    (hb : ∀ body, bad.body = some body → F.decompress body = none) :
    serve D F P db (bad :: later) = (List.replicate (later.length + 1) none, db) := by
  have hp : process D F P db bad = (none, db) := by
    unfold process
    rcases h : bad.body with _ | body
    · rfl
    · simp only [hb body h]
  rw [serve, hp]
  simp only [List.replicate_succ, Prod.mk.injEq, List.cons.injEq, true_and, and_true]
  rw [List.map_const']

/-- A chunk query with an inverted range panics if the first matching series starts at or before the end of the range, ends
at or after its start, and has a point in between. -/
theorem sled_query_inverted (B : BinSearch) (d : Desc) (hf : Fine d.h) (hincr : ∀ ls, SIncr (pointsFor (insideOnly d.lo d.hi d.h) ls))
    (q : Labels) (hq : ∀ l ∈ q, WFLabel l) (a b : U64) (ho : overlaps d.lo d.hi a b = true) (x : Series) (rest : List Series)
    (hm : matched sledAccepts (insideOnly d.lo d.hi d.h) q = x :: rest) (f l p : TimePoint) (hxf : x.points.head? = some f)
    (hxl : x.points.getLast? = some l) (hp : p ∈ x.points) (h1 : f.ts.toNat ≤ b.toNat) (h2 : b.toNat < p.ts.toNat)
    (h3 : p.ts.toNat < a.toNat) (h4 : a.toNat ≤ l.ts.toNat) :
    ((sledChunk B d).view (sledComp B)).query q a b = .panic := by
  have hc := sled_rep B d.lo d.hi hf
  have hlen := hf.len
  have hle := insideOnly_length d.lo d.hi d.h
  have hwf : ∀ w ∈ insideOnly d.lo d.hi d.h, WFSet w.1 := fun w hw => hf.wf w (List.mem_filter.mp hw).1
  show Chunk.query (sledComp B) (sledChunk B d) q a b = .panic
  unfold Chunk.query
  rw [Chunk.isWithRange_eq]
  unfold sledChunk
  rw [hc.ok, hc.start_, hc.end_]
  simp only [Bool.false_eq_true, if_false, ho, if_true]
  generalize insideOnly d.lo d.hi d.h = h at *
  have hll := labelSets_length h
  obtain ⟨hids, -⟩ := number_ids (l := labelSets h) (by omega)
  rw [← numbered_eq] at hids
  have hwf' : ∀ x ∈ numbered h, WFSet x.1 := by
    intro x hx
    obtain ⟨w, hw, e⟩ := labelSets_mem (number_mem hx)
    rw [← e]; exact hwf w hw
  rw [(sledRefines B).metadata hc.rep hwf' hids hq, Res.bind_ok]
  have e : specMetadata (numbered h) q = (matched sledAccepts h q).map fun x => (x.id, x.labels) := by
    unfold specMetadata matched
    by_cases hk : knownLabels (numbered h) q = []
    · simp [hk]
    · rw [if_neg hk, if_neg hk, List.map_map]; rfl
  rw [e, hm, List.map_cons, readAll]
  have hx : x ∈ matched sledAccepts h q := by rw [hm]; simp
  unfold matched at hx
  split at hx
  · simp at hx
  · obtain ⟨s, hs, rfl⟩ := List.mem_map.mp hx
    have hsm := (List.mem_filter.mp hs).1
    have hser := seriesOf_mem (acc := sledAccepts) (h := h) (by omega) hsm
    have hinc := hincr s.1
    rw [← keepBy_sled (pointsFor h s.1)] at hinc
    have hread : (sledComp B).read ((newSled d.lo d.hi).insertAll (sledComp B) d.h).store s.2 a b = .panic := by
      have hrep : StoreInv sledKey _ _ := hc.rep.2
      show sledRead B ((newSled d.lo d.hi).insertAll (sledComp B) d.h).store.ser s.2 a b = .panic
      rw [sledRead_eq hrep, hser]
      have hne : keepBy sledAccepts (pointsFor h s.1) ≠ [] := by intro e; simp only [] at hp; rw [e] at hp; simp at hp
      rw [if_neg hne]
      exact (readSeries_panic_iff hinc hxf hxl a b).mpr ⟨h1, h4, p, hp, h2, h3⟩
    simp only []
    rw [hread]; rfl

/-- Three points at 10, 20, 30. -/
def exThree : Desc := ⟨0#64, 1000#64, [([lbl "a" "1"], ⟨10#64, 7#64⟩), ([lbl "a" "1"], ⟨20#64, 8#64⟩), ([lbl "a" "1"], ⟨30#64, 9#64⟩)]⟩

theorem exThree_fine : Fine exThree.h := by
  refine ⟨?_, by decide⟩
  intro w hw
  simp only [exThree, List.mem_cons, List.not_mem_nil, or_false] at hw
  rcases hw with rfl | rfl | rfl <;> exact wfSet_of (by decide +kernel)

/-- Also a well-formed read request can end the server: in a sled database with points at 10, 20, 30, a read from 25 to 15
gets no response from the program, nor does any later request, with every hash map. -/
theorem C50_violated_inverted (B : BinSearch) (H : Hash) (F : Formats) (P : Paths) (body content : Str) (later : List Request)
    (hd : F.decompress body = some content)
    (hr : F.parseRead content = some ⟨[⟨25, 15, [⟨.eq, (lbl "a" "1").key, (lbl "a" "1").value⟩]⟩], false⟩) :
    serve (sledDb B H []) F P (sledChunk B exThree) (⟨P.read, some body⟩ :: later) =
      (List.replicate (later.length + 1) none, sledChunk B exThree) := by
  have hq : ((sledChunk B exThree).view (sledComp B)).query [lbl "a" "1"] 25#64 15#64 = .panic :=
    sled_query_inverted B exThree exThree_fine (fun ls => incr_pointsFor (by unfold SIncr; decide +kernel) ls) [lbl "a" "1"] exQ_wf 25#64 15#64
      (by decide) ⟨1#64, [lbl "a" "1"], [⟨10#64, 7#64⟩, ⟨20#64, 8#64⟩, ⟨30#64, 9#64⟩]⟩ [] (by decide +kernel) ⟨10#64, 7#64⟩ ⟨30#64, 9#64⟩ ⟨20#64, 8#64⟩
      rfl rfl (by decide) (by decide) (by decide) (by decide) (by decide)
  have hs : serverQuery (sledDb B H []) (sledChunk B exThree) [⟨25, 15, [⟨.eq, (lbl "a" "1").key, (lbl "a" "1").value⟩]⟩] = .panic := by
    unfold serverQuery Res.mapM answerQuery
    have e1 : asU64 25 = 25#64 := by decide
    have e2 : asU64 15 = 15#64 := by decide
    have : (sledDb B H []).query (sledChunk B exThree) [lbl "a" "1"] (asU64 25) (asU64 15) = .panic := by
      rw [e1, e2]
      unfold sledDb dbQuery queryCurrent
      simp only []
      rw [hq]
    show Res.bind (match (sledDb B H []).query (sledChunk B exThree) [lbl "a" "1"] (asU64 25) (asU64 15) with
      | .ok r => Res.ok (r.map toSeries) | .err _ => .ok [] | .panic => .panic) _ = _
    rw [this]; rfl
  have hp : process (sledDb B H []) F P (sledChunk B exThree) ⟨P.read, some body⟩ = (none, sledChunk B exThree) := by
    simp only [process, hd, hr, if_true, hs]
    rfl
  rw [serve, hp]
  simp only [List.replicate_succ, Prod.mk.injEq, List.cons.injEq, true_and, and_true]
  rw [List.map_const']

/-- A body whose protobuf part is broken is not reported as an error by the write endpoint: what was parsed before the defect
is written and the status is 200 (here: nothing parsed). -/
theorem C50_violated_write_accepts {δ : Type} (D : DbApi δ) (F : Formats) (P : Paths) (hP : P.read ≠ P.write) (db : δ) (body content : Str)
    (hd : F.decompress body = some content) (hw : F.parseWrite content = []) :
    process D F P db ⟨P.write, some body⟩ = (some ⟨200, []⟩, db) := by
  rw [C48_status D F P hP db body content hd, hw]; rfl

/-- What holds: if every body can be read and decompressed and the database never panics, every request of every sequence
is answered; a read request that does not parse (or is empty) gets status 500 and leaves the database alone; an unknown
path gets 404. -/
theorem C50_partial {δ : Type} (D : DbApi δ) (F : Formats) (P : Paths) (hD : D.Calm) (rs : List Request)
    (hrs : ∀ r ∈ rs, ∃ body content, r.body = some body ∧ F.decompress body = some content) (db : δ) :
    (serve D F P db rs).1.length = rs.length ∧ (∀ x ∈ (serve D F P db rs).1, x ≠ none) ∧
    ∀ body content, F.decompress body = some content →
      ((∀ req, F.parseRead content = some req → req.sizeZero = true) → process D F P db ⟨P.read, some body⟩ = (some ⟨500, []⟩, db)) ∧
      ∀ url, url ≠ P.read → url ≠ P.write → process D F P db ⟨url, some body⟩ = (some ⟨404, []⟩, db) := by
  have hproc : ∀ db r, (∃ body content, r.body = some body ∧ F.decompress body = some content) → ∃ x db', process D F P db r = (some x, db') := by
    rintro db r ⟨body, content, h1, h2⟩
    unfold process
    rw [h1]; simp only []; rw [h2]; simp only []
    split
    · rcases F.parseRead content with _ | req
      · exact ⟨_, _, rfl⟩
      · simp only []
        split
        · exact ⟨_, _, rfl⟩
        · have hnp : ∀ q ∈ req.queries, dbAnswer D db q ≠ .panic := fun q _ => hD.1 _ _ _ _
          obtain ⟨x, hx, -⟩ := C47_results D db req.queries hnp
          rw [hx]; exact ⟨_, _, rfl⟩
    · split
      · rcases C48_order D db (F.parseWrite content) with ⟨-, h⟩ | ⟨pre, s, post, -, -, -, h⟩
        · rw [h]; exact ⟨_, _, rfl⟩
        · rw [h]
          have := hD.2 (writeInOrder D db pre) s.labels (s.samples.map ofSample)
          rcases hw : D.write (writeInOrder D db pre) s.labels (s.samples.map ofSample) with ⟨r, db'⟩
          rw [hw] at this
          rcases r with ⟨⟩ | e | _
          · exact ⟨_, _, rfl⟩
          · exact ⟨_, _, rfl⟩
          · exact absurd rfl this
      · exact ⟨_, _, rfl⟩
  have hserve : ∀ rs : List Request, (∀ r ∈ rs, ∃ body content, r.body = some body ∧ F.decompress body = some content) → ∀ db,
      (serve D F P db rs).1.length = rs.length ∧ ∀ x ∈ (serve D F P db rs).1, x ≠ none := by
    intro rs
    induction rs with
    | nil => intro _ db; simp [serve]
    | cons r rs ih =>
      intro hr db
      obtain ⟨x, db', hp⟩ := hproc db r (hr r (by simp))
      obtain ⟨h1, h2⟩ := ih (fun y hy => hr y (by simp [hy])) db'
      rw [serve, hp]
      simp only [List.length_cons, h1, true_and]
      intro y hy
      rw [List.mem_cons] at hy
      rcases hy with rfl | hy
      · simp
      · exact h2 y hy
  refine ⟨(hserve rs hrs db).1, (hserve rs hrs db).2, ?_⟩
  intro body content hd
  refine ⟨fun hz => ?_, fun url h1 h2 => by simp [process, hd, h1, h2]⟩
  simp only [process, hd, if_true]
  rcases h : F.parseRead content with _ | req
  · rfl
  · simp only [hz req h, if_true]

-- formats in which `[0]` is not Snappy data, and a database that never panics
def exFormats : Formats := ⟨fun b => if b = [0#8] then none else some b, fun _ => none, fun _ => [], fun _ => []⟩
def exDbApi : DbApi Unit := ⟨fun _ _ _ _ => .ok [], fun _ _ _ => (.ok (), ())⟩
example : serve exDbApi exFormats ⟨[1#8], [2#8]⟩ () [⟨[2#8], some [7#8]⟩, ⟨[2#8], some [0#8]⟩, ⟨[2#8], some [7#8]⟩] =
    ([some ⟨200, []⟩, none, none], ()) := by decide +kernel
example : exDbApi.Calm ∧ ∀ r ∈ [(⟨[2#8], some [7#8]⟩ : Request)], ∃ body content, r.body = some body ∧ exFormats.decompress body = some content :=
  ⟨⟨by simp [exDbApi], by simp [exDbApi]⟩, by
    intro r hr
    simp only [List.mem_singleton] at hr
    subst hr
    exact ⟨_, _, rfl, rfl⟩⟩

end Verif
