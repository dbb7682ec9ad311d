import Verif.Spec.Bytes
import Verif.Lemmas.Values
import Verif.Props.ChunkDir
namespace Verif
open List

/-- The stored series can be decoded. Nothing is known about the index. -/
def CalmStore (s : SledStores) : Prop := ∃ series, StoreInv sledKey series s.ser

theorem calm_none : CalmStore noStores := ⟨fun _ => [], fun i => by simp [noStores, KV.empty]⟩

/-- The database works: chunks started at times in `T`. -/
structure CalmDb (T : List U64) (size : U64) (db : LiveDb) : Prop where
  cur : db.cur.poisoned = false ∧ CalmStore db.cur.store
  window : ∃ a ∈ T, db.cur.start_ = a ∧ db.cur.end_ = a + size
  secondary : ∀ c ∈ db.secondary, c.poisoned = false ∧ CalmStore c.store
  old : ∀ s ∈ db.old, s.config = .complete ∧ (∃ a ∈ T, s.name = encodeChunkDir a (a + size)) ∧ CalmStore s.stores

theorem CalmDb.mono {T T' : List U64} (hT : ∀ a ∈ T, a ∈ T') {size : U64} {db : LiveDb} (h : CalmDb T size db) : CalmDb T' size db where
  cur := h.cur
  window := by obtain ⟨a, h1, h2⟩ := h.window; exact ⟨a, hT a h1, h2⟩
  secondary := h.secondary
  old s hs := by obtain ⟨h1, ⟨a, h2, h3⟩, h4⟩ := h.old s hs; exact ⟨h1, ⟨a, hT a h2, h3⟩, h4⟩

theorem CalmDb.slots {T : List U64} {size : U64} {db : LiveDb} (h : CalmDb T size db) :
    ∀ s ∈ db.slots, s.config = .complete ∧ (∃ a ∈ T, s.name = encodeChunkDir a (a + size)) ∧ CalmStore s.stores := by
  intro s hs
  rcases List.mem_append.mp hs with hs | hs
  · exact h.old s hs
  · rw [List.mem_singleton] at hs; subst hs
    obtain ⟨a, h1, h2, h3⟩ := h.window
    exact ⟨rfl, ⟨a, h1, by simp only [h2, h3]⟩, h.cur.2⟩

theorem CalmDb.taken {T : List U64} {size : U64} {db : LiveDb} (h : CalmDb T size db) {a : U64} (ha : db.taken a (a + size) = true) : a ∈ T := by
  unfold LiveDb.taken at ha
  rw [List.any_eq_true] at ha
  obtain ⟨s, hs, hn⟩ := ha
  rw [decide_eq_true_eq] at hn
  obtain ⟨-, ⟨b, hb, e⟩, -⟩ := h.slots s hs
  rw [hn] at e
  have := (C10_injective _ _ _ _ e).1
  rw [this]; exact hb

/-! ### Writing -/

theorem calm_insert {c : Chunk SledStores} (h : c.poisoned = false ∧ CalmStore c.store) (B : BinSearch) (ls : Labels) (p : TimePoint) :
    (c.insert (sledComp B) ls p).1 ≠ .panic ∧ (c.insert (sledComp B) ls p).2.poisoned = false ∧ CalmStore (c.insert (sledComp B) ls p).2.store ∧
    (c.insert (sledComp B) ls p).2.start_ = c.start_ ∧ (c.insert (sledComp B) ls p).2.end_ = c.end_ := by
  obtain ⟨hp, series, hs⟩ := h
  unfold Chunk.insert
  rw [if_neg (by rw [hp]; simp)]
  split
  · have hb : (c.insertBody (sledComp B) ls p).1 ≠ .panic ∧ (c.insertBody (sledComp B) ls p).2.poisoned = false ∧
        CalmStore (c.insertBody (sledComp B) ls p).2.store ∧ (c.insertBody (sledComp B) ls p).2.start_ = c.start_ ∧ (c.insertBody (sledComp B) ls p).2.end_ = c.end_ := by
      unfold Chunk.insertBody
      rcases hk : (sledComp B).byLabels c.store ls with o | e | _
      · cases o with
        | none =>
          simp only []
          have hkn : c.store.idx (encodeLabels ls true) = none := by
            have hk : sledByLabels c.store.idx ls = .ok none := hk
            unfold sledByLabels at hk
            split at hk
            · rename_i v _
              rcases hv : parseId v with i | e | _
              · rw [hv, Res.bind_ok] at hk; cases hk
              · rw [hv] at hk; cases hk
              · rw [hv] at hk; cases hk
            · assumption
          have hc : (sledCreate c.store.idx ls (idNext c.nextId).1).1 = .ok () := by
            unfold sledCreate; rw [if_neg (by rw [hkn]; simp)]
          obtain ⟨w1, w2⟩ := sledWrite_inv hs (idNext c.nextId).1 p
          simp only [sledComp, hc, w1]
          exact ⟨by simp, hp, ⟨_, w2⟩, True.intro, True.intro⟩
        | some i =>
          obtain ⟨w1, w2⟩ := sledWrite_inv hs i p
          simp only [sledComp, w1]
          exact ⟨by simp, hp, ⟨_, w2⟩, True.intro, True.intro⟩
      · exact ⟨by simp, hp, ⟨series, hs⟩, rfl, rfl⟩
      · exfalso
        have hk : sledByLabels c.store.idx ls = .panic := hk
        unfold sledByLabels at hk
        split at hk
        · rename_i v _
          rcases hv : parseId v with i | e | _
          · rw [hv, Res.bind_ok] at hk; cases hk
          · rw [hv] at hk; cases hk
          · exact parseId_calm v hv
        · cases hk
    unfold Chunk.seal
    split
    · rename_i hx; exact absurd hx hb.1
    · exact hb
  · exact ⟨by simp, hp, ⟨series, hs⟩, rfl, rfl⟩

theorem calm_insertEach (B : BinSearch) (ls : Labels) (ps : List TimePoint) {c : Chunk SledStores} (h : c.poisoned = false ∧ CalmStore c.store) :
    (insertEach (sledComp B) c ls ps).1 ≠ .panic ∧ (insertEach (sledComp B) c ls ps).2.poisoned = false ∧ CalmStore (insertEach (sledComp B) c ls ps).2.store ∧
    (insertEach (sledComp B) c ls ps).2.start_ = c.start_ ∧ (insertEach (sledComp B) c ls ps).2.end_ = c.end_ := by
  induction ps generalizing c with
  | nil => exact ⟨by simp [insertEach], h.1, h.2, rfl, rfl⟩
  | cons p ps ih =>
    obtain ⟨i1, i2, i3, i4, i5⟩ := calm_insert h B ls p
    rw [insertEach]
    rcases hi : c.insert (sledComp B) ls p with ⟨r, c'⟩
    rw [hi] at i1 i2 i3 i4 i5
    simp only [] at i1 i2 i3 i4 i5
    obtain ⟨k1, k2, k3, k4, k5⟩ := ih ⟨i2, i3⟩
    rcases r with u | e | _
    · exact ⟨k1, k2, k3, k4.trans i4, k5.trans i5⟩
    · simp only []
      rcases hr : insertEach (sledComp B) c' ls ps with ⟨r', c''⟩
      rw [hr] at k1 k2 k3 k4 k5
      rcases r' with n | e | _
      · exact ⟨by simp, k2, k3, k4.trans i4, k5.trans i5⟩
      · exact ⟨k1, k2, k3, k4.trans i4, k5.trans i5⟩
      · exact absurd rfl k1
    · exact absurd rfl i1

theorem calm_write (B : BinSearch) (ls : Labels) (ps : List TimePoint) {c : Chunk SledStores} (h : c.poisoned = false ∧ CalmStore c.store) :
    (writeTimePoints (sledComp B) c ls ps).1 ≠ .panic ∧ (writeTimePoints (sledComp B) c ls ps).2.poisoned = false ∧
    CalmStore (writeTimePoints (sledComp B) c ls ps).2.store ∧
    (writeTimePoints (sledComp B) c ls ps).2.start_ = c.start_ ∧ (writeTimePoints (sledComp B) c ls ps).2.end_ = c.end_ := by
  unfold writeTimePoints
  obtain ⟨k1, k2, k3, k4, k5⟩ := calm_insertEach B ls (ps.filter (keepPoint c.start_ c.end_)) h
  rcases hr : insertEach (sledComp B) c ls (ps.filter (keepPoint c.start_ c.end_)) with ⟨r, c'⟩
  rw [hr] at k1 k2 k3 k4 k5
  rcases r with n | e | _
  · cases n with
    | zero => exact ⟨by simp, k2, k3, k4, k5⟩
    | succ n => exact ⟨by simp, k2, k3, k4, k5⟩
  · exact ⟨by simp, k2, k3, k4, k5⟩
  · exact absurd rfl k1

theorem CalmDb.write {T : List U64} {size : U64} (B : BinSearch) (H : Hash) (m : List PSeries) {db : LiveDb} (h : CalmDb T size db) :
    (serverWrite (liveApi B H) db m).1 ≠ .panic ∧ CalmDb T size (serverWrite (liveApi B H) db m).2 := by
  induction m generalizing db with
  | nil => exact ⟨by simp [serverWrite], h⟩
  | cons s m ih =>
    obtain ⟨k1, k2, k3, k4, k5⟩ := calm_write B (ofSeries s).1 (ofSeries s).2 h.cur
    have hst : (liveApi B H).write db (ofSeries s).1 (ofSeries s).2 = ((writeTimePoints (sledComp B) db.cur (ofSeries s).1 (ofSeries s).2).1,
      { db with cur := (writeTimePoints (sledComp B) db.cur (ofSeries s).1 (ofSeries s).2).2 }) := rfl
    have h1 : CalmDb T size { db with cur := (writeTimePoints (sledComp B) db.cur (ofSeries s).1 (ofSeries s).2).2 } :=
      ⟨⟨k2, k3⟩, by obtain ⟨a, a1, a2, a3⟩ := h.window; exact ⟨a, a1, k4.trans a2, k5.trans a3⟩, h.secondary, h.old⟩
    rw [serverWrite, hst]
    rcases hr : (writeTimePoints (sledComp B) db.cur (ofSeries s).1 (ofSeries s).2).1 with u | e | _
    · exact ih h1
    · exact ⟨by simp, h1⟩
    · exact absurd hr k1

/-! ### Reading -/

theorem calm_readAll {s : SledStores} (h : CalmStore s) {B : BinSearch} (hB : Careful B) {a b : U64} (hab : a.toNat ≤ b.toNat) (l : List (U64 × Labels)) :
    readAll (sledComp B) s a b l ≠ .panic ∧ ∀ y ∈ okSeries (readAll (sledComp B) s a b l), FairSeries (fun _ => true) (fun _ _ => True) y := by
  obtain ⟨series, h1⟩ := h
  induction l with
  | nil => exact ⟨by simp [readAll], by simp [readAll, okSeries]⟩
  | cons e l ih =>
    obtain ⟨i, ls⟩ := e
    obtain ⟨i1, i2⟩ := ih
    rw [readAll]
    have hread : (sledComp B).read s i a b = if series i = [] then .err .notFound else readSeries B (series i) a b := sledRead_eq h1 B i a b
    rw [hread]
    by_cases h0 : series i = []
    · rw [if_pos h0]; exact ⟨by simp, by simp [okSeries]⟩
    · rw [if_neg h0]
      rcases read_safe hB h0 hab with ⟨e, he⟩ | ⟨lo, hi, he⟩
      · rw [he]; exact ⟨by simp, by simp [okSeries]⟩
      · rw [he, Res.bind_ok]
        rcases hr : readAll (sledComp B) s a b l with r | e | _
        · rw [hr] at i2
          rw [Res.bind_ok]
          refine ⟨by simp, fun y hy => ?_⟩
          simp only [okSeries] at hy i2
          split at hy
          · exact i2 y hy
          · rename_i hn
            rcases List.mem_cons.mp hy with rfl | hy
            · exact ⟨rfl, fun e => hn (List.length_eq_zero_iff.mpr e), fun _ _ => True.intro⟩
            · exact i2 y hy
        · exact ⟨by simp, by simp [okSeries]⟩
        · exact absurd hr i1

theorem calm_query {c : Chunk SledStores} (h : c.poisoned = false ∧ CalmStore c.store) {B : BinSearch} (hB : Careful B) (q : Labels) {a b : U64} (hab : a.toNat ≤ b.toNat) :
    (c.view (sledComp B)).query q a b ≠ .panic ∧ ∀ y ∈ okSeries ((c.view (sledComp B)).query q a b), FairSeries (fun _ => true) (fun _ _ => True) y := by
  show c.query (sledComp B) q a b ≠ .panic ∧ ∀ y ∈ okSeries (c.query (sledComp B) q a b), FairSeries _ _ y
  unfold Chunk.query
  rw [if_neg (by rw [h.1]; simp)]
  split
  · show (sledMetadata c.store.idx q).bind _ ≠ _ ∧ ∀ y ∈ okSeries ((sledMetadata c.store.idx q).bind _), _
    rcases hm : sledMetadata c.store.idx q with r | e | _
    · rw [Res.bind_ok]; exact calm_readAll h.2 hB hab r
    · exact ⟨by simp, by simp [okSeries]⟩
    · exact absurd hm (metadata_calm _ _)
  · exact ⟨by simp, by simp [okSeries]⟩

theorem CalmDb.read {T : List U64} {size : U64} {B : BinSearch} (hB : Careful B) {H : Hash} (hg : H.Good fun _ => True) {db : LiveDb} (h : CalmDb T size db)
    (qs : List PQuery) (hq : ∀ q ∈ qs, (asU64 q.start_).toNat ≤ (asU64 q.end_).toNat) : ∃ rs, serverQuery (liveApi B H) db qs = .ok rs := by
  unfold serverQuery
  induction qs with
  | nil => exact ⟨[], rfl⟩
  | cons q qs ih =>
    obtain ⟨rs, h1⟩ := ih fun x hx => hq x (by simp [hx])
    obtain ⟨r, e1, -⟩ := dbQuery_fair (u := fun _ => true) (U := fun _ _ => True) hg (q := q.matchers.map ofMatcher) (a := asU64 q.start_) (b := asU64 q.end_)
      (cur := db.cur.view (sledComp B)) (secondary := db.secondary.map fun c => c.view (sledComp B)) (by
        intro v hv
        rcases List.mem_cons.mp hv with rfl | hv
        · exact calm_query h.cur hB _ (hq q (by simp))
        · obtain ⟨c, hc, rfl⟩ := List.mem_map.mp hv
          exact calm_query (h.secondary c hc) hB _ (hq q (by simp)))
    have ha : answerQuery (liveApi B H) db q = .ok (r.map toSeries) := by
      unfold answerQuery
      show (match db.query B H (q.matchers.map ofMatcher) (asU64 q.start_) (asU64 q.end_) with
        | .ok r => Res.ok (r.map toSeries) | .err _ => .ok [] | .panic => .panic) = _
      unfold LiveDb.query
      rw [e1]
    exact ⟨r.map toSeries :: rs, by rw [Res.mapM, ha, Res.bind_ok, h1, Res.bind_ok]⟩

/-! ### Requests, ticks, restarts -/

/-- Any request: answered, or it is not decent and changes nothing. -/
theorem calm_process {T : List U64} {size : U64} {B : BinSearch} (hB : Careful B) {H : Hash} (hg : H.Good fun _ => True) (sn : Snappy) (rt : PbRt) (P : Paths)
    {db : LiveDb} (h : CalmDb T size db) (r : Request) :
    (∃ x db', process (liveApi B H) (pbFormats sn rt) P db r = (some x, db') ∧ x.status ∈ [200, 404, 500] ∧ CalmDb T size db') ∨
    (process (liveApi B H) (pbFormats sn rt) P db r = (none, db) ∧ ¬ Decent sn rt P r) := by
  obtain ⟨url, rb⟩ := r
  unfold process
  rcases rb with _ | body
  · exact .inr ⟨rfl, by rintro ⟨_, _, h, _⟩; cases h⟩
  rcases hd : (pbFormats sn rt).decompress body with _ | bytes
  · refine .inr ⟨by simp only [hd], ?_⟩
    rintro ⟨b, y, h1, h2, -⟩
    cases h1
    have hd : sn.decompress body = none := hd
    rw [hd] at h2; cases h2
  simp only [hd]
  by_cases hu : url = P.read
  · rw [if_pos hu]
    rcases hp : (pbFormats sn rt).parseRead bytes with _ | req
    · exact .inl ⟨_, _, rfl, by simp, h⟩
    · simp only []
      by_cases hz : req.sizeZero = true
      · rw [if_pos hz]; exact .inl ⟨_, _, rfl, by simp, h⟩
      · rw [if_neg hz]
        rcases hs : serverQuery (liveApi B H) db req.queries with res | e | _
        · exact .inl ⟨_, _, rfl, by simp, h⟩
        · exact .inl ⟨_, _, rfl, by simp, h⟩
        · refine .inr ⟨rfl, ?_⟩
          rintro ⟨b, y, h1, h2, h3⟩
          cases h1
          have hd : sn.decompress body = some bytes := hd
          rw [hd] at h2; cases h2
          obtain ⟨rs, e⟩ := h.read hB hg req.queries (h3 hu req hp)
          rw [hs] at e; cases e
  · rw [if_neg hu]
    by_cases hw : url = P.write
    · rw [if_pos hw]
      obtain ⟨k1, k2⟩ := h.write B H ((pbFormats sn rt).parseWrite bytes)
      rcases hs : serverWrite (liveApi B H) db ((pbFormats sn rt).parseWrite bytes) with ⟨o, db'⟩
      rw [hs] at k1 k2
      rcases o with u | e | _
      · exact .inl ⟨_, _, rfl, by simp, k2⟩
      · exact .inl ⟨_, _, rfl, by simp, k2⟩
      · exact absurd rfl k1
    · rw [if_neg hw]; exact .inl ⟨_, _, rfl, by simp, h⟩

theorem calm_new {T : List U64} {size a : U64} (ha : a ∈ T) : (Chunk.new noStores a (a + size)).poisoned = false ∧ CalmStore (Chunk.new noStores a (a + size)).store ∧
    ∃ x ∈ T, (Chunk.new noStores a (a + size)).start_ = x ∧ (Chunk.new noStores a (a + size)).end_ = x + size :=
  ⟨rfl, calm_none, a, ha, rfl, rfl⟩

theorem calm_readChunks {T : List U64} {size : U64} {base : Str} (hb : ∀ b ∈ base, isCont b = false) (clock : Str → U64) (ss : List Slot)
    (h : ∀ s ∈ ss, s.config = .complete ∧ (∃ a ∈ T, s.name = encodeChunkDir a (a + size)) ∧ CalmStore s.stores) :
    ∃ cs, readChunks base clock ss = some cs ∧ ∀ c ∈ cs, c.poisoned = false ∧ CalmStore c.store := by
  induction ss with
  | nil => exact ⟨[], rfl, by simp⟩
  | cons s ss ih =>
    obtain ⟨cs, e1, e2⟩ := ih fun x hx => h x (by simp [hx])
    obtain ⟨h1, ⟨a, -, h2⟩, h3⟩ := h s (by simp)
    have hr : s.reopen base clock = some (some (Chunk.close (Chunk.new s.stores a (if (a + size).toNat > (clock s.name).toNat then clock s.name else (a + size)))).2) := by
      unfold Slot.reopen
      rw [h1, h2, show decide (ConfigFile.complete = ConfigFile.complete) = true from rfl, C11_partial base hb a (a + size) _]
    refine ⟨_, by rw [readChunks, hr, e1]; rfl, fun c hc => ?_⟩
    rcases List.mem_cons.mp hc with rfl | hc
    · exact ⟨rfl, h3⟩
    · exact e2 c hc

theorem CalmDb.restart {T : List U64} {size : U64} {db : LiveDb} (h : CalmDb T size db) (B : BinSearch) {base : Str}
    (hb : ∀ b ∈ base, isCont b = false) {order : List Slot → List Slot} (ho : ∀ l, (order l).Perm l) (clock : Str → U64) (now : U64) :
    ∃ db', db.step B base size (.restart order clock now) = some db' ∧ CalmDb (T ++ [now]) size db' := by
  have hs : ∀ s ∈ order db.slots, _ := fun s hs => h.slots s ((ho _).mem_iff.mp hs)
  obtain ⟨cs, e1, e2⟩ := calm_readChunks hb clock (order db.slots) hs
  obtain ⟨n1, n2, n3⟩ := calm_new (T := T ++ [now]) (size := size) (a := now) (by simp)
  refine ⟨_, by simp only [LiveDb.step, readExistingChunks, e1]; rfl, ⟨⟨n1, n2⟩, n3, fun c hc => ?_, fun s hs' => ?_⟩⟩
  · exact e2 c ((stableSort_perm _ _).mem_iff.mp hc)
  · obtain ⟨k1, ⟨a, k2, k3⟩, k4⟩ := hs s hs'
    exact ⟨k1, ⟨a, by simp [k2], k3⟩, k4⟩

theorem CalmDb.tick {T : List U64} {size : U64} {db : LiveDb} (h : CalmDb T size db) (B : BinSearch) (base : Str) (r : U64) :
    ∃ db', db.step B base size (.tick r) = some db' ∧ CalmDb (T ++ [r + 1]) size db' := by
  obtain ⟨n1, n2, n3⟩ := calm_new (T := T ++ [r + 1]) (size := size) (a := r + 1) (by simp)
  refine ⟨_, rfl, ⟨⟨n1, n2⟩, n3, fun c hc => ?_, fun s hs => ?_⟩⟩
  · rcases List.mem_append.mp hc with hc | hc
    · exact h.secondary c hc
    · rw [List.mem_singleton] at hc; subst hc
      unfold Chunk.close
      rw [if_neg (by rw [h.cur.1]; simp)]
      exact h.cur
  · obtain ⟨k1, ⟨a, k2, k3⟩, k4⟩ := h.slots s hs
    exact ⟨k1, ⟨a, by simp [k2], k3⟩, k4⟩

/-- One event. -/
theorem calm_step {T : List U64} {size : U64} {B : BinSearch} (hB : Careful B) {H : Hash} (hg : H.Good fun _ => True) (sn : Snappy) (rt : PbRt) (P : Paths)
    {base : Str} (hb : ∀ b ∈ base, isCont b = false) {h : Host} (hc : CalmDb T size h.db) {e : HostEvent} (he : e.lists) :
    CalmDb (T ++ e.begins) size (h.stepNamed B H (pbFormats sn rt) P base size e).2.db := by
  have hT : ∀ a ∈ T, a ∈ T ++ e.begins := fun a ha => by simp [ha]
  cases e with
  | request r =>
    simp only [Host.stepNamed]
    by_cases hu : h.up = true
    · rw [if_pos hu]
      rcases calm_process hB hg sn rt P hc r with ⟨x, db', e1, -, e2⟩ | ⟨e1, -⟩
      · rw [e1]; exact e2.mono hT
      · rw [e1]; exact hc.mono hT
    · rw [if_neg hu]; exact hc.mono hT
  | tick r =>
    simp only [Host.stepNamed, LiveDb.stepNamed]
    by_cases hu : h.up = true
    · rw [if_pos hu]
      by_cases ht : h.db.taken (r + 1) (r + 1 + size) = true
      · rw [if_pos ht]; exact hc.mono hT
      · rw [if_neg ht]
        obtain ⟨db', e1, e2⟩ := hc.tick B base r
        rw [e1]; exact e2
    · rw [if_neg hu]; exact hc.mono hT
  | restart o k n =>
    simp only [Host.stepNamed, LiveDb.stepNamed]
    by_cases ht : h.db.taken n (n + size) = true
    · rw [if_pos ht]; exact hc.mono hT
    · rw [if_neg ht]
      obtain ⟨db', e1, e2⟩ := hc.restart B hb he k n
      rw [e1]; exact e2

/-- A history. -/
theorem calm_run {size : U64} {B : BinSearch} (hB : Careful B) {H : Hash} (hg : H.Good fun _ => True) (sn : Snappy) (rt : PbRt) (P : Paths)
    {base : Str} (hb : ∀ b ∈ base, isCont b = false) (es : List HostEvent) (he : ∀ e ∈ es, e.lists) {T : List U64} {h : Host} (hc : CalmDb T size h.db) :
    CalmDb (T ++ es.flatMap HostEvent.begins) size (h.runNamed B H (pbFormats sn rt) P base size es).2.db := by
  induction es generalizing T h with
  | nil => simpa [Host.runNamed] using hc
  | cons e es ih =>
    have := ih (fun x hx => he x (by simp [hx])) (calm_step hB hg sn rt P hb hc (he e (by simp)))
    rw [List.flatMap_cons, ← List.append_assoc]
    exact this

theorem fresh_calm (size now : U64) : CalmDb [now] size (Host.fresh size now).db := by
  obtain ⟨n1, n2, n3⟩ := calm_new (T := [now]) (size := size) (a := now) (by simp)
  exact ⟨⟨n1, n2⟩, n3, by simp [Host.fresh, LiveDb.fresh], by simp [Host.fresh, LiveDb.fresh]⟩

/-- If every chunk starts at a new time, the histories of this model are those of Model/ServerLife. -/
theorem runNamed_run {size : U64} {B : BinSearch} (hB : Careful B) {H : Hash} (hg : H.Good fun _ => True) (sn : Snappy) (rt : PbRt) (P : Paths)
    {base : Str} (hb : ∀ b ∈ base, isCont b = false) (es : List HostEvent) (he : ∀ e ∈ es, e.lists) {T : List U64} {h : Host} (hc : CalmDb T size h.db)
    (hnew : (es.flatMap HostEvent.begins).Nodup ∧ ∀ a ∈ es.flatMap HostEvent.begins, a ∉ T) :
    h.runNamed B H (pbFormats sn rt) P base size es = h.run B H (pbFormats sn rt) P base size es := by
  induction es generalizing T h with
  | nil => rfl
  | cons e es ih =>
    rw [List.flatMap_cons, List.nodup_append] at hnew
    obtain ⟨⟨n1, n2, n3⟩, n4⟩ := hnew
    have hstep : h.stepNamed B H (pbFormats sn rt) P base size e = h.step B H (pbFormats sn rt) P base size e := by
      have hfree : ∀ a ∈ e.begins, ¬ h.db.taken a (a + size) = true := fun a ha ht => n4 a (by simp [ha]) (hc.taken ht)
      cases e with
      | request r => rfl
      | tick r => simp only [Host.stepNamed, Host.step, LiveDb.stepNamed, if_neg (hfree (r + 1) (by simp [HostEvent.begins]))]; rfl
      | restart o k n => simp only [Host.stepNamed, Host.step, LiveDb.stepNamed, if_neg (hfree n (by simp [HostEvent.begins]))]; rfl
    have := ih (fun x hx => he x (by simp [hx])) (calm_step hB hg sn rt P hb hc (he e (by simp))) ⟨n2, fun a ha hm => by
      rcases List.mem_append.mp hm with hm | hm
      · exact n4 a (by simp [ha]) hm
      · exact n3 a hm a ha rfl⟩
    simp only [Host.runNamed, Host.run]
    rw [this, hstep]

theorem runNamed_split (B : BinSearch) (H : Hash) (F : Formats) (P : Paths) (base : Str) (size : U64) (es : List HostEvent) (h : Host) (i : Nat) (e : HostEvent)
    (hi : es[i]? = some e) :
    (h.runNamed B H F P base size es).1[i]? = some (((h.runNamed B H F P base size (es.take i)).2).stepNamed B H F P base size e).1 ∧
    (h.runNamed B H F P base size (es.take (i + 1))).2 = (((h.runNamed B H F P base size (es.take i)).2).stepNamed B H F P base size e).2 := by
  induction es generalizing h i with
  | nil => simp at hi
  | cons x es ih =>
    cases i with
    | zero =>
      simp only [List.getElem?_cons_zero, Option.some.injEq] at hi
      subst hi
      exact ⟨rfl, rfl⟩
    | succ i =>
      simp only [List.getElem?_cons_succ] at hi
      obtain ⟨h1, h2⟩ := ih (h.stepNamed B H F P base size x).2 i hi
      exact ⟨h1, h2⟩

end Verif
