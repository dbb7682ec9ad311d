import Verif.Lemmas.Backends
import Verif.Spec.Db
/-! Properties C68, C72 and C73: the combinations of storage and indexer offered by the server binary. -/
namespace Verif
open List

/-! ### C68 -/

/-- The server starts exactly for the four combinations of the two documented names; the first name selects the storage, the second the
indexer. Anything else ends the program. -/
theorem C68_dispatch (storage indexer : Str) (st ix : Backend) :
    mainChoice storage indexer = some (st, ix) ↔ storage = st.name ∧ indexer = ix.name := by
  have key : ∀ (s : Str) (b : Backend), Backend.ofName s = some b ↔ s = b.name := by
    intro s b
    unfold Backend.ofName
    by_cases h1 : s = Backend.tikv.name
    · rw [if_pos h1]
      subst h1
      cases b <;> simp [Backend.name]
    · rw [if_neg h1]
      by_cases h2 : s = Backend.sled.name
      · rw [if_pos h2]
        subst h2
        cases b <;> simp [Backend.name]
      · rw [if_neg h2]
        cases b
        · simp [h2]
        · simp [h1]
  unfold mainChoice
  rcases h1 : Backend.ofName storage with _ | s
  · simp only [reduceCtorEq, false_iff]
    rintro ⟨rfl, -⟩
    rw [(key _ st).mpr rfl] at h1
    simp at h1
  · rcases h2 : Backend.ofName indexer with _ | i
    · simp only [reduceCtorEq, false_iff]
      rintro ⟨-, rfl⟩
      rw [(key _ ix).mpr rfl] at h2
      simp at h2
    · simp only [Option.some.injEq, Prod.mk.injEq]
      rw [(key _ _).mp h1, (key _ _).mp h2]
      constructor
      · rintro ⟨rfl, rfl⟩; exact ⟨rfl, rfl⟩
      · rintro ⟨h3, h4⟩
        have n : ∀ x y : Backend, x.name = y.name → x = y := by intro x y; cases x <;> cases y <;> simp [Backend.name]
        exact ⟨n _ _ h3, n _ _ h4⟩

/-- A combination with a TiKV component always gets a client (the `unwrap` of the client cannot fail), and it is a dry run unless a
configuration file says otherwise. -/
theorem C68_client (config : Option Bool) (storage indexer : Str) (st ix : Backend) (h : mainChoice storage indexer = some (st, ix)) :
    mainConn config storage indexer =
      if st = .tikv ∨ ix = .tikv then some (if config = some false then .cluster else .dryRun) else none := by
  obtain ⟨rfl, rfl⟩ := (C68_dispatch _ _ _ _).mp h
  have n : ∀ x : Backend, x.name = Backend.tikv.name ↔ x = .tikv := by intro x; cases x <;> simp [Backend.name]
  unfold mainConn
  simp only [n]
  by_cases hc : ix = .tikv ∨ st = .tikv
  · rw [if_pos hc, if_pos hc.symm]
    rcases config with _ | _ | _ <;> rfl
  · rw [if_neg hc, if_neg (fun x => hc x.symm)]

example : mainChoice Backend.sled.name Backend.tikv.name = some (.sled, .tikv) ∧ mainChoice Backend.sled.name [] = none ∧
    mainConn none Backend.sled.name Backend.tikv.name = some .dryRun := by decide

/-- A way to run: connection, storage, indexer, what the cluster contains, and the identifiers drawn. -/
structure Setup where
  conn : Conn
  st : Backend
  ix : Backend
  cluster : KV
  chunkId : Str
  uuidS : Str
  uuidI : Str

/-- The identifiers are UUIDs that the cluster has not seen, and (for TiKV storage) no other chunk of the cluster has stored points
(see C46). -/
structure Setup.Good (S : Setup) : Prop where
  cid : S.chunkId.length = 16
  uS : S.uuidS.length = 16
  uI : S.uuidI.length = 16
  freshC : S.cluster S.chunkId = none
  freshI : ∀ k, S.cluster (S.uuidI ++ k) = none
  freshS : ∀ i, S.cluster (tikvKey [] i) = none

/-- The identifiers in use. -/
def Setup.ids (S : Setup) : Res (Str × Str) := (buildStores S.conn S.st S.ix S.cluster S.chunkId S.uuidS S.uuidI).1

/-- The components in use. -/
def Setup.comp (B : BinSearch) (S : Setup) (ids : Str × Str) : Comp Stores := backComp B S.conn S.st S.ix ids.2 ids.1

/-- A new chunk with window `(lo, hi)` after the inserts `h`. -/
def Setup.chunk (B : BinSearch) (S : Setup) (lo hi : U64) (h : Inserts) : Res (Chunk Stores) :=
  S.ids.bind fun ids =>
    .ok ((Chunk.new (buildStores S.conn S.st S.ix S.cluster S.chunkId S.uuidS S.uuidI).2 lo hi).insertAll (S.comp B ids) h)

/-- The result of one more insert. -/
def Setup.insert (B : BinSearch) (S : Setup) (lo hi : U64) (h : Inserts) (ls : Labels) (p : TimePoint) : Res Unit :=
  S.ids.bind fun ids => (S.chunk B lo hi h).bind fun c => (c.insert (S.comp B ids) ls p).1

/-- The answer of a query. -/
def Setup.query (B : BinSearch) (S : Setup) (lo hi : U64) (h : Inserts) (q : Labels) (a b : U64) : Res (List Series) :=
  S.ids.bind fun ids => (S.chunk B lo hi h).bind fun c => c.query (S.comp B ids) q a b

/-- The identifier of the indexer. -/
def Setup.ipre (S : Setup) : Str :=
  match S.ix with
  | .sled => []
  | .tikv => S.uuidI ++ nilUuid

theorem initStorage_fresh {kv : KV} {c u : Str} (h : kv c = none) : initComponent kv c false u = (.ok [], kv.set c (nilUuid ++ u)) := by
  unfold initComponent
  rw [h]
  have e : (nilUuid ++ nilUuid).drop 16 = nilUuid := by decide
  simp [e, nilUuid_length]

theorem initIndexer_fresh {kv : KV} {c u w : Str} (h : kv c = none ∨ kv c = some (nilUuid ++ w)) :
    initComponent kv c true u = (.ok (u ++ nilUuid), kv.set c (u ++ nilUuid)) := by
  unfold initComponent
  have e : ∀ x : Str, (nilUuid ++ x).take 16 = nilUuid := by
    intro x; rw [List.take_append_of_le_length (by simp [nilUuid])]; simp [nilUuid]
  rcases h with h | h <;> rw [h] <;> simp [e, nilUuid_length]

/-- Building never fails, and what it leaves. -/
theorem Setup.Good.build {S : Setup} (h : S.Good) :
    ∃ s, buildStores S.conn S.st S.ix S.cluster S.chunkId S.uuidS S.uuidI = (.ok ([], S.ipre), s) ∧
      s.idx = KV.empty ∧ s.ser = KV.empty ∧
      (∀ k, k ≠ S.chunkId → s.kvI k = (match S.conn with | .cluster => S.cluster | .dryRun => KV.empty) k) ∧
      (∀ k, k ≠ S.chunkId → s.kvS k = none) ∧
      (S.ix = .tikv → s.kvI S.chunkId = some (S.uuidI ++ nilUuid)) ∧
      (S.st = .tikv → (S.conn = .dryRun ∨ S.ix = .sled) → s.getS S.conn S.chunkId = some (nilUuid ++ S.uuidS)) := by
  obtain ⟨conn, st, ix, cluster, c, uS, uI⟩ := S
  have hf := h.freshC
  simp only at hf
  unfold buildStores Setup.ipre
  have hemp : KV.empty c = none := rfl
  cases conn <;> cases st <;> cases ix <;>
    simp only [Stores.getS, Stores.setS, initStorage_fresh hf, initStorage_fresh hemp, initIndexer_fresh (w := uS) (Or.inl hf),
      initIndexer_fresh (w := uS) (Or.inl hemp), initIndexer_fresh (w := uS) (Or.inr (KV.set_same _ _ _)), Prod.mk.injEq, true_and,
      exists_eq_left', reduceCtorEq, false_implies, true_implies, KV.set_same, and_true] <;>
    refine ⟨?_, ?_⟩ <;> intros <;> (try simp_all [KV.set_other]) <;> intros <;> rfl

theorem Setup.Good.hp {S : Setup} (h : S.Good) : S.conn = .cluster → S.st = .tikv → S.ix = .tikv → ([] : Str).length + 8 ≤ S.ipre.length := by
  intro _ _ hx
  unfold Setup.ipre
  rw [hx]
  simp [h.uI, nilUuid_length]

/-- The chunk after a history represents the accepted inserts, for every combination. -/
theorem Setup.Good.rep {S : Setup} (hS : S.Good) (B : BinSearch) (lo hi : U64) {h : Inserts} (hf : Fine h) :
    ∃ c, S.chunk B lo hi h = .ok c ∧ S.ids = .ok ([], S.ipre) ∧
      ChunkRep (backRefines B S.conn S.st S.ix S.ipre [] hS.hp) lo hi (insideOnly lo hi h) c := by
  obtain ⟨s, e, h1, h2, h3, h4, -, -⟩ := hS.build
  have hi : S.ids = .ok ([], S.ipre) := by unfold Setup.ids; rw [e]
  refine ⟨_, by unfold Setup.chunk; rw [hi, Res.bind_ok], hi, ?_⟩
  rw [e]
  refine (insertAll_rep ?_ h (by have := hf.len; omega) hf.wf).1
  refine ⟨rfl, rfl, rfl, rfl, ?_, ?_⟩
  · show IdxRep S.ix S.ipre [] s
    unfold IdxRep Setup.ipre
    cases S.ix with
    | sled => exact IndexInv.empty sledCodec _ (fun _ => by rw [h1]; rfl)
    | tikv =>
      refine IndexInv.empty (tikvCodec _) _ (fun k => ?_)
      show s.kvI ((S.uuidI ++ nilUuid) ++ k) = none
      rw [h3]
      · cases S.conn
        · simp only []; rw [List.append_assoc]; exact hS.freshI _
        · rfl
      · intro e
        have := congrArg List.length e
        simp [hS.cid, hS.uI, nilUuid_length] at this
  · show SerRep S.conn S.st [] _ s
    have hne : ∀ i, tikvKey [] i ≠ S.chunkId := by
      intro i e
      have := congrArg List.length e
      simp [tikvKey, hS.cid] at this
    unfold SerRep
    cases S.st with
    | sled => intro i; rw [h2]; rfl
    | tikv =>
      intro i
      show s.getS S.conn (tikvKey [] i) = _
      unfold Stores.getS
      cases hc : S.conn with
      | cluster =>
        simp only []
        rw [h3 _ (hne i), hc]
        simp only []
        rw [hS.freshS]
        rfl
      | dryRun =>
        simp only []
        rw [h4 _ (hne i)]
        rfl

/-- Exact answer of every combination, connection and assignment of identifiers: it is the one described by C30 for the storage in use.
(For sled storage, if timestamps increase; TiKV storage drops the others.) -/
theorem C68_exact (B : BinSearch) (S : Setup) (hS : S.Good) (lo hi : U64) (h : Inserts) (hf : Fine h)
    (hincr : S.st = .sled → ∀ ls, SIncr (pointsFor (insideOnly lo hi h) ls)) (q : Labels) (hq : ∀ l ∈ q, WFLabel l) (a b : U64) (hab : a.toNat ≤ b.toNat) :
    S.query B lo hi h q a b =
      if overlaps lo hi a b then specQuery a b (matched S.st.accepts (insideOnly lo hi h) q) else .err (.outOfRange lo hi) := by
  obtain ⟨c, e1, e2, hr⟩ := hS.rep B lo hi hf
  unfold Setup.query
  rw [e1, e2, Res.bind_ok, Res.bind_ok]
  refine hr.query (by have := hf.len; have := insideOnly_length lo hi h; omega) (fun w hw => hf.wf w (List.mem_filter.mp hw).1) (fun ls => ?_) hq hab
  cases hst : S.st with
  | sled => show SIncr (keepBy sledAccepts _); rw [keepBy_sled]; exact hincr hst ls
  | tikv => show SIncr (keepBy tikvAccepts _); rw [keepBy_tikv]; exact acceptIncreasing_incr _

/-- The result of an insert is the same in all combinations: success exactly inside the window. -/
theorem C68_insert (B : BinSearch) (S : Setup) (hS : S.Good) (lo hi : U64) (h : Inserts) (hf : Fine h) (ls : Labels) (hls : WFSet ls) (p : TimePoint) :
    S.insert B lo hi h ls p = if inside lo hi p then .ok () else .err (.outOfRange lo hi) := by
  obtain ⟨c, e1, e2, hr⟩ := hS.rep B lo hi hf
  have hl := insideOnly_length lo hi h
  have := hr.insert (by have := hf.len; omega) hls p
  unfold Setup.insert
  rw [e1, e2, Res.bind_ok, Res.bind_ok]
  show (c.insert (backComp B S.conn S.st S.ix S.ipre []) ls p).1 = _
  by_cases hin : inside lo hi p
  · rw [if_pos hin] at this ⊢; exact this.1
  · rw [if_neg hin] at this ⊢; rw [this]

/-- The indexer in use and the connection cannot be observed: two set-ups with the same storage give the same answer to every query after
every history, also for points out of order and for inverted ranges. -/
theorem C68_indexer_irrelevant (B : BinSearch) (S S' : Setup) (hS : S.Good) (hS' : S'.Good) (hst : S.st = S'.st) (lo hi : U64) (h : Inserts)
    (hf : Fine h) (q : Labels) (hq : ∀ l ∈ q, WFLabel l) (a b : U64) : S.query B lo hi h q a b = S'.query B lo hi h q a b := by
  obtain ⟨c, e1, e2, hr⟩ := hS.rep B lo hi hf
  obtain ⟨c', e1', e2', hr'⟩ := hS'.rep B lo hi hf
  unfold Setup.query
  rw [e1, e2, e1', e2', Res.bind_ok, Res.bind_ok, Res.bind_ok, Res.bind_ok]
  have hl := insideOnly_length lo hi h
  have hwf : ∀ w ∈ insideOnly lo hi h, WFSet w.1 := fun w hw => hf.wf w (List.mem_filter.mp hw).1
  have hll := labelSets_length (insideOnly lo hi h)
  have hlen := hf.len
  obtain ⟨hids, -⟩ := number_ids (l := labelSets (insideOnly lo hi h)) (by omega)
  rw [← numbered_eq] at hids
  have hwf' : ∀ x ∈ numbered (insideOnly lo hi h), WFSet x.1 := by
    intro x hx
    obtain ⟨w, hw, e⟩ := labelSets_mem (number_mem hx)
    rw [← e]; exact hwf w hw
  unfold Chunk.query Chunk.isWithRange
  rw [hr.ok, hr'.ok, hr.start_, hr.end_, hr'.start_, hr'.end_]
  simp only [Setup.comp]
  have hread : ∀ i, (backComp B S.conn S.st S.ix S.ipre []).read c.store i a b = (backComp B S'.conn S'.st S'.ix S'.ipre []).read c'.store i a b := by
    intro i
    rw [back_read, back_read, SerRep.bytes hr.rep.2, SerRep.bytes hr'.rep.2, hst]
  have hall : ∀ l : List (U64 × Labels), readAll (backComp B S.conn S.st S.ix S.ipre []) c.store a b l =
      readAll (backComp B S'.conn S'.st S'.ix S'.ipre []) c'.store a b l := by
    intro l
    induction l with
    | nil => rfl
    | cons x l ih => rw [readAll, readAll, hread, ih]
  rw [(backRefines B S.conn S.st S.ix S.ipre [] hS.hp).metadata hr.rep hwf' hids hq,
    (backRefines B S'.conn S'.st S'.ix S'.ipre [] hS'.hp).metadata hr'.rep hwf' hids hq, Res.bind_ok, Res.bind_ok, hall]

theorem acceptIncreasing_self {ps : List TimePoint} (h : SIncr ps) : acceptIncreasing ps = ps := by
  induction ps using List.reverseRecOn with
  | nil => rfl
  | append_singleton ps p ih =>
    obtain ⟨h1, -, h2⟩ := List.pairwise_append.mp h
    rw [acceptIncreasing_append, ih h1, if_pos]
    intro l hl
    exact h2 l (List.mem_of_getLast? hl) p (by simp)

/-- The storage cannot be observed either as long as timestamps increase: all combinations answer alike. -/
theorem C68_agree (B : BinSearch) (S S' : Setup) (hS : S.Good) (hS' : S'.Good) (lo hi : U64) (h : Inserts) (hf : Fine h)
    (hincr : ∀ ls, SIncr (pointsFor (insideOnly lo hi h) ls)) (q : Labels) (hq : ∀ l ∈ q, WFLabel l) (a b : U64) (hab : a.toNat ≤ b.toNat) :
    S.query B lo hi h q a b = S'.query B lo hi h q a b := by
  rw [C68_exact B S hS lo hi h hf (fun _ => hincr) q hq a b hab, C68_exact B S' hS' lo hi h hf (fun _ => hincr) q hq a b hab]
  have e : ∀ st : Backend, matched st.accepts (insideOnly lo hi h) q = matched sledAccepts (insideOnly lo hi h) q := by
    intro st
    cases st with
    | sled => rfl
    | tikv =>
      unfold matched
      have : ∀ ls, keepBy Backend.tikv.accepts (pointsFor (insideOnly lo hi h) ls) = keepBy sledAccepts (pointsFor (insideOnly lo hi h) ls) := by
        intro ls
        rw [keepBy_sled]
        show keepBy tikvAccepts _ = _
        rw [keepBy_tikv]
        exact acceptIncreasing_self (hincr ls)
      simp only [this]
  rw [e, e]

/-- Example set-ups: a cluster and a dry run. -/
def exSetup (conn : Conn) (st ix : Backend) : Setup :=
  ⟨conn, st, ix, KV.empty, List.replicate 16 9#8, List.replicate 16 1#8, List.replicate 16 2#8⟩

theorem exSetup_good (conn : Conn) (st ix : Backend) : (exSetup conn st ix).Good :=
  ⟨rfl, rfl, rfl, rfl, fun _ => rfl, fun _ => rfl⟩

example : (exSetup .dryRun .tikv .sled).query stdBinSearch 0#64 1000#64 exIns [lbl "a" "1"] 5#64 150#64 =
    .ok [⟨1#64, [lbl "a" "1"], [⟨10#64, 5#64⟩]⟩, ⟨2#64, [lbl "a" "1", lbl "b" "2"], [⟨100#64, 6#64⟩]⟩] := by
  rw [C68_exact _ _ (exSetup_good _ _ _) _ _ _ exIns_fine (fun _ => exIns_incr) _ exQ_wf _ _ (by decide)]; decide +kernel

/-- Two points of one series, out of order. -/
def exDisorder : Inserts := [([lbl "a" "1"], ⟨20#64, 5#64⟩), ([lbl "a" "1"], ⟨10#64, 6#64⟩)]

theorem exDisorder_fine : Fine exDisorder := by
  refine ⟨?_, by decide⟩
  intro w hw
  simp only [exDisorder, List.mem_cons, List.not_mem_nil, or_false] at hw
  rcases hw with rfl | rfl <;> exact wfSet_of (by decide +kernel)

/-- Out of order the choice of storage shows: the statement of C68 without the assumption on timestamps is false. -/
theorem C68_violated : ¬ ∀ (S S' : Setup), S.Good → S'.Good → ∀ (lo hi : U64) (h : Inserts), Fine h → ∀ q : Labels, (∀ l ∈ q, WFLabel l) →
    ∀ a b : U64, a.toNat ≤ b.toNat → S.query stdBinSearch lo hi h q a b = S'.query stdBinSearch lo hi h q a b := by
  intro hall
  have := hall (exSetup .dryRun .sled .sled) (exSetup .dryRun .tikv .sled) (exSetup_good _ _ _) (exSetup_good _ _ _) 0#64 1000#64 exDisorder
    exDisorder_fine [lbl "a" "1"] exQ_wf 15#64 30#64 (by decide)
  rw [C68_exact _ (exSetup .dryRun .tikv .sled) (exSetup_good _ _ _) _ _ _ exDisorder_fine (by intro h; simp [exSetup] at h) _ exQ_wf _ _ (by decide)] at this
  revert this
  decide +kernel

/-! ### C72: not true -/

/-- Restart: the components of the chunk are found again (or not: `none`), the chunk is reopened with window `(lo, hi')` and answers. -/
def Setup.afterRestart (B : BinSearch) (S : Setup) (lo hi hi' : U64) (h : Inserts) (q : Labels) (a b : U64) : Res (Option (Res (List Series))) :=
  (S.chunk B lo hi h).bind fun c => (reopenStores S.conn S.st S.ix S.chunkId c.store).bind fun o =>
    .ok (o.map fun x => (Chunk.close (Chunk.new x.2 lo hi')).2.query (S.comp B x.1) q a b)

/-- What C72 promises: the chunk is found again, and (as long as its window is not cut) answers as before. -/
def KeepsData (B : BinSearch) (conn : Conn) (st ix : Backend) : Prop :=
  ∀ S : Setup, S.Good → S.conn = conn → S.st = st → S.ix = ix → (∀ k, S.cluster (S.uuidS ++ k) = none) → S.uuidS ≠ S.uuidI →
    ∀ (lo hi : U64) (h : Inserts), Fine h → ∀ q : Labels, (∀ l ∈ q, WFLabel l) → ∀ a b : U64,
      S.afterRestart B lo hi hi h q a b = .ok (some (S.query B lo hi h q a b))

/-- In dry-run mode a chunk with a TiKV component is never found again, even if its points are on the local disk (sled storage with a
TiKV indexer): every history, every query. -/
theorem C72_violated_dry_run (B : BinSearch) (S : Setup) (hS : S.Good) (hc : S.conn = .dryRun) (ht : S.st = .tikv ∨ S.ix = .tikv)
    (lo hi hi' : U64) (h : Inserts) (hf : Fine h) (q : Labels) (a b : U64) : S.afterRestart B lo hi hi' h q a b = .ok none := by
  obtain ⟨c, e1, -, -⟩ := hS.rep B lo hi hf
  unfold Setup.afterRestart
  rw [e1, Res.bind_ok]
  have : reopenStores S.conn S.st S.ix S.chunkId c.store = .ok none := by
    unfold reopenStores
    rw [hc]
    rcases ht with ht | ht <;> rw [ht]
    · simp only [Stores.getS, KV.empty, Res.bind_ok]
      cases S.ix <;> simp only [Res.bind_ok]
    · cases S.st <;> simp only [Stores.getS, KV.empty, Res.bind_ok]
  rw [this, Res.bind_ok]; rfl

theorem query_new_tikv_none (B : BinSearch) (conn : Conn) (st : Backend) {u sid : Str} {s : Stores} (hn : NoIndexAt u s.kvI) (lo hi : U64) (q : Labels) (a b : U64)
    (ho : overlaps lo hi a b = true) :
    (Chunk.close (Chunk.new s lo hi)).2.query (backComp B conn st .tikv u sid) q a b = .ok [] := by
  have hm : (backComp B conn st .tikv u sid).metadata s q = .ok [] := by
    show tikvMetadata u s.kvI q = .ok []
    unfold tikvMetadata tikvContains
    have : (q.filterMap fun l => s.kvI (u ++ encodeLabel l)) = [] := by
      rw [List.filterMap_eq_nil_iff]
      intro l _
      exact (hn _).1
    rw [this]
    rfl
  show (if false = true then _ else if overlaps lo hi a b = true then _ else _) = _
  rw [ho]
  simp only [Bool.false_eq_true, if_false, if_true]
  show ((backComp B conn st .tikv u sid).metadata s q).bind _ = _
  rw [hm]; rfl

/-- On a cluster, sled storage with a TiKV indexer: the chunk is found again, but with another indexer identifier, under which there is
nothing. Every query over its window returns nothing, although all points are on the local disk, unchanged. -/
theorem C72_violated_index (B : BinSearch) (S : Setup) (hS : S.Good) (hc : S.conn = .cluster) (hs : S.st = .sled) (hx : S.ix = .tikv)
    (lo hi hi' : U64) (h : Inserts) (hf : Fine h) (q : Labels) (a b : U64) (ho : overlaps lo hi' a b = true) :
    S.afterRestart B lo hi hi' h q a b = .ok (some (.ok [])) := by
  obtain ⟨s, e, -, -, h3, -, h5, -⟩ := hS.build
  have hids : S.ids = .ok ([], S.ipre) := by unfold Setup.ids; rw [e]
  have hip : S.ipre = S.uuidI ++ nilUuid := by unfold Setup.ipre; rw [hx]
  unfold Setup.afterRestart Setup.chunk
  rw [hids, Res.bind_ok, e, Res.bind_ok]
  simp only [Setup.comp, hc, hs, hx, hip]
  generalize hcc : (Chunk.new s lo hi).insertAll (backComp B .cluster .sled .tikv (S.uuidI ++ nilUuid) []) h = c
  have hframe : ∀ key, (∀ k, key ≠ (S.uuidI ++ nilUuid) ++ k) → c.store.kvI key = s.kvI key := by
    intro key hk
    rw [← hcc]
    exact insertAll_frame B .sled .tikv (fun _ => hk) (by simp) h _
  have hrec : c.store.kvI S.chunkId = some (S.uuidI ++ nilUuid) := by
    rw [hframe, h5 hx]
    intro k e
    have := congrArg List.length e
    simp [hS.cid, hS.uI, nilUuid_length] at this
  have hn : NoIndexAt S.uuidI c.store.kvI := by
    have key : ∀ (x : Byte) k, x ≠ 0#8 → c.store.kvI (S.uuidI ++ x :: k) = none := by
      intro x k hx0
      rw [hframe _ (fun k' => key_ne S.uuidI x hx0 k k'), h3]
      · rw [hc]; exact hS.freshI _
      · intro e
        have := congrArg List.length e
        simp [hS.cid, hS.uI] at this
    exact fun k => ⟨key _ _ (by decide), key _ _ (by decide)⟩
  have hre : reopenStores .cluster .sled .tikv S.chunkId c.store = .ok (some (([], S.uuidI), c.store)) := by
    unfold reopenStores
    simp only [hrec, Res.bind_ok]
    rw [if_neg (by simp [hS.uI])]
    simp [Res.bind_ok, hS.uI]
  rw [hre, Res.bind_ok]
  simp only [Option.map_some]
  rw [query_new_tikv_none B .cluster .sled hn lo hi' q a b ho]

/-- On a cluster, TiKV storage with a sled indexer: the index is intact, but the points are looked up under another storage identifier,
where there are none. Every query with a matching series fails. -/
theorem C72_violated_storage (B : BinSearch) (S : Setup) (hS : S.Good) (hc : S.conn = .cluster) (hs : S.st = .tikv) (hx : S.ix = .sled)
    (hu : ∀ k, S.cluster (S.uuidS ++ k) = none) (lo hi hi' : U64) (h : Inserts) (hf : Fine h) (q : Labels) (hq : ∀ l ∈ q, WFLabel l) (a b : U64)
    (ho : overlaps lo hi' a b = true) :
    S.afterRestart B lo hi hi' h q a b =
      .ok (some (if specMetadata (numbered (insideOnly lo hi h)) q = [] then .ok [] else .err .notFound)) := by
  obtain ⟨c, e1, -, hr⟩ := hS.rep B lo hi hf
  obtain ⟨s, e, -, -, h3, -, -, h6⟩ := hS.build
  have hids : S.ids = .ok ([], S.ipre) := by unfold Setup.ids; rw [e]
  have hcc : (Chunk.new s lo hi).insertAll (backComp B .cluster .tikv .sled S.ipre []) h = c := by
    unfold Setup.chunk at e1
    rw [hids, Res.bind_ok, e] at e1
    simp only [Setup.comp, hc, hs, hx, Res.ok.injEq] at e1
    exact e1
  have hframe : ∀ key, (∀ i, key ≠ tikvKey [] i) → c.store.kvI key = s.kvI key := by
    intro key hk
    rw [← hcc]
    exact insertAll_frame B .tikv .sled (by simp) (fun _ => hk) h _
  have hrec : c.store.kvI S.chunkId = some (nilUuid ++ S.uuidS) := by
    rw [hframe]
    · have := h6 hs (Or.inr hx); rw [hc] at this; exact this
    · intro i e
      have := congrArg List.length e
      simp [tikvKey, hS.cid] at this
  have hnone : ∀ i, c.store.kvI (tikvKey S.uuidS i) = none := by
    intro i
    rw [hframe, h3]
    · rw [hc]; exact hu _
    · intro e
      have := congrArg List.length e
      simp [tikvKey, hS.cid, hS.uS] at this
    · intro j e
      have := congrArg List.length e
      simp [tikvKey, toBE_len, hS.uS] at this
  have hre : reopenStores .cluster .tikv .sled S.chunkId c.store = .ok (some ((S.uuidS, []), c.store)) := by
    unfold reopenStores
    simp only [Stores.getS, hrec, Res.bind_ok]
    rw [if_neg (by simp [nilUuid_length])]
    simp [Res.bind_ok, nilUuid]
  unfold Setup.afterRestart
  rw [e1, Res.bind_ok, hc, hs, hx, hre, Res.bind_ok]
  simp only [Option.map_some, Setup.comp, hc, hs, hx]
  have hlen := hf.len
  have hl := insideOnly_length lo hi h
  have hll := labelSets_length (insideOnly lo hi h)
  obtain ⟨hids2, -⟩ := number_ids (l := labelSets (insideOnly lo hi h)) (by omega)
  rw [← numbered_eq] at hids2
  have hwf' : ∀ x ∈ numbered (insideOnly lo hi h), WFSet x.1 := by
    intro x hx
    obtain ⟨w, hw, e⟩ := labelSets_mem (number_mem hx)
    rw [← e]; exact hf.wf w (List.mem_filter.mp hw).1
  have hm : (backComp B .cluster .tikv .sled [] S.uuidS).metadata c.store q = .ok (specMetadata (numbered (insideOnly lo hi h)) q) := by
    have := (backRefines B S.conn S.st S.ix S.ipre [] hS.hp).metadata hr.rep hwf' hids2 hq
    rw [hc, hs, hx] at this
    exact this
  have hq2 : (Chunk.close (Chunk.new c.store lo hi')).2.query (backComp B .cluster .tikv .sled [] S.uuidS) q a b =
      if specMetadata (numbered (insideOnly lo hi h)) q = [] then .ok [] else .err .notFound := by
    show (if false = true then _ else if overlaps lo hi' a b = true then _ else _) = _
    rw [ho]
    simp only [Bool.false_eq_true, if_false, if_true]
    show ((backComp B .cluster .tikv .sled [] S.uuidS).metadata c.store q).bind _ = _
    rw [hm, Res.bind_ok]
    rcases specMetadata (numbered (insideOnly lo hi h)) q with _ | ⟨x, l⟩
    · rfl
    · rw [if_neg (by simp), readAll, back_read]
      have : Stores.bytes .cluster .tikv S.uuidS c.store x.1 = none := hnone x.1
      show ((match Stores.bytes .cluster .tikv S.uuidS c.store x.1 with
        | none => Res.err MErr.notFound
        | some v => (decodeSeries v).bind fun series => readSeries B series a b).bind _) = _
      rw [this]; rfl
  rw [hq2]

/-- Consequence: the promise is false for every combination with a TiKV component in dry-run mode, and for both mixed combinations on a
cluster (both components on a cluster: C45). -/
theorem C72_violated (B : BinSearch) :
    (∀ st ix, st = .tikv ∨ ix = .tikv → ¬ KeepsData B .dryRun st ix) ∧ ¬ KeepsData B .cluster .sled .tikv ∧ ¬ KeepsData B .cluster .tikv .sled := by
  have hfine := exIns_fine
  refine ⟨?_, ?_, ?_⟩
  · intro st ix ht hall
    have := hall (exSetup .dryRun st ix) (exSetup_good _ _ _) rfl rfl rfl (fun _ => rfl) (by simp [exSetup]) 0#64 1000#64 exIns hfine [lbl "a" "1"] exQ_wf 5#64 150#64
    rw [C72_violated_dry_run B _ (exSetup_good _ _ _) rfl ht 0#64 1000#64 1000#64 _ hfine] at this
    simp at this
  · intro hall
    have := hall (exSetup .cluster .sled .tikv) (exSetup_good _ _ _) rfl rfl rfl (fun _ => rfl) (by simp [exSetup]) 0#64 1000#64 exIns hfine [lbl "a" "1"] exQ_wf 5#64 150#64
    rw [C72_violated_index B _ (exSetup_good _ _ _) rfl rfl rfl 0#64 1000#64 1000#64 _ hfine _ _ _ (by decide),
      C68_exact _ _ (exSetup_good _ _ _) _ _ _ exIns_fine (fun _ => exIns_incr) _ exQ_wf _ _ (by decide)] at this
    revert this
    decide +kernel
  · intro hall
    have := hall (exSetup .cluster .tikv .sled) (exSetup_good _ _ _) rfl rfl rfl (fun _ => rfl) (by simp [exSetup]) 0#64 1000#64 exIns hfine [lbl "a" "1"] exQ_wf 5#64 150#64
    rw [C72_violated_storage B _ (exSetup_good _ _ _) rfl rfl rfl (fun _ => rfl) 0#64 1000#64 1000#64 _ hfine _ exQ_wf _ _ (by decide),
      C68_exact _ _ (exSetup_good _ _ _) _ _ _ exIns_fine (fun _ => exIns_incr) _ exQ_wf _ _ (by decide)] at this
    revert this
    decide +kernel

/-- What holds: with both components on sled the promise is kept (whatever the connection). -/
theorem C72_partial (B : BinSearch) (conn : Conn) : KeepsData B conn .sled .sled := by
  intro S hS _ hs hx _ _ lo hi h hf q hq a b
  obtain ⟨c, e1, e2, hr⟩ := hS.rep B lo hi hf
  unfold Setup.afterRestart Setup.query
  rw [e1, e2, Res.bind_ok, Res.bind_ok, Res.bind_ok]
  have hre : ∃ s', reopenStores S.conn S.st S.ix S.chunkId c.store = .ok (some (([], []), s')) ∧ s'.idx = c.store.idx ∧ s'.ser = c.store.ser := by
    unfold reopenStores
    rw [hs, hx]
    simp only [Res.bind_ok]
    cases S.conn
    · exact ⟨_, rfl, rfl, rfl⟩
    · exact ⟨_, rfl, rfl, rfl⟩
  obtain ⟨s', hre, h1, h2⟩ := hre
  have hip : S.ipre = [] := by unfold Setup.ipre; rw [hx]
  rw [hre, Res.bind_ok, Option.map_some, hip]
  simp only [Setup.comp, hs, hx]
  congr 2
  have hread : ∀ l : List (U64 × Labels), readAll (backComp B S.conn .sled .sled [] []) s' a b l = readAll (backComp B S.conn .sled .sled [] []) c.store a b l := by
    intro l
    induction l with
    | nil => rfl
    | cons x l ih =>
      rw [readAll, readAll, ih]
      show (sledRead B s'.ser x.1 a b).bind _ = (sledRead B c.store.ser x.1 a b).bind _
      rw [h2]
  unfold Chunk.query
  rw [Chunk.isWithRange_eq, Chunk.isWithRange_eq, hr.ok, hr.start_, hr.end_]
  show (if false = true then _ else if overlaps lo hi a b = true then _ else _) = (if false = true then _ else if overlaps lo hi a b = true then _ else _)
  have hm : (backComp B S.conn .sled .sled [] []).metadata s' q = (backComp B S.conn .sled .sled [] []).metadata c.store q := by
    show sledMetadata s'.idx q = sledMetadata c.store.idx q
    rw [h1]
  show (if false = true then Res.panic else if overlaps lo hi a b = true then
    ((backComp B S.conn .sled .sled [] []).metadata s' q).bind (readAll (backComp B S.conn .sled .sled [] []) s' a b) else _) = _
  rw [hm, funext hread]
  rfl

example : (exSetup .cluster .sled .sled).afterRestart stdBinSearch 0#64 1000#64 1000#64 exIns [lbl "a" "1"] 5#64 150#64 =
    .ok (some (.ok [⟨1#64, [lbl "a" "1"], [⟨10#64, 5#64⟩]⟩, ⟨2#64, [lbl "a" "1", lbl "b" "2"], [⟨100#64, 6#64⟩]⟩])) := by
  rw [C72_partial stdBinSearch .cluster (exSetup .cluster .sled .sled) (exSetup_good _ _ _) rfl rfl rfl (fun _ => rfl) (by simp [exSetup]) _ _ _ exIns_fine _ exQ_wf,
    C68_exact _ _ (exSetup_good _ _ _) _ _ _ exIns_fine (fun _ => exIns_incr) _ exQ_wf _ _ (by decide)]
  decide +kernel

/-! ### C73 -/

/-- The chunks as the client sees them: a new one is empty, an insert into the `k`-th adds a point to it if it lies in its window. -/
def sharedSpec : List SharedOp → List Desc :=
  List.foldl (fun ds op => match op with
    | .build _ _ _ lo hi => ds ++ [⟨lo, hi, []⟩]
    | .insert k ls p => ds.modify k fun d => if inside d.lo d.hi p then { d with h := d.h ++ [(ls, p)] } else d) []

/-- The chunk identifiers of the chunks built. -/
def builtIds (ops : List SharedOp) : List Str := ops.filterMap fun op => match op with
  | .build c _ _ _ _ => some c
  | .insert .. => none

/-- The indexer UUIDs of the chunks built. -/
def builtUuids (ops : List SharedOp) : List Str := ops.filterMap fun op => match op with
  | .build _ _ u _ _ => some u
  | .insert .. => none

/-- All UUIDs are new and different, labels are well-formed, and there are not too many operations for 64-bit ids. -/
structure SharedGood (cluster : KV) (ops : List SharedOp) : Prop where
  ids : ∀ c ∈ builtIds ops, c.length = 16 ∧ cluster c = none
  idsNew : (builtIds ops).Nodup
  uuids : ∀ u ∈ builtUuids ops, u.length = 16 ∧ ∀ k, cluster (u ++ k) = none
  uuidsNew : (builtUuids ops).Nodup
  wf : ∀ k ls p, SharedOp.insert k ls p ∈ ops → WFSet ls
  len : ops.length + 1 < 2 ^ 64 - 1

theorem sharedHp (ipre : Str) : Conn.cluster = .cluster → Backend.sled = .tikv → Backend.tikv = .tikv → ([] : Str).length + 8 ≤ ipre.length := by
  intro _ h; cases h

theorem IndexInv.agree {C : IdCodec} {c : Created} {kv kv' : KV} (h : IndexInv C c kv) (he : ∀ k, kv' (C.pre ++ k) = kv (C.pre ++ k)) :
    IndexInv C c kv' :=
  ⟨fun ls hl => by rw [he]; exact h.byLabels ls hl, fun i => by rw [he]; exact h.byId i, fun l hl => by rw [he]; exact h.rev l hl⟩

theorem sharedSpec_inside (ops : List SharedOp) : ∀ d ∈ sharedSpec ops, ∀ w ∈ d.h, inside d.lo d.hi w.2 = true := by
  have key : ∀ (ops : List SharedOp) (ds : List Desc), (∀ d ∈ ds, ∀ w ∈ d.h, inside d.lo d.hi w.2 = true) →
      ∀ d ∈ ops.foldl (fun ds op => match op with
        | .build _ _ _ lo hi => ds ++ [⟨lo, hi, []⟩]
        | .insert k ls p => ds.modify k fun d => if inside d.lo d.hi p then { d with h := d.h ++ [(ls, p)] } else d) ds,
        ∀ w ∈ d.h, inside d.lo d.hi w.2 = true := by
    intro ops
    induction ops with
    | nil => intro ds h; exact h
    | cons op ops ih =>
      intro ds h
      rw [List.foldl_cons]
      apply ih
      intro d hd
      cases op with
      | build c uS u lo hi =>
        rcases List.mem_append.mp hd with hd | hd
        · exact h d hd
        · simp only [List.mem_singleton] at hd; subst hd; simp
      | insert k ls p =>
        obtain ⟨j, hj⟩ := List.getElem?_of_mem hd
        simp only [List.getElem?_modify, Option.map_eq_map] at hj
        rcases hjd : ds[j]? with _ | d0
        · rw [hjd] at hj; simp at hj
        · rw [hjd] at hj
          have := h d0 (List.mem_of_getElem? hjd)
          simp only [Option.map_some, Option.some.injEq] at hj
          subst hj
          split
          · split
            · rename_i hin
              intro w hw
              simp only [List.mem_append, List.mem_singleton] at hw
              rcases hw with hw | rfl
              · exact this w hw
              · exact hin
            · exact this
          · exact this
  exact key ops [] (by simp)

/-- Each chunk represents its own inserts in the shared cluster. -/
structure SharedInv (B : BinSearch) (kv0 : KV) (ops : List SharedOp) (m : Shared) : Prop where
  len : m.chunks.length = (sharedSpec ops).length
  lenU : m.chunks.length = (builtUuids ops).length
  size : ∀ d ∈ sharedSpec ops, d.h.length ≤ ops.length
  wf : ∀ d ∈ sharedSpec ops, ∀ w ∈ d.h, WFSet w.1
  rep : ∀ (k : Nat) (x : (Str × Str) × Chunk Stores), m.chunks[k]? = some x → ∃ (u : Str) (d : Desc), (builtUuids ops)[k]? = some u ∧ (sharedSpec ops)[k]? = some d ∧ x.1 = ([], u ++ nilUuid) ∧
    ChunkRep (backRefines B .cluster .sled .tikv (u ++ nilUuid) [] (sharedHp _)) d.lo d.hi d.h (x.2.synced m.cluster)
  unused : ∀ u, u.length = 16 → u ∉ builtUuids ops → (∀ k, kv0 (u ++ k) = none) → ∀ k, m.cluster ((u ++ nilUuid) ++ k) = none
  record : ∀ c, c.length = 16 → c ∉ builtIds ops → m.cluster c = kv0 c

theorem builtIds_append (ops : List SharedOp) (op : SharedOp) :
    builtIds (ops ++ [op]) = builtIds ops ++ (match op with | .build c _ _ _ _ => [c] | .insert .. => []) := by
  unfold builtIds
  rw [List.filterMap_append]
  cases op <;> rfl

theorem builtUuids_append (ops : List SharedOp) (op : SharedOp) :
    builtUuids (ops ++ [op]) = builtUuids ops ++ (match op with | .build _ _ u _ _ => [u] | .insert .. => []) := by
  unfold builtUuids
  rw [List.filterMap_append]
  cases op <;> rfl

theorem sharedSpec_append (ops : List SharedOp) (op : SharedOp) :
    sharedSpec (ops ++ [op]) = match op with
      | .build _ _ _ lo hi => sharedSpec ops ++ [⟨lo, hi, []⟩]
      | .insert k ls p => (sharedSpec ops).modify k fun d => if inside d.lo d.hi p then { d with h := d.h ++ [(ls, p)] } else d := by
  unfold sharedSpec
  rw [List.foldl_append]
  cases op <;> rfl

theorem SharedGood.prefix {kv : KV} {ops : List SharedOp} {op : SharedOp} (h : SharedGood kv (ops ++ [op])) : SharedGood kv ops := by
  have h1 := h.ids; have h2 := h.idsNew; have h3 := h.uuids; have h4 := h.uuidsNew; have h6 := h.len
  rw [builtIds_append] at h1 h2
  rw [builtUuids_append] at h3 h4
  refine ⟨fun c hc => h1 c (by simp [hc]), (List.nodup_append.mp h2).1, fun u hu => h3 u (by simp [hu]), (List.nodup_append.mp h4).1,
    fun k ls p hm => h.wf k ls p (by simp [hm]), ?_⟩
  simp only [List.length_append, List.length_cons, List.length_nil] at h6
  omega

theorem uuid_keys_ne {u u' : Str} (h : u.length = 16) (h' : u'.length = 16) (hne : u ≠ u') (k k' : Str) :
    (u ++ nilUuid) ++ k ≠ (u' ++ nilUuid) ++ k' := by
  intro e
  rw [List.append_assoc, List.append_assoc] at e
  exact hne (List.append_inj_left e (by rw [h, h']))

theorem shared_inv (B : BinSearch) (kv0 : KV) (ops : List SharedOp) (hg : SharedGood kv0 ops) :
    SharedInv B kv0 ops (Shared.run B .sled .tikv ⟨kv0, []⟩ ops) := by
  induction ops using List.reverseRecOn with
  | nil =>
    exact ⟨rfl, rfl, by simp [sharedSpec], by simp [sharedSpec], by simp [Shared.run],
      fun u _ _ h k => by rw [List.append_assoc]; exact h _, fun _ _ _ => rfl⟩
  | append_singleton ops op ih =>
    have ih := ih hg.prefix
    have e : Shared.run B .sled .tikv ⟨kv0, []⟩ (ops ++ [op]) = (Shared.run B .sled .tikv ⟨kv0, []⟩ ops).step B .sled .tikv op := by
      unfold Shared.run; rw [List.foldl_append]; rfl
    rw [e]
    generalize Shared.run B .sled .tikv ⟨kv0, []⟩ ops = m at ih
    have hlen := hg.len
    simp only [List.length_append, List.length_cons, List.length_nil] at hlen
    have huuid := hg.prefix.uuids
    cases op with
    | build c uS u lo hi =>
      have hc := hg.ids c (by rw [builtIds_append]; simp)
      have hu := hg.uuids u (by rw [builtUuids_append]; simp)
      have hcn : c ∉ builtIds ops := by
        have := hg.idsNew; rw [builtIds_append] at this
        intro hm; exact (List.nodup_append.mp this).2.2 c hm c (by simp) rfl
      have hun : u ∉ builtUuids ops := by
        have := hg.uuidsNew; rw [builtUuids_append] at this
        intro hm; exact (List.nodup_append.mp this).2.2 u hm u (by simp) rfl
      have hmc : m.cluster c = none := by rw [ih.record c hc.1 hcn, hc.2]
      have hb : buildStores .cluster .sled .tikv m.cluster c uS u =
          (.ok ([], u ++ nilUuid), ⟨KV.empty, KV.empty, m.cluster.set c (u ++ nilUuid), KV.empty⟩) := by
        unfold buildStores
        simp only [initIndexer_fresh (w := uS) (Or.inl hmc)]
      have hstep : m.step B .sled .tikv (.build c uS u lo hi) =
          ⟨m.cluster.set c (u ++ nilUuid), m.chunks ++ [(([], u ++ nilUuid), Chunk.new ⟨KV.empty, KV.empty, m.cluster.set c (u ++ nilUuid), KV.empty⟩ lo hi)]⟩ := by
        unfold Shared.step; simp only [hb]
      rw [hstep]
      have hkey : ∀ v : Str, v.length = 16 → ∀ k, (v ++ nilUuid) ++ k ≠ c := by
        intro v hv k e
        have := congrArg List.length e
        simp [hc.1, hv, nilUuid_length] at this
      refine ⟨?_, ?_, ?_, ?_, ?_, ?_, ?_⟩
      · rw [sharedSpec_append]; simp [ih.len]
      · rw [builtUuids_append]; simp [ih.lenU]
      · rw [sharedSpec_append]
        intro d hd
        rcases List.mem_append.mp hd with hd | hd
        · have := ih.size d hd; simp; omega
        · simp only [List.mem_singleton] at hd; subst hd; simp
      · rw [sharedSpec_append]
        intro d hd
        rcases List.mem_append.mp hd with hd | hd
        · exact ih.wf d hd
        · simp only [List.mem_singleton] at hd; subst hd; simp
      · intro k x hx
        rw [builtUuids_append, sharedSpec_append]
        simp only [] at hx ⊢
        by_cases hk : k < m.chunks.length
        · rw [List.getElem?_append_left hk] at hx
          obtain ⟨v, d, h1, h2, h3, h4⟩ := ih.rep k x hx
          refine ⟨v, d, ?_, ?_, h3, ⟨h4.start_, h4.end_, h4.ok, h4.next, ?_, h4.rep.2⟩⟩
          · rw [List.getElem?_append_left (by rw [← ih.lenU]; exact hk)]; exact h1
          · rw [List.getElem?_append_left (by rw [← ih.len]; exact hk)]; exact h2
          · exact IndexInv.agree h4.rep.1 fun k => KV.set_other _ _ (hkey v (huuid v (List.mem_of_getElem? h1)).1 k)
        · rw [List.getElem?_append_right (by omega)] at hx
          have hk0 : k = m.chunks.length := by
            by_contra hne
            rw [show ([(([], u ++ nilUuid), Chunk.new ⟨KV.empty, KV.empty, m.cluster.set c (u ++ nilUuid), KV.empty⟩ lo hi)] :
              List ((Str × Str) × Chunk Stores))[k - m.chunks.length]? = none from List.getElem?_eq_none (by simp; omega)] at hx
            simp at hx
          subst hk0
          simp only [Nat.sub_self, List.getElem?_cons_zero, Option.some.injEq] at hx
          subst hx
          refine ⟨u, ⟨lo, hi, []⟩, ?_, ?_, rfl, ⟨rfl, rfl, rfl, rfl, ?_, fun _ => rfl⟩⟩
          · rw [ih.lenU]; simp
          · rw [ih.len]; simp
          · refine IndexInv.empty (tikvCodec _) _ fun k => ?_
            show (m.cluster.set c (u ++ nilUuid)) ((u ++ nilUuid) ++ k) = none
            rw [KV.set_other _ _ (hkey u hu.1 k)]
            exact ih.unused u hu.1 hun hu.2 k
      · intro v hv hvn hv0 k
        rw [builtUuids_append] at hvn
        show (m.cluster.set c (u ++ nilUuid)) ((v ++ nilUuid) ++ k) = none
        rw [KV.set_other _ _ (hkey v hv k)]
        exact ih.unused v hv (fun h => hvn (by simp [h])) hv0 k
      · intro c' hc' hcn'
        rw [builtIds_append] at hcn'
        show (m.cluster.set c (u ++ nilUuid)) c' = _
        rw [KV.set_other _ _ (fun e => hcn' (by simp [e]))]
        exact ih.record c' hc' (fun h => hcn' (by simp [h]))
    | insert k ls p =>
      have hls := hg.wf k ls p (by simp)
      rw [show (m.step B .sled .tikv (.insert k ls p)) = match m.chunks[k]? with
        | none => m
        | some (ids, c) =>
          let r := (c.synced m.cluster).insert (backComp B .cluster .sled .tikv ids.2 ids.1) ls p
          ⟨r.2.store.kvI, m.chunks.set k (ids, r.2)⟩ from rfl]
      have hspecLen : (sharedSpec (ops ++ [.insert k ls p])).length = (sharedSpec ops).length := by rw [sharedSpec_append]; simp
      have hU : builtUuids (ops ++ [.insert k ls p]) = builtUuids ops := by rw [builtUuids_append]; simp
      have hI : builtIds (ops ++ [.insert k ls p]) = builtIds ops := by rw [builtIds_append]; simp
      have hsize : ∀ d ∈ sharedSpec (ops ++ [.insert k ls p]), d.h.length ≤ (ops ++ [SharedOp.insert k ls p]).length := by
        rw [sharedSpec_append]
        intro d hd
        obtain ⟨j, hj⟩ := List.getElem?_of_mem hd
        simp only [List.getElem?_modify, Option.map_eq_map] at hj
        rcases hjd : (sharedSpec ops)[j]? with _ | d0
        · rw [hjd] at hj; simp at hj
        · rw [hjd] at hj
          have := ih.size d0 (List.mem_of_getElem? hjd)
          simp only [Option.map_some, Option.some.injEq] at hj
          subst hj
          simp only [List.length_append, List.length_cons, List.length_nil]
          split
          · split
            · simp; omega
            · omega
          · omega
      have hwf : ∀ d ∈ sharedSpec (ops ++ [.insert k ls p]), ∀ w ∈ d.h, WFSet w.1 := by
        rw [sharedSpec_append]
        intro d hd
        obtain ⟨j, hj⟩ := List.getElem?_of_mem hd
        simp only [List.getElem?_modify, Option.map_eq_map] at hj
        rcases hjd : (sharedSpec ops)[j]? with _ | d0
        · rw [hjd] at hj; simp at hj
        · rw [hjd] at hj
          have := ih.wf d0 (List.mem_of_getElem? hjd)
          simp only [Option.map_some, Option.some.injEq] at hj
          subst hj
          split
          · split
            · intro w hw
              simp only [List.mem_append, List.mem_singleton] at hw
              rcases hw with hw | rfl
              · exact this w hw
              · exact hls
            · exact this
          · exact this
      rcases hk : m.chunks[k]? with _ | ⟨ids, c⟩
      · simp only []
        refine ⟨by rw [hspecLen]; exact ih.len, by rw [hU]; exact ih.lenU, hsize, hwf, ?_, by rw [hU]; exact ih.unused, by rw [hI]; exact ih.record⟩
        intro j x hx
        obtain ⟨v, d, h1, h2, h3, h4⟩ := ih.rep j x hx
        refine ⟨v, d, by rw [hU]; exact h1, ?_, h3, h4⟩
        rw [sharedSpec_append]
        simp only [List.getElem?_modify, Option.map_eq_map, h2, Option.map_some]
        rw [if_neg]
        rintro rfl; rw [hk] at hx; simp at hx
      · simp only []
        obtain ⟨u, d, h1, h2, h3, h4⟩ := ih.rep k _ hk
        simp only at h3
        subst h3
        have hu16 := (huuid u (List.mem_of_getElem? h1)).1
        have hdl := ih.size d (List.mem_of_getElem? h2)
        have hins := h4.insert (by omega) hls p
        simp only [] at hins
        generalize hr : (c.synced m.cluster).insert (backComp B .cluster .sled .tikv (u ++ nilUuid) []) ls p = r at hins
        have hframe : ∀ key, (∀ x, key ≠ (u ++ nilUuid) ++ x) → r.2.store.kvI key = m.cluster key := by
          intro key hkey
          rw [← hr]
          exact insert_frame B .sled .tikv (fun _ => hkey) (by simp) (c.synced m.cluster) ls p
        refine ⟨by rw [hspecLen]; simp [ih.len], by rw [hU]; simp [ih.lenU], hsize, hwf, ?_, ?_, ?_⟩
        · intro j x hx
          simp only [] at hx ⊢
          rw [hU, sharedSpec_append]
          simp only [List.getElem?_modify, Option.map_eq_map]
          by_cases hjk : k = j
          · subst hjk
            rw [List.getElem?_set_self (List.getElem?_eq_some_iff.mp hk).1] at hx
            simp only [Option.some.injEq] at hx
            subst hx
            rw [h2]
            refine ⟨u, _, h1, rfl, rfl, ?_⟩
            have hsync : r.2.synced r.2.store.kvI = r.2 := rfl
            simp only [if_true]
            rw [hsync]
            by_cases hin : inside d.lo d.hi p
            · rw [if_pos hin] at hins ⊢
              exact hins.2.1
            · rw [if_neg hin] at hins ⊢
              rw [hins]; exact h4
          · rw [List.getElem?_set_ne hjk] at hx
            obtain ⟨v, d', h1', h2', h3', h4'⟩ := ih.rep j x hx
            rw [h2']
            refine ⟨v, d', h1', ?_, h3', ⟨h4'.start_, h4'.end_, h4'.ok, h4'.next, ?_, h4'.rep.2⟩⟩
            · rw [Option.map_some, if_neg hjk]
            · refine IndexInv.agree h4'.rep.1 fun y => ?_
              show r.2.store.kvI ((v ++ nilUuid) ++ y) = m.cluster ((v ++ nilUuid) ++ y)
              apply hframe
              intro x
              refine uuid_keys_ne (huuid v (List.mem_of_getElem? h1')).1 hu16 ?_ _ _
              rintro rfl
              have hnd := hg.prefix.uuidsNew
              exact hjk ((List.getElem?_inj (List.getElem?_eq_some_iff.mp h1).1 hnd).mp (h1.trans h1'.symm))
        · intro v hv hvn hv0 y
          rw [hU] at hvn
          show r.2.store.kvI ((v ++ nilUuid) ++ y) = none
          rw [hframe]
          · exact ih.unused v hv hvn hv0 y
          · intro x
            refine uuid_keys_ne hv hu16 ?_ _ _
            rintro rfl
            exact hvn (List.mem_of_getElem? h1)
        · intro c' hc' hcn'
          rw [hI] at hcn'
          show r.2.store.kvI c' = _
          rw [hframe]
          · exact ih.record c' hc' hcn'
          · intro x e
            have := congrArg List.length e
            simp [hc', hu16, nilUuid_length] at this

/-- Sled storage with a TiKV indexer on a shared cluster: after every sequence of chunk creations and inserts into any of the chunks, in
any order, every chunk answers exactly as a chunk of its own with sled components that saw only its own inserts. -/
theorem C73_isolated (B : BinSearch) (kv0 : KV) (ops : List SharedOp) (hg : SharedGood kv0 ops) (k : Nat) (d : Desc)
    (hd : (sharedSpec ops)[k]? = some d) (q : Labels) (hq : ∀ l ∈ q, WFLabel l) (a b : U64) (hab : a.toNat ≤ b.toNat)
    (hincr : ∀ ls, SIncr (pointsFor d.h ls)) :
    Shared.query B .sled .tikv (Shared.run B .sled .tikv ⟨kv0, []⟩ ops) k q a b =
      some (((newSled d.lo d.hi).insertAll (sledComp B) d.h).query (sledComp B) q a b) := by
  have hi := shared_inv B kv0 ops hg
  generalize Shared.run B .sled .tikv ⟨kv0, []⟩ ops = m at hi
  have hk : k < m.chunks.length := by rw [hi.len]; exact (List.getElem?_eq_some_iff.mp hd).1
  obtain ⟨u, d', h1, h2, h3, h4⟩ := hi.rep k m.chunks[k] (List.getElem?_eq_getElem hk)
  rw [hd] at h2
  simp only [Option.some.injEq] at h2
  subst h2
  have hlen := hg.len
  have hsz := hi.size d (List.mem_of_getElem? hd)
  have hwf := hi.wf d (List.mem_of_getElem? hd)
  have hf : Fine d.h := ⟨hwf, by omega⟩
  unfold Shared.query
  rw [List.getElem?_eq_getElem hk, Option.map_some, h3]
  congr 1
  have e1 := h4.query (by omega) hwf (fun ls => by show SIncr (keepBy sledAccepts _); rw [keepBy_sled]; exact hincr ls) hq hab
  have hall : insideOnly d.lo d.hi d.h = d.h := by
    have := sharedSpec_inside ops d (List.mem_of_getElem? hd)
    unfold insideOnly
    rw [List.filter_eq_self]
    exact this
  rw [C30_sled_query B d.lo d.hi d.h hf (by rw [hall]; exact hincr) q hq a b hab, hall]
  exact e1

/-- Two chunks; the first gets a point before the second is built and another one afterwards; both have a series with id 1. -/
def exShared : List SharedOp :=
  [.build (List.replicate 16 9#8) (List.replicate 16 1#8) (List.replicate 16 2#8) 0#64 1000#64,
   .insert 0 [lbl "a" "1"] ⟨10#64, 5#64⟩,
   .build (List.replicate 16 8#8) (List.replicate 16 3#8) (List.replicate 16 4#8) 1000#64 2000#64,
   .insert 1 [lbl "x" "y"] ⟨1500#64, 7#64⟩, .insert 0 [lbl "a" "1"] ⟨20#64, 6#64⟩]

theorem exShared_good : SharedGood KV.empty exShared := by
  refine ⟨?_, by decide, ?_, by decide, ?_, by decide⟩
  · intro c hc
    simp only [exShared, builtIds, List.filterMap_cons, List.filterMap_nil, List.mem_cons, List.not_mem_nil, or_false] at hc
    rcases hc with rfl | rfl <;> exact ⟨rfl, rfl⟩
  · intro c hc
    simp only [exShared, builtUuids, List.filterMap_cons, List.filterMap_nil, List.mem_cons, List.not_mem_nil, or_false] at hc
    rcases hc with rfl | rfl <;> exact ⟨rfl, fun _ => rfl⟩
  · intro k ls p hm
    simp only [exShared, List.mem_cons, List.not_mem_nil, or_false, reduceCtorEq, false_or, SharedOp.insert.injEq] at hm
    rcases hm with ⟨-, rfl, -⟩ | ⟨-, rfl, -⟩ | ⟨-, rfl, -⟩ <;> exact wfSet_of (by decide +kernel)

example : Shared.query stdBinSearch .sled .tikv (Shared.run stdBinSearch .sled .tikv ⟨KV.empty, []⟩ exShared) 0 [lbl "a" "1"] 0#64 3000#64 =
    some (.ok [⟨1#64, [lbl "a" "1"], [⟨10#64, 5#64⟩, ⟨20#64, 6#64⟩]⟩]) := by
  have hinc : ∀ ls, SIncr (pointsFor [([lbl "a" "1"], (⟨10#64, 5#64⟩ : TimePoint)), ([lbl "a" "1"], ⟨20#64, 6#64⟩)] ls) :=
    incr_pointsFor (by unfold SIncr; decide +kernel)
  rw [C73_isolated stdBinSearch KV.empty exShared exShared_good 0 ⟨0#64, 1000#64, [([lbl "a" "1"], ⟨10#64, 5#64⟩), ([lbl "a" "1"], ⟨20#64, 6#64⟩)]⟩ rfl
    [lbl "a" "1"] exQ_wf _ _ (by decide) hinc]
  rw [C30_sled_query _ _ _ _ _ (by exact hinc) _ exQ_wf _ _ (by decide)]
  · decide +kernel
  · exact ⟨by
      intro w hw
      simp only [List.mem_cons, List.not_mem_nil, or_false] at hw
      rcases hw with rfl | rfl <;> exact wfSet_of (by decide +kernel), by decide⟩

end Verif
