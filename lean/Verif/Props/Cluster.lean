import Verif.Lemmas.Cluster
import Verif.Props.ServerConc
/-! C88: servers on one TiKV cluster. -/
namespace Verif

/-- C88: whatever the other servers (with any storage and any indexer) and other clients of the cluster do, and however their operations and those of this server
follow each other: a server with sled storage answers its requests as if it had the cluster for itself, with its own turns in the same order. Its whole state
is that of such a server. -/
theorem C88_alone (ms : Nat → Member) (N : Nat) (kv : KV) (ops : List FleetOp) (ha : Apart ms N kv ops) (H : Hash) (F : Formats) (n : Nat) (hn : n < N)
    (hst : (ms n).kit.st = .sled) :
    (((Fleet.start ms kv).run ms H F ops).nodes n).sent =
      ((SrvConf.start (ms n).lo (ms n).hi (ms n).ticks (ms n).reqs).run (ms n).kit H F (ms n).paths (turnsOf n ops)).sent ∧
    (((Fleet.start ms kv).run ms H F ops).nodes n).seen (ms n) ((Fleet.start ms kv).run ms H F ops).cluster =
      (SrvConf.start (ms n).lo (ms n).hi (ms n).ticks (ms n).reqs).run (ms n).kit H F (ms n).paths (turnsOf n ops) := by
  have h := fleet_alone ha H F hn hst ops _ _ (fun _ h => h) (start_kept88 ms kv) (start_alone ha hn hst)
  have e := congrArg SrvConf.sent h.seen
  exact ⟨e, h.seen⟩

/-- C88, honesty: every sample in an answer of such a server was sent to this server, as a sample of a series with these labels, in an earlier write request, and
lies in the range asked for; no label set comes twice. -/
theorem C88_honest (ms : Nat → Member) (N : Nat) (kv : KV) (ops : List FleetOp) (ha : Apart ms N kv ops) (H : Hash) (sn : Snappy) (rt : PbRt) (n : Nat) (hn : n < N)
    (hst : (ms n).kit.st = .sled) (hP : (ms n).paths.read ≠ (ms n).paths.write) (calls : List Call)
    (hsays : List.Forall₂ (Says sn rt.utf8 (ms n).paths) (ms n).reqs calls) (hf : FineCalls rt calls)
    (hH : H.Good fun k => ∃ m s, Call.write m ∈ calls ∧ s ∈ m ∧ k = sortLabels s.labels) (hb : ops.length < 2 ^ 64 - 1)
    (j : Nat) (qs : List PQuery) (hj : calls[j]? = some (.read qs)) (body : Str)
    (hres : (((Fleet.start ms kv).run ms H (pbFormats sn rt) ops).nodes n).sent[j]? = some (some ⟨200, body⟩))
    (hqs : ∀ q ∈ qs, (∀ y ∈ q.matchers, WFLabel ⟨y.name, y.value⟩) ∧ (asU64 q.start_).toNat ≤ (asU64 q.end_).toNat) :
    ∃ out, sn.decompress body = some out ∧ (out.length < 2 ^ 32 → ∃ rs, (∀ m, IsResponse rt.utf8 m out ↔ m = rs) ∧ rs.length = qs.length ∧
      ∀ (k : Nat) (hk : k < qs.length) (r : List PSeries), rs[k]? = some r → (r.map (·.labels)).Nodup ∧ ∀ y ∈ r, ∀ z ∈ y.samples,
        ∃ i m ser x, i < j ∧ calls[i]? = some (.write m) ∧ ser ∈ m ∧ x ∈ ser.samples ∧ y.labels = sortLabels ser.labels ∧ z = asReported x.point ∧
          (asU64 qs[k].start_).toNat ≤ x.point.ts.toNat ∧ x.point.ts.toNat ≤ (asU64 qs[k].end_).toNat) := by
  rw [(C88_alone ms N kv ops ha H (pbFormats sn rt) n hn hst).1] at hres
  refine C85_honest (ms n).kit H sn rt (ms n).paths hP _ _ _ _ calls hsays hf hH (turnsOf n ops) (Nat.lt_of_le_of_lt (List.length_filterMap_le _ _) hb) j qs hj body hres hqs

theorem turnsOf_append (n : Nat) (a b : List FleetOp) : turnsOf n (a ++ b) = turnsOf n a ++ turnsOf n b := List.filterMap_append

theorem Apart.left {ms : Nat → Member} {N : Nat} {kv : KV} {a b : List FleetOp} (h : Apart ms N kv (a ++ b)) : Apart ms N kv a :=
  ⟨h.len, h.distinct, h.storage, h.clean, fun k v hk => h.others k v (List.mem_append_left _ hk), fun n t ht => h.turns n t (List.mem_append_left _ ht)⟩

/-- C88, durability: a sample acknowledged by such a server is in every later answer of it to a query for some of its labels and all times, whatever the other
servers and clients do in between (the windows of the chunks that the server had while it handled the write contain the sample). -/
theorem C88_durable (ms : Nat → Member) (N : Nat) (kv : KV) (o1 o2 o3 : List FleetOp) (ha : Apart ms N kv (o1 ++ o2 ++ o3)) (H : Hash) (sn : Snappy) (rt : PbRt)
    (n : Nat) (hn : n < N) (hst : (ms n).kit.st = .sled) (hP : (ms n).paths.read ≠ (ms n).paths.write) (calls : List Call)
    (hsays : List.Forall₂ (Says sn rt.utf8 (ms n).paths) (ms n).reqs calls) (hf : FineCalls rt calls)
    (hH : H.Good fun k => ∃ m s, Call.write m ∈ calls ∧ s ∈ m ∧ k = sortLabels s.labels) (hb : (o1 ++ o2 ++ o3).length < 2 ^ 64 - 1) (c1 c2 c3 : SrvConf)
    (hc1 : c1 = ((Fleet.start ms kv).run ms H (pbFormats sn rt) o1).nodes n) (hc2 : c2 = ((Fleet.start ms kv).run ms H (pbFormats sn rt) (o1 ++ o2)).nodes n)
    (hc3 : c3 = ((Fleet.start ms kv).run ms H (pbFormats sn rt) (o1 ++ o2 ++ o3)).nodes n)
    (i j : Nat) (hij : i < j) (m : List PSeries) (hi' : calls[i]? = some (.write m)) (h1 : c1.now.isNone = true) (h1' : c1.sent.length = i)
    (h2 : i < c2.sent.length) (hack : c3.sent[i]? = some (some ⟨200, []⟩))
    (ser : PSeries) (hser : ser ∈ m) (x : Sample) (hx : x ∈ ser.samples)
    (hin : ∀ (k : Nat) (w : U64 × U64), (c1.db.threads 0).done.length ≤ k → k ≤ (c2.db.threads 0).done.length →
      (((ms n).lo, (ms n).hi) :: (ms n).ticks)[k]? = some w → inside w.1 w.2 x.point = true)
    (qs : List PQuery) (hj : calls[j]? = some (.read qs)) (body : Str) (hres : c3.sent[j]? = some (some ⟨200, body⟩))
    (hqs : ∀ q ∈ qs, (∀ y ∈ q.matchers, WFLabel ⟨y.name, y.value⟩) ∧ (asU64 q.start_).toNat ≤ (asU64 q.end_).toNat)
    (k : Nat) (hk : k < qs.length) (hne : qs[k].matchers ≠ []) (hsub : ∀ y ∈ qs[k].matchers, (⟨y.name, y.value⟩ : Label) ∈ ser.labels)
    (h0 : qs[k].start_ = 0) (hcov : ∀ m, Call.write m ∈ calls → ∀ s ∈ m, ∀ x ∈ s.samples, x.point.ts.toNat ≤ (asU64 qs[k].end_).toNat) :
    ∃ out, sn.decompress body = some out ∧ (out.length < 2 ^ 32 → ∃ rs r, (∀ m, IsResponse rt.utf8 m out ↔ m = rs) ∧ rs[k]? = some r ∧
      ∃ y ∈ r, y.labels = sortLabels ser.labels ∧ asReported x.point ∈ y.samples) := by
  have e1 := (C88_alone ms N kv o1 ha.left.left H (pbFormats sn rt) n hn hst).2
  have e2 := (C88_alone ms N kv (o1 ++ o2) ha.left H (pbFormats sn rt) n hn hst).2
  have e3 := (C88_alone ms N kv (o1 ++ o2 ++ o3) ha H (pbFormats sn rt) n hn hst).2
  rw [← hc1] at e1
  rw [← hc2, turnsOf_append] at e2
  rw [← hc3, turnsOf_append, turnsOf_append] at e3
  exact C85_durable (ms n).kit H sn rt (ms n).paths hP _ _ _ _ calls hsays hf hH (turnsOf n o1) (turnsOf n o2) (turnsOf n o3)
    (by rw [← turnsOf_append, ← turnsOf_append]; exact Nat.lt_of_le_of_lt (List.length_filterMap_le _ _) hb) _ _ _ e1 e2 e3 i j hij m hi' h1 h1' h2 hack ser hser x hx hin
    qs hj body hres hqs k hk hne hsub h0 hcov

/-! ### What a server does to the cluster -/

theorem writeBack_put {as : List Area} {kv : KV} {a0 : Area} {k0 v : Str} (hm : a0 ∈ as) (ho : a0.old = under a0.pre kv) (hn : a0.new = a0.old.set k0 v)
    (hs : ∀ a ∈ as, a.new ≠ a.old → a.pre = a0.pre ∧ a.new = a0.new ∧ a.old = a0.old) : writeBack as kv = kv.set (a0.pre ++ k0) v := by
  funext k
  by_cases hk : k = a0.pre ++ k0
  · subst hk
    refine Eq.trans ?_ (if_pos rfl).symm
    refine writeBack_eq (fun a ha _ hne => ?_) fun hall => ?_
    · obtain ⟨e1, e2, -⟩ := hs a ha fun e => hne (by rw [e])
      rw [e1, e2, hn, List.drop_left]
      exact if_pos rfl
    · have := hall a0 hm (List.prefix_append _ _)
      rw [List.drop_left, hn, ho] at this
      exact this.symm.trans (if_pos rfl)
  · refine Eq.trans ?_ (if_neg hk).symm
    refine writeBack_eq (fun a ha hp hne => ?_) fun _ => rfl
    obtain ⟨e1, e2, e3⟩ := hs a ha fun e => hne (by rw [e])
    obtain ⟨x, rfl⟩ := hp
    rw [List.drop_left, e2, e3, hn] at hne
    by_cases hx : x = k0
    · subst hx; rw [e1] at hk; exact absurd rfl hk
    · exact absurd (if_neg hx) hne

theorem writeBack_nothing {as : List Area} {kv : KV} (hs : ∀ a ∈ as, a.new = a.old) : writeBack as kv = kv := by
  funext k
  exact writeBack_eq (fun a ha _ hne => absurd (by rw [hs a ha]) hne) fun _ => rfl

theorem seen_fresh_ser (m : Member) (kv : KV) (c : SrvConf) (i : Nat) (S : FChunk) (hS : (c.seen m kv).db.chunks[i]? = some S) (hst : m.kit.st = .tikv) :
    S.store.store.ser = under (m.ids i).2 kv := by
  simp only [SrvConf.seen, FConf.seen, List.getElem?_mapIdx, Option.map_eq_some_iff] at hS
  obtain ⟨S0, -, rfl⟩ := hS
  simp only [FChunk.seen, hst]

theorem areas_ser {K : Kit} {ids : Nat → Str × Str} {c c' : FConf} {i : Nat} {S S' : FChunk} (h : c.chunks[i]? = some S) (h' : c'.chunks[i]? = some S') (hst : K.st = .tikv) :
    (⟨(ids i).2, S.store.store.ser, S'.store.store.ser⟩ : Area) ∈ areas K ids c c' := by
  unfold areas
  refine List.mem_flatMap.mpr ⟨i, List.mem_range.mpr (List.getElem?_eq_some_iff.mp h).1, ?_⟩
  simp [h, h', hst]

theorem fleet_kept {ms : Nat → Member} {H : Hash} {F : Formats} : ∀ (ops : List FleetOp) (f : Fleet), Kept88 ms f → Kept88 ms (f.run ms H F ops) := by
  intro ops
  induction ops with
  | nil => exact fun _ h => h
  | cons op ops ih => exact fun f h => ih _ (h.step op)

/-- C88, what a turn of a server can do to the cluster: nothing, or one `put` of one key, which starts with the identifier of the indexer of one of its chunks
(TiKV indexer), or is the identifier of the storage of one of its chunks followed by 8 bytes (TiKV storage). -/
theorem C88_put (ms : Nat → Member) (kv : KV) (ops : List FleetOp) (H : Hash) (F : Formats) (n t : Nat) (f f' : Fleet) (hf : f = (Fleet.start ms kv).run ms H F ops)
    (hf' : f' = f.step ms H F (.turn n t)) :
    f'.cluster = f.cluster ∨
    ∃ i ≤ (ms n).ticks.length, ∃ k v : Str, (((ms n).kit.ix = .tikv ∧ f'.cluster = f.cluster.set (((ms n).ids i).1 ++ k) v) ∨
      ((ms n).kit.st = .tikv ∧ k.length = 8 ∧ f'.cluster = f.cluster.set (((ms n).ids i).2 ++ k) v)) := by
  have hk : Kept88 ms f := by rw [hf]; exact fleet_kept _ _ (start_kept88 ms kv)
  have hmv := (srv_moved (H := H) (F := F) (P := (ms n).paths) (c := (f.nodes n).seen (ms n) f.cluster) ((hk.elem n).seen (ms n).ids f.cluster) t).1
  have hcl : f'.cluster = writeBack (areas (ms n).kit (ms n).ids ((f.nodes n).seen (ms n) f.cluster).db
    (((f.nodes n).seen (ms n) f.cluster).step (ms n).kit H F (ms n).paths t).db) f.cluster := by rw [hf']; rfl
  have hlen := seen_chunks (ms n) f.cluster (f.nodes n)
  have hfr := seen_fresh (ms n) f.cluster (f.nodes n)
  have hfs := seen_fresh_ser (ms n) f.cluster (f.nodes n)
  have hsize := (hk.size n).le
  rw [hcl]
  generalize (f.nodes n).seen (ms n) f.cluster = c at *
  generalize c.step (ms n).kit H F (ms n).paths t = c' at *
  obtain ⟨hle, -, j, h1, h2⟩ := hmv
  rcases e1 : c.db.chunks[j]? with _ | S
  · left
    refine writeBack_nothing fun a ha => ?_
    obtain ⟨i, S, S', g1, g2, ⟨-, rfl⟩ | ⟨-, rfl⟩⟩ := mem_areas ha
    · have hij : i ≠ j := by rintro rfl; rw [e1] at g1; cases g1
      simp only [h1 i S S' hij g1 g2]
    · have hij : i ≠ j := by rintro rfl; rw [e1] at g1; cases g1
      simp only [h1 i S S' hij g1 g2]
  · have hj := (List.getElem?_eq_some_iff.mp e1).1
    obtain ⟨S', e2⟩ : ∃ S', c'.db.chunks[j]? = some S' := ⟨_, List.getElem?_eq_getElem (by omega)⟩
    have only : ∀ a ∈ areas (ms n).kit (ms n).ids c.db c'.db, a.new ≠ a.old →
        (ms n).kit.ix = .tikv ∧ a = ⟨((ms n).ids j).1, S.store.store.idx, S'.store.store.idx⟩ ∨
        (ms n).kit.st = .tikv ∧ a = ⟨((ms n).ids j).2, S.store.store.ser, S'.store.store.ser⟩ := by
      intro a ha hne
      obtain ⟨i, S0, S0', g1, g2, h⟩ := mem_areas ha
      by_cases hij : i = j
      · subst hij
        rw [e1] at g1
        rw [e2] at g2
        cases g1
        cases g2
        exact h
      · refine absurd ?_ hne
        rcases h with ⟨-, rfl⟩ | ⟨-, rfl⟩ <;> simp only [h1 i S0 S0' hij g1 g2]
    rcases h2 S S' e1 e2 with he | ⟨k, v, he⟩ | ⟨x, v, he⟩
    · left
      refine writeBack_nothing fun a ha => by_contra fun hne => hne ?_
      rcases only a ha hne with ⟨-, rfl⟩ | ⟨-, rfl⟩ <;> simp only [he]
    · rcases hix : (ms n).kit.ix
      · left
        refine writeBack_nothing fun a ha => by_contra fun hne => hne ?_
        rcases only a ha hne with ⟨h, -⟩ | ⟨-, rfl⟩
        · rw [hix] at h; cases h
        · simp only [he]
      · right
        refine ⟨j, by omega, k, v, Or.inl ⟨rfl, ?_⟩⟩
        refine writeBack_put (areas_idx e1 e2 hix) (hfr j S e1 hix) (by simp only [he]) fun a ha hne => ?_
        rcases only a ha hne with ⟨-, rfl⟩ | ⟨-, rfl⟩
        · exact ⟨rfl, rfl, rfl⟩
        · simp only [he] at hne; exact absurd rfl hne
    · rcases hst : (ms n).kit.st
      · left
        refine writeBack_nothing fun a ha => by_contra fun hne => hne ?_
        rcases only a ha hne with ⟨-, rfl⟩ | ⟨h, -⟩
        · simp only [he]
        · rw [hst] at h; cases h
      · right
        refine ⟨j, by omega, (ms n).kit.key x, v, Or.inr ⟨rfl, by simp [Kit.key, hst, tikvKey], ?_⟩⟩
        refine writeBack_put (areas_ser e1 e2 hst) (hfs j S e1 hst) (by simp only [he]) fun a ha hne => ?_
        rcases only a ha hne with ⟨-, rfl⟩ | ⟨-, rfl⟩
        · simp only [he] at hne; exact absurd rfl hne
        · exact ⟨rfl, rfl, rfl⟩


/-! ### TiKV storage -/

theorem fleet_run_append (ms : Nat → Member) (H : Hash) (F : Formats) (f : Fleet) (a b : List FleetOp) : f.run ms H F (a ++ b) = (f.run ms H F a).run ms H F b :=
  List.foldl_append

theorem seen_sent (m : Member) (kv : KV) (c : SrvConf) : (c.seen m kv).sent = c.sent := rfl

/-- A server with sled indexer, TiKV storage and one chunk, alone for a while: its chunk has the cluster as its store. -/
theorem solo {ms : Nat → Member} {H : Hash} {F : Formats} {n : Nat} (hix : (ms n).kit.ix = .sled) (hst : (ms n).kit.st = .tikv) (hid : ((ms n).ids 0).2 = []) :
    ∀ (ts : List Nat) (f : Fleet) (c : SrvConf), c = (f.nodes n).seen (ms n) f.cluster → ElemConf (ms n).kit c.db → c.db.chunks.length = 1 →
      (c.run (ms n).kit H F (ms n).paths ts).db.chunks.length = 1 →
      ((f.run ms H F (ts.map (FleetOp.turn n))).nodes n).seen (ms n) (f.run ms H F (ts.map (FleetOp.turn n))).cluster = c.run (ms n).kit H F (ms n).paths ts ∧
      (∀ u, u ≠ n → (f.run ms H F (ts.map (FleetOp.turn n))).nodes u = f.nodes u) ∧
      (c.run (ms n).kit H F (ms n).paths ts).db.chunks.map (·.store.store.ser) = [(f.run ms H F (ts.map (FleetOp.turn n))).cluster] := by
  intro ts
  have mono : ∀ (ts : List Nat) (c : SrvConf), ElemConf (ms n).kit c.db → c.db.chunks.length ≤ (c.run (ms n).kit H F (ms n).paths ts).db.chunks.length := by
    intro ts
    induction ts with
    | nil => exact fun _ _ => Nat.le_refl _
    | cons t ts ih =>
      intro c h
      have := srv_moved (H := H) (F := F) (P := (ms n).paths) h t
      exact Nat.le_trans this.1.le (ih _ this.2)
  induction ts with
  | nil =>
    intro f c hc _ h1 _
    refine ⟨hc.symm, fun _ _ => rfl, ?_⟩
    change c.db.chunks.map _ = [f.cluster]
    rw [hc] at h1 ⊢
    rw [seen_chunks] at h1
    obtain ⟨S, hS⟩ := List.length_eq_one_iff.mp h1
    simp only [SrvConf.seen, FConf.seen, hS, List.mapIdx_cons, List.mapIdx_nil, List.map_cons, List.map_nil, FChunk.seen, hst, hid]
    rfl
  | cons t ts ih =>
    intro f c hc he h1 h2
    have hmv := srv_moved (H := H) (F := F) (P := (ms n).paths) he t
    have h1' : (c.step (ms n).kit H F (ms n).paths t).db.chunks.length = 1 := by
      have := mono ts _ hmv.2
      have h2' : ((c.step (ms n).kit H F (ms n).paths t).run (ms n).kit H F (ms n).paths ts).db.chunks.length = 1 := h2
      have := hmv.1.le
      omega
    obtain ⟨S, hS⟩ := List.length_eq_one_iff.mp h1
    obtain ⟨S', hS'⟩ := List.length_eq_one_iff.mp h1'
    have hser : S.store.store.ser = f.cluster := by
      have := seen_fresh_ser (ms n) f.cluster (f.nodes n) 0 S (by rw [← hc, hS]; rfl) hst
      rw [this, hid]
      rfl
    have hcl : (f.step ms H F (.turn n t)).cluster = S'.store.store.ser := by
      change writeBack (areas (ms n).kit (ms n).ids ((f.nodes n).seen (ms n) f.cluster).db
        (((f.nodes n).seen (ms n) f.cluster).step (ms n).kit H F (ms n).paths t).db) f.cluster = _
      rw [← hc]
      have ea : areas (ms n).kit (ms n).ids c.db (c.step (ms n).kit H F (ms n).paths t).db = [⟨[], f.cluster, S'.store.store.ser⟩] := by
        simp only [areas, hS, hS', List.length_singleton, List.range_one, List.flatMap_cons, List.flatMap_nil, List.getElem?_cons_zero, hix, hst, hid, hser,
          List.nil_append, List.append_nil]
      rw [ea]
      funext k
      refine writeBack_eq (fun a ha _ _ => ?_) fun h => ?_
      · rw [List.mem_singleton.mp ha]; rfl
      · exact (h _ (List.mem_singleton_self _) (List.nil_prefix)).symm
    have hnode : (f.step ms H F (.turn n t)).nodes n = c.step (ms n).kit H F (ms n).paths t := by
      rw [hc]; exact if_pos rfl
    have hseen : c.step (ms n).kit H F (ms n).paths t = ((f.step ms H F (.turn n t)).nodes n).seen (ms n) (f.step ms H F (.turn n t)).cluster := by
      rw [hnode, hcl]
      generalize c.step (ms n).kit H F (ms n).paths t = c' at hS'
      obtain ⟨db, b, q, s⟩ := c'
      simp only [SrvConf.seen, FConf.seen, SrvConf.mk.injEq, and_true]
      simp only [] at hS'
      obtain ⟨ch⟩ := db
      simp only [] at hS'
      subst hS'
      simp only [List.mapIdx_cons, List.mapIdx_nil, FChunk.seen, hix, hst, hid]
      rfl
    obtain ⟨g1, g2, g3⟩ := ih _ _ hseen hmv.2 h1' h2
    refine ⟨g1, fun u hu => (g2 u hu).trans (if_neg hu), g3⟩

/-! ### Two servers -/

def clSer0 : PSeries := ⟨[lbl "a" "1"], [⟨0x3ff0000000000000#64, 200⟩]⟩
def clSer1 : PSeries := ⟨[lbl "x" "y"], [⟨0x4000000000000000#64, 500⟩]⟩
def clAsk0 : PQuery := ⟨0, 10000, [⟨.eq, (lbl "a" "1").key, (lbl "a" "1").value⟩]⟩
def clAsk1 : PQuery := ⟨0, 10000, [⟨.eq, (lbl "x" "y").key, (lbl "x" "y").value⟩]⟩
def clIds (n i : Nat) : Str × Str := (List.replicate 31 (BitVec.ofNat 8 (n + 1)) ++ [BitVec.ofNat 8 i], [])
/-- Server 0 is sent a write of {a=1} and a query for it, server 1 the same for {x=y}. -/
def clMembers (k0 k1 : Kit) (ticks : List (U64 × U64)) : Nat → Member
  | 0 => ⟨k0, clIds 0, ⟨[114#8], [119#8]⟩, 0#64, 1000#64, ticks, [⟨[119#8], some (encWrite [clSer0])⟩, ⟨[114#8], some (encRead [clAsk0])⟩]⟩
  | _ => ⟨k1, clIds 1, ⟨[114#8], [119#8]⟩, 0#64, 1000#64, [], [⟨[119#8], some (encWrite [clSer1])⟩, ⟨[114#8], some (encRead [clAsk1])⟩]⟩

theorem cl_apart (k0 k1 : Kit) (ticks : List (U64 × U64)) (hticks : ticks.length ≤ 1) (ops : List FleetOp)
    (h : ops.all (fun | .turn n _ => decide (n < 2) | .other k _ => decide (k.length < 32)) = true) : Apart (clMembers k0 k1 ticks) 2 KV.empty ops := by
  have own : ∀ n i, Owns (clMembers k0 k1 ticks) 2 n i → ((clMembers k0 k1 ticks) n).ids i = clIds n i ∧ n < 2 ∧ i ≤ 1 := by
    rintro n i ⟨h1, h2⟩
    obtain rfl | rfl : n = 0 ∨ n = 1 := by omega
    · exact ⟨rfl, h1, by change i ≤ ticks.length at h2; omega⟩
    · exact ⟨rfl, h1, by change i ≤ 0 at h2; omega⟩
  have small : ∀ n i, (clIds n i).1.length = 32 := fun n i => by simp [clIds]
  refine ⟨fun n i ho => by rw [(own n i ho).1]; exact small n i, ?_, fun n i ho => by rw [(own n i ho).1]; rfl, fun _ _ _ _ => rfl, ?_, ?_⟩
  · intro n i n' i' ho ho' e
    obtain ⟨e1, h1, h2⟩ := own n i ho
    obtain ⟨e2, h3, h4⟩ := own n' i' ho'
    rw [e1, e2] at e
    have : ∀ n i n' i' : Fin 2, (clIds n i).1 = (clIds n' i').1 → n = n' ∧ i = i' := by decide +kernel
    have := this ⟨n, h1⟩ ⟨i, by omega⟩ ⟨n', h3⟩ ⟨i', by omega⟩ e
    simpa using this
  · intro k v hk n i ho hp
    have := List.all_eq_true.mp h _ hk
    have hl := hp.length_le
    rw [(own n i ho).1, small] at hl
    simp at this
    omega
  · intro n t ht
    simpa using List.all_eq_true.mp h _ ht

/-- The servers take turns, server 0 swaps its chunk before it answers the query; other clients register chunks. -/
def clOps : List FleetOp :=
  [.other (List.replicate 16 9#8) (some (List.replicate 31 1#8)), .other (toBE 1#64) (some [7#8])] ++ (List.replicate 16 [FleetOp.turn 0 1, .turn 1 1]).flatten ++
  [.turn 0 0, .turn 0 0, .other (List.replicate 16 8#8) none, .turn 0 0, .turn 0 0] ++ (List.replicate 30 [FleetOp.turn 1 1, .turn 0 1]).flatten

def clAlone : SrvConf := (SrvConf.start 0#64 1000#64 [(1001#64, 2000#64)] ((clMembers mixedKit tikvKit [(1001#64, 2000#64)]) 0).reqs).run mixedKit idealHash
  (pbFormats exSnappy exRt) ⟨[114#8], [119#8]⟩ (turnsOf 0 clOps)

attribute [local irreducible] SrvConf.run Fleet.run

theorem clAlone_sent : clAlone.sent = [some ⟨200, []⟩, some ⟨200, (pbFormats exSnappy exRt).respond [[clSer0]]⟩] := by decide +kernel

/-- The hypotheses of C88_alone hold with a server that has both components on the cluster next to this one: this one answers with its own sample. -/
example : (((Fleet.start (clMembers mixedKit tikvKit [(1001#64, 2000#64)]) KV.empty).run (clMembers mixedKit tikvKit [(1001#64, 2000#64)]) idealHash
    (pbFormats exSnappy exRt) clOps).nodes 0).sent = [some ⟨200, []⟩, some ⟨200, (pbFormats exSnappy exRt).respond [[clSer0]]⟩] := by
  have h := (C88_alone (clMembers mixedKit tikvKit [(1001#64, 2000#64)]) 2 KV.empty clOps (cl_apart _ _ _ (by decide) _ (by decide +kernel)) idealHash
    (pbFormats exSnappy exRt) 0 (by decide) rfl).1
  rw [h]
  exact clAlone_sent


def clCalls : List Call := [.write [clSer0], .read [clAsk0]]

theorem clCalls_says : List.Forall₂ (Says exSnappy exRt.utf8 ⟨[114#8], [119#8]⟩) (clMembers mixedKit tikvKit [(1001#64, 2000#64)] 0).reqs clCalls := by
  have hw : ∀ m : List PSeries, m.map wireSeries = m → (∀ s ∈ m, ∀ x ∈ s.samples, -2 ^ 63 ≤ x.timestamp ∧ x.timestamp < 2 ^ 63) → (encWrite m).length < 2 ^ 32 →
      IsWrite exRt.utf8 m (encWrite m) := by
    intro m e h hl
    have := encWrite_is (utf8 := exRt.utf8) (m := m) (fun s hs => ⟨fun _ _ => ⟨rfl, rfl⟩, fun x hx => h s hs x hx⟩) hl
    rwa [e] at this
  have hr : ∀ m : List PQuery, (∀ q ∈ m, (-2 ^ 63 ≤ q.start_ ∧ q.start_ < 2 ^ 63) ∧ (-2 ^ 63 ≤ q.end_ ∧ q.end_ < 2 ^ 63)) → (encRead m).length < 2 ^ 32 →
      IsRead exRt.utf8 m (encRead m) := fun m h hl => encRead_is (fun q hq => ⟨(h q hq).1, (h q hq).2, fun _ _ => ⟨rfl, rfl⟩⟩) hl
  exact .cons ⟨rfl, _, _, rfl, rfl, hw _ (by decide +kernel) (by decide +kernel) (by decide +kernel)⟩
    (.cons ⟨rfl, _, _, rfl, rfl, hr _ (by decide +kernel) (by decide +kernel)⟩ .nil)

theorem clCalls_fine : FineCalls exRt clCalls := by
  refine ⟨⟨?_, ?_, by decide +kernel⟩, by simp [clCalls], fun _ => exRt_strict⟩
  · intro ls ps h
    simp only [clCalls, List.flatMap_cons, List.flatMap_nil, Call.ops, List.map_cons, List.map_nil, List.cons_append, List.nil_append, List.mem_cons, List.not_mem_nil,
      DbOp.write.injEq, reduceCtorEq, or_false] at h
    obtain ⟨rfl, -⟩ := h
    exact wfSet_of (by decide +kernel)
  · intro ls
    exact incr_pointsFor (by unfold SIncr; decide +kernel) ls

theorem clAsk0_fine : (∀ y ∈ clAsk0.matchers, WFLabel ⟨y.name, y.value⟩) ∧ (asU64 clAsk0.start_).toNat ≤ (asU64 clAsk0.end_).toNat :=
  ⟨by intro x hx; simp only [clAsk0, List.mem_singleton] at hx; subst hx; exact wfLabel_of (by decide +kernel), by decide +kernel⟩

/-- The hypotheses of C88_honest and C88_durable hold for the query of server 0: its sample, and nothing else. -/
example : ∃ body out, (((Fleet.start (clMembers mixedKit tikvKit [(1001#64, 2000#64)]) KV.empty).run (clMembers mixedKit tikvKit [(1001#64, 2000#64)]) idealHash
    (pbFormats exSnappy exRt) clOps).nodes 0).sent[1]? = some (some ⟨200, body⟩) ∧ exSnappy.decompress body = some out ∧
    (out.length < 2 ^ 32 → ∃ rs r, (∀ m, IsResponse exRt.utf8 m out ↔ m = rs) ∧ rs[0]? = some r ∧
      (∃ y ∈ r, y.labels = [lbl "a" "1"] ∧ (⟨0x3ff0000000000000#64, 200⟩ : Sample) ∈ y.samples) ∧ (r.map (·.labels)).Nodup) := by
  have ap := cl_apart mixedKit tikvKit [(1001#64, 2000#64)] (by decide) clOps (by decide +kernel)
  have h := (C88_alone _ 2 KV.empty clOps ap idealHash (pbFormats exSnappy exRt) 0 (by decide) rfl).1
  have h' := h.trans clAlone_sent
  have h0 := congrArg (fun l : List (Option Response) => l[0]?) h'
  have h1 := congrArg (fun l : List (Option Response) => l[1]?) h'
  simp only [List.getElem?_cons_zero, List.getElem?_cons_succ] at h0 h1
  have hqs : ∀ q ∈ [clAsk0], (∀ y ∈ q.matchers, WFLabel ⟨y.name, y.value⟩) ∧ (asU64 q.start_).toNat ≤ (asU64 q.end_).toNat := by
    intro q hq; rw [List.mem_singleton.mp hq]; exact clAsk0_fine
  obtain ⟨out, o1, o2⟩ := C88_honest _ 2 KV.empty clOps ap idealHash exSnappy exRt 0 (by decide) rfl (by decide) clCalls clCalls_says clCalls_fine (idealHash_good _)
    (by decide +kernel) 1 [clAsk0] rfl _ h1 hqs
  have d2 : (((SrvConf.start 0#64 1000#64 [(1001#64, 2000#64)] (clMembers mixedKit tikvKit [(1001#64, 2000#64)] 0).reqs).run mixedKit idealHash (pbFormats exSnappy exRt)
      ⟨[114#8], [119#8]⟩ (turnsOf 0 (clOps.take 34))).sent.length = 1) ∧
      (((SrvConf.start 0#64 1000#64 [(1001#64, 2000#64)] (clMembers mixedKit tikvKit [(1001#64, 2000#64)] 0).reqs).run mixedKit idealHash (pbFormats exSnappy exRt)
      ⟨[114#8], [119#8]⟩ (turnsOf 0 (clOps.take 34))).db.threads 0).done.length = 0 := by decide +kernel
  have eo : clOps = [] ++ clOps.take 34 ++ clOps.drop 34 := (List.take_append_drop 34 clOps).symm
  have e2 := (C88_alone _ 2 KV.empty ([] ++ clOps.take 34) (by rw [eo] at ap; exact ap.left) idealHash (pbFormats exSnappy exRt) 0 (by decide) rfl)
  obtain ⟨out', p1, p2⟩ := C88_durable _ 2 KV.empty [] (clOps.take 34) (clOps.drop 34) (by rw [← eo]; exact ap) idealHash exSnappy exRt 0 (by decide) rfl (by decide) clCalls
    clCalls_says clCalls_fine (idealHash_good _) (by decide +kernel) _ _ _ rfl rfl rfl 0 1 (by decide) [clSer0] rfl (by unfold Fleet.run; rfl) (by unfold Fleet.run; rfl)
    (by rw [e2.1]; exact Nat.lt_of_lt_of_eq (by decide) d2.1.symm) (by rw [← eo]; exact h0) clSer0 (by simp) ⟨0x3ff0000000000000#64, 200⟩ (by simp [clSer0])
    (by
      intro k w _ hk hw
      have ed := congrArg (fun c : SrvConf => (c.db.threads 0).done.length) e2.2
      have hk0 : k = 0 := by
        have : k ≤ 0 := by
          refine Nat.le_trans hk ?_
          exact Nat.le_of_eq (Eq.trans ed d2.2)
        omega
      subst hk0
      cases hw
      decide +kernel)
    [clAsk0] rfl _ (by rw [← eo]; exact h1) hqs 0 (by decide) (by simp [clAsk0]) (by simp [clAsk0, clSer0]) rfl
    (by
      intro m hm s hs x hx
      simp only [clCalls, List.mem_cons, Call.write.injEq, reduceCtorEq, List.not_mem_nil, or_false] at hm
      subst hm
      rw [List.mem_singleton] at hs
      subst hs
      simp only [clSer0, List.mem_singleton] at hx
      subst hx
      decide +kernel)
  rw [o1] at p1
  cases p1
  refine ⟨_, out, h1, o1, fun hl => ?_⟩
  obtain ⟨rs, a1, a2, a3⟩ := o2 hl
  obtain ⟨rs', r, b1, b2, y, b3, b4, b5⟩ := p2 hl
  have e : rs' = rs := by rw [← a1, b1]
  subst e
  refine ⟨rs', r, a1, b2, ⟨y, b3, b4, b5⟩, (a3 0 (by decide) r b2).1⟩

/-- Storage on the cluster, the index in a sled tree. -/
def clKit : Kit := ⟨stdBinSearch, .tikv, .sled⟩
def clM : Nat → Member := clMembers clKit clKit []
def clC0 : SrvConf := (SrvConf.start 0#64 1000#64 [] (clM 0).reqs).seen (clM 0) KV.empty
def clC0' : SrvConf := clC0.run clKit idealHash (pbFormats exSnappy exRt) ⟨[114#8], [119#8]⟩ (List.replicate 16 1)
def clKV : KV := (clC0'.db.chunks.map (·.store.store.ser)).headD KV.empty
def clC1 : SrvConf := (SrvConf.start 0#64 1000#64 [] (clM 1).reqs).seen (clM 1) clKV
def clC1' : SrvConf := clC1.run clKit idealHash (pbFormats exSnappy exRt) ⟨[114#8], [119#8]⟩ (List.replicate 40 1)

theorem cl_len : clC0'.db.chunks.length = 1 ∧ clC1'.db.chunks.length = 1 := by decide +kernel

theorem clC1_sent : clC1'.sent = [some ⟨200, []⟩, some ⟨200, (pbFormats exSnappy exRt).respond
    [[⟨[lbl "x" "y"], [⟨0x3ff0000000000000#64, 200⟩, ⟨0x4000000000000000#64, 500⟩]⟩]]⟩] := by decide +kernel

/-- C88 does not hold for TiKV storage, whose identifier is empty: with 32-byte identifiers for the indexers that all differ, server 1 is sent one sample of {x=y}
at 500 and a query for {x=y}, and nothing else; it answers with a sample at 200, which was only sent to server 0, and of {a=1}. -/
theorem C88_violated : ∃ (ms : Nat → Member) (ops : List FleetOp), Apart ms 2 KV.empty ops ∧ (ms 0).kit.ix = .sled ∧ (ms 1).kit.ix = .sled ∧
    (ms 0).reqs = [⟨(ms 0).paths.write, some (encWrite [⟨[lbl "a" "1"], [⟨0x3ff0000000000000#64, 200⟩]⟩])⟩, ⟨(ms 0).paths.read, some (encRead [clAsk0])⟩] ∧
    (ms 1).reqs = [⟨(ms 1).paths.write, some (encWrite [⟨[lbl "x" "y"], [⟨0x4000000000000000#64, 500⟩]⟩])⟩, ⟨(ms 1).paths.read, some (encRead [clAsk1])⟩] ∧
    (((Fleet.start ms KV.empty).run ms idealHash (pbFormats exSnappy exRt) ops).nodes 1).sent = [some ⟨200, []⟩, some ⟨200, (pbFormats exSnappy exRt).respond
      [[⟨[lbl "x" "y"], [⟨0x3ff0000000000000#64, 200⟩, ⟨0x4000000000000000#64, 500⟩]⟩]]⟩] := by
  refine ⟨clM, (List.replicate 16 1).map (FleetOp.turn 0) ++ (List.replicate 40 1).map (FleetOp.turn 1), cl_apart _ _ _ (by decide) _ (by decide +kernel), rfl, rfl, rfl, rfl, ?_⟩
  have hk := start_kept88 clM KV.empty
  obtain ⟨-, a2, a3⟩ := solo (ms := clM) (H := idealHash) (F := pbFormats exSnappy exRt) (n := 0) rfl rfl rfl (List.replicate 16 1) (Fleet.start clM KV.empty) clC0 rfl
    ((hk.elem 0).seen (clM 0).ids KV.empty) rfl cl_len.1
  generalize hf1 : (Fleet.start clM KV.empty).run clM idealHash (pbFormats exSnappy exRt) ((List.replicate 16 1).map (FleetOp.turn 0)) = f1 at *
  have hkv : clKV = f1.cluster := by
    have : clC0'.db.chunks.map (·.store.store.ser) = [f1.cluster] := a3
    unfold clKV; rw [this]; rfl
  have e1 : clC1 = (f1.nodes 1).seen (clM 1) f1.cluster := by
    rw [a2 1 (by decide), ← hkv]; rfl
  have hk1 : Kept88 clM f1 := by rw [← hf1]; exact fleet_kept _ _ hk
  obtain ⟨b1, -, -⟩ := solo (ms := clM) (H := idealHash) (F := pbFormats exSnappy exRt) (n := 1) rfl rfl rfl (List.replicate 40 1) f1 clC1 e1
    (by rw [e1]; exact (hk1.elem 1).seen (clM 1).ids f1.cluster) rfl cl_len.2
  rw [fleet_run_append, hf1, ← clC1_sent]
  exact (seen_sent (clM 1) _ _).symm.trans (congrArg SrvConf.sent b1)

end Verif
