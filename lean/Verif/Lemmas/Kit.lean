import Verif.Model.Kit
import Verif.Lemmas.Backends
import Verif.Props.ChunkConc
namespace Verif
open List

/-- sled chunks with the search of the standard library. -/
def stdKit : Kit := Kit.sled stdBinSearch

/-- A chunk with both components on TiKV clients in dry-run mode. -/
def tikvKit : Kit := ⟨stdBinSearch, .tikv, .tikv⟩
/-- A sled storage with a TiKV indexer. -/
def mixedKit : Kit := ⟨stdBinSearch, .sled, .tikv⟩

/-! ### Both kinds of index and storage in one notation -/

/-- How ids are stored. -/
def Kit.codec (K : Kit) : IdCodec :=
  match K.ix with
  | .sled => sledCodec
  | .tikv => tikvCodec []

theorem Kit.codec_pre (K : Kit) : K.codec.pre = [] := by unfold Kit.codec; split <;> rfl

/-- The index after `create_index` on a new label set. -/
def Kit.created (K : Kit) (ls : Labels) (i : U64) (kv : KV) : KV :=
  match K.ix with
  | .sled => (sledCreateSteps ls i).foldl (fun kv f => f kv) kv
  | .tikv => (tikvCreateSteps [] ls i).foldl (fun kv f => f kv) kv

/-- `write_time_point` without interruption. -/
def Kit.wr (K : Kit) (kv : KV) (i : U64) (p : TimePoint) : Res Unit × KV :=
  match K.st with
  | .sled => sledWrite kv i p
  | .tikv => tikvWrite [] kv i p

theorem Kit.created_after (K : Kit) {ls : Labels} (h : WFSet ls) (i : U64) (kv : KV) : AfterCreate K.codec ls i kv (K.created ls i kv) := by
  unfold Kit.codec Kit.created
  cases K.ix
  · exact sled_after h i kv
  · exact tikv_after h [] i kv

/-- The kit's components are an index with a series store. -/
def kitRefines (K : Kit) : Refines (kitComp K) K.st.accepts where
  Rep c ser s := IndexInv K.codec c s.idx ∧ StoreInv K.key ser s.ser
  byLabels {c ser s ls} h hl := by
    obtain ⟨S, st, ix⟩ := K
    cases ix
    · exact sled_byLabels h.1 hl
    · exact tikv_byLabels h.1 hl
  metadata h hwf hids hq := by
    obtain ⟨S, st, ix⟩ := K
    cases ix
    · exact sled_metadata h.1 hwf hids hq
    · exact tikv_metadata h.1 hwf hids hq
  create {c ser s ls i} h hwf hf hi := by
    obtain ⟨S, st, ix⟩ := K
    cases ix with
    | sled =>
      have e := sledCreate_ok h.1 hwf hf i
      refine ⟨by show (sledCreate s.idx ls i).1 = _; rw [e], ?_, h.2⟩
      show IndexInv sledCodec _ (sledCreate s.idx ls i).2
      rw [e]
      exact IndexInv.step h.1 hwf hf hi (sled_after hwf i _)
    | tikv => exact ⟨rfl, IndexInv.step h.1 hwf hf hi (tikv_after hwf [] i _), h.2⟩
  writeYes {c ser s i p} h ha := by
    obtain ⟨S, st, ix⟩ := K
    cases st with
    | sled =>
      obtain ⟨h1, h2⟩ := sledWrite_inv h.2 i p
      exact ⟨h1, h.1, h2⟩
    | tikv =>
      have hw := tikvWrite_inv (pre := []) (show StoreInv (tikvKey []) ser s.ser from h.2) i p
      rw [if_pos] at hw
      · exact ⟨hw.1, h.1, hw.2⟩
      · intro l hl
        have ha : tikvAccepts (ser i) p = true := ha
        unfold tikvAccepts at ha
        rw [hl] at ha; simpa using ha
  writeNo {c ser s i p} h ha := by
    obtain ⟨S, st, ix⟩ := K
    cases st with
    | sled => cases ha
    | tikv =>
      have ha : tikvAccepts (ser i) p = false := ha
      have hw := tikvWrite_inv (pre := []) (show StoreInv (tikvKey []) ser s.ser from h.2) i p
      rw [if_neg] at hw
      · show ((tikvWrite [] s.ser i p).1, ({ s with ser := (tikvWrite [] s.ser i p).2 } : SledStores)) = _
        rw [hw]
      · intro hc
        unfold tikvAccepts at ha
        rcases hl : (ser i).getLast? with _ | l
        · rw [hl] at ha; simp at ha
        · rw [hl] at ha
          have := hc l hl
          simp only [decide_eq_false_iff_not] at ha
          exact ha this
  read {c ser s i a b} h hs hab := by
    have e : K.read s.ser i a b = match s.ser (K.key i) with
      | none => .err .notFound
      | some v => (decodeSeries v).bind fun series => readSeries K.search series a b := by
        obtain ⟨S, st, ix⟩ := K
        cases st <;> rfl
    show K.read s.ser i a b = _
    rw [e, h.2 i]
    by_cases h0 : ser i = []
    · rw [if_pos h0, h0]; rfl
    · rw [if_neg h0]
      simp only []
      rw [decodeSeries_points, Res.bind_ok, readSeries_spec hs h0 hab]
  first _ := by cases K.st <;> rfl

theorem kitNew_rep (K : Kit) (lo hi : U64) : ChunkRep (kitRefines K) lo hi [] (newSled lo hi) :=
  ⟨rfl, rfl, rfl, rfl, IndexInv.empty _ _ (fun _ => rfl), fun _ => rfl⟩

/-- The kit's chunk after a history represents the history. -/
theorem kit_rep (K : Kit) (lo hi : U64) {h : Inserts} (hf : Fine h) :
    ChunkRep (kitRefines K) lo hi (insideOnly lo hi h) ((newSled lo hi).insertAll (kitComp K) h) := by
  exact (insertAll_rep (R := kitRefines K) (kitNew_rep K lo hi) h (by have := hf.len; omega) hf.wf).1

/-! ### Strictly increasing points are all accepted -/

theorem keepBy_incr (b : Backend) {ps : List TimePoint} (h : SIncr ps) : keepBy b.accepts ps = ps := by
  cases b with
  | sled => exact keepBy_sled ps
  | tikv =>
    induction ps using List.reverseRecOn with
    | nil => rfl
    | append_singleton ps p ih =>
      show keepBy tikvAccepts _ = _
      have ih : keepBy tikvAccepts ps = ps := ih (h.sublist (List.sublist_append_left _ _))
      rw [keepBy_append, ih, if_pos]
      unfold tikvAccepts
      rcases hl : ps.getLast? with _ | l
      · rfl
      · simp only [decide_eq_true_eq]
        exact (List.pairwise_append.mp h).2.2 l (List.mem_of_getLast? hl) p (by simp)

theorem seriesOf_incr (b : Backend) {h : Inserts} (hi : ∀ ls, SIncr (pointsFor h ls)) (i : U64) :
    seriesOf b.accepts h i = seriesOf sledAccepts h i := by
  unfold seriesOf
  split
  · rw [keepBy_incr b (hi _), keepBy_sled]
  · rfl

/-! ### The elementary operations add up to the calls -/

/-- The reverse entries after the loop over labels. -/
def Kit.afterLabels (K : Kit) (i : U64) (ls : Labels) (kv : KV) : KV :=
  ((ls.map encodeLabel).map fun key => fun kv : KV => kv.set key (K.app i (kv key))).foldl (fun kv f => f kv) kv

theorem Kit.app_eq (K : Kit) (i : U64) (o : Option Str) : K.app i o = K.codec.app i o := by
  unfold Kit.app Kit.codec
  cases K.ix <;> cases o <;> rfl

theorem kitCreateLabels_run (K : Kit) (i : U64) (k : Proc SChunk (Res Unit)) (ls : Labels) (c : SChunk) :
    (kitCreateLabels K i k ls).run c = k.run (c.withIdx (K.afterLabels i ls c.store.idx)) := by
  induction ls generalizing c with
  | nil => rfl
  | cons l ls ih =>
    simp only [kitCreateLabels, Proc.get, Proc.put, Proc.run, id]
    rw [ih]
    rfl

/-- The first entry that `create_index` sets. -/
def Kit.first (K : Kit) (ls : Labels) (i : U64) : Str × Str :=
  match K.ix with
  | .sled => (encodeLabels ls true, fmtId i)
  | .tikv => (encodeId i, encodeLabels ls false)

/-- The second. -/
def Kit.second (K : Kit) (ls : Labels) (i : U64) : Str × Str :=
  match K.ix with
  | .sled => (encodeId i, encodeLabels ls false)
  | .tikv => (encodeLabels ls true, toBE i)

/-- The sets of `create_index`. -/
def kitSets (K : Kit) (ls : Labels) (i : U64) (k : Proc SChunk (Res Unit)) : Proc SChunk (Res Unit) :=
  .put (fun c : SChunk => c.setIdx (K.first ls i).1 (K.first ls i).2)
    (.put (fun c : SChunk => c.setIdx (K.second ls i).1 (K.second ls i).2) (kitCreateLabels K i k ls))

theorem Kit.created_eq (K : Kit) (ls : Labels) (i : U64) (kv : KV) : K.created ls i kv =
    K.afterLabels i ls ((kv.set (K.first ls i).1 (K.first ls i).2).set (K.second ls i).1 (K.second ls i).2) := by
  obtain ⟨S, st, ix⟩ := K
  cases ix
  · simp only [Kit.created, Kit.afterLabels, Kit.first, Kit.second, sledCreateSteps, List.foldl_cons, List.map_map]
    rfl
  · simp only [Kit.created, Kit.afterLabels, Kit.first, Kit.second, tikvCreateSteps, List.foldl_cons, List.map_map]
    rfl

theorem kitSets_run (K : Kit) (ls : Labels) (i : U64) (k : Proc SChunk (Res Unit)) (c : SChunk) :
    (kitSets K ls i k).run c = k.run (c.withIdx (K.created ls i c.store.idx)) := by
  simp only [kitSets, Proc.put, Proc.run, kitCreateLabels_run]
  rw [Kit.created_eq]
  rfl

theorem kitCreate_eq (K : Kit) (ls : Labels) (i : U64) (k : Proc SChunk (Res Unit)) : kitCreate K ls i k =
    match K.ix with
    | .sled => .get (fun c : SChunk => (c.store.idx (encodeLabels ls true)).isSome) fun dup => if dup then .ret (.err .internal) else kitSets K ls i k
    | .tikv => kitSets K ls i k := by
  obtain ⟨S, st, ix⟩ := K
  cases ix <;> rfl

theorem kitCreate_run (K : Kit) (ls : Labels) (i : U64) (k : Proc SChunk (Res Unit)) (c : SChunk) :
    (kitCreate K ls i k).run c =
      match (kitComp K).create c.store ls i with
      | (.ok (), s) => k.run { c with store := s }
      | (r, _) => (r, c) := by
  rw [kitCreate_eq]
  have hs := kitSets_run K ls i k c
  obtain ⟨S, st, ix⟩ := K
  cases ix with
  | tikv => exact hs
  | sled =>
    simp only [Proc.get, Proc.run, id, kitComp]
    unfold sledCreate
    by_cases h : (c.store.idx (encodeLabels ls true)).isSome = true
    · simp only [h, if_true, Proc.run]
    · simp only [h, Bool.false_eq_true, if_false]
      exact hs

theorem kitComp_create_cases (K : Kit) (s : SledStores) (ls : Labels) (i : U64) :
    ((kitComp K).create s ls i).1 = .ok () ∨ (kitComp K).create s ls i = (.err .internal, s) := by
  obtain ⟨S, st, ix⟩ := K
  cases ix
  · simp only [kitComp]
    unfold sledCreate
    split
    · exact Or.inr rfl
    · exact Or.inl rfl
  · exact Or.inl rfl

/-- A chunk after a write, which poisons the lock if it panics. -/
def afterWrite (c : SChunk) (r : Res Unit × KV) : SChunk :=
  match r.1 with
  | .panic => { c with poisoned := true }
  | _ => c.withSer r.2

theorem kitWrite_run (K : Kit) (i : U64) (p : TimePoint) (f : Res Unit → Res Unit) (c : SChunk) :
    (kitWrite K i p f).run c = (match (K.wr c.store.ser i p).1 with | .panic => .panic | r => f r, afterWrite c (K.wr c.store.ser i p)) := by
  simp only [kitWrite, Proc.get, Proc.run, id]
  unfold Kit.wr afterWrite
  obtain ⟨S, st, ix⟩ := K
  cases st with
  | sled =>
    simp only [Kit.key, sledWrite]
    rcases h : c.store.ser (sledKey i) with _ | v <;> rfl
  | tikv =>
    simp only [Kit.key, tikvWrite]
    rcases h : c.store.ser (tikvKey [] i) with _ | v
    · rfl
    · simp only [Kit.append]
      rcases h2 : lastPoint v with l | e | _
      · simp only [Res.bind_ok]
        by_cases hc : l.ts.toNat ≥ p.ts.toNat
        · simp only [hc, if_true]; rfl
        · simp only [hc, if_false]; rfl
      · rfl
      · rfl

theorem kitComp_write (K : Kit) (s : SledStores) (i : U64) (p : TimePoint) :
    (kitComp K).write s i p = ((K.wr s.ser i p).1, { s with ser := (K.wr s.ser i p).2 }) := by
  obtain ⟨S, st, ix⟩ := K
  cases st <;> rfl

theorem Kit.wr_panic (K : Kit) (kv : KV) (i : U64) (p : TimePoint) (h : (K.wr kv i p).1 = .panic) : (K.wr kv i p).2 = kv := by
  obtain ⟨S, st, ix⟩ := K
  cases st with
  | sled => exact absurd h (by unfold Kit.wr; simp only []; rw [sledWrite_ok]; simp)
  | tikv =>
    unfold Kit.wr tikvWrite at *
    simp only [] at *
    repeat' split at h
    all_goals first
      | cases h; done
      | (cases h; rfl)

theorem afterWrite_eq (c : SChunk) (K : Kit) (i : U64) (p : TimePoint) (r : Res Unit)
    (hr : r = match (K.wr c.store.ser i p).1 with | .panic => .panic | r => r) :
    Chunk.seal (r, ({ c with store := { c.store with ser := (K.wr c.store.ser i p).2 } } : SChunk)) = (r, afterWrite c (K.wr c.store.ser i p)) := by
  unfold afterWrite Chunk.seal
  rcases h : (K.wr c.store.ser i p).1 with a | e | _
  · rw [h] at hr; simp only [] at hr; subst hr; rfl
  · rw [h] at hr; simp only [] at hr; subst hr; rfl
  · rw [h] at hr; simp only [] at hr; subst hr
    simp only []
    rw [K.wr_panic _ _ _ h]

/-- The elementary operations of an insert, run without interruption, are the insert. -/
theorem kitInsert_run (K : Kit) (w : Labels × TimePoint) (c : SChunk) :
    (kitInsert K w).run c = c.insert (kitComp K) w.1 w.2 := by
  unfold Chunk.insert
  simp only [kitInsert, Proc.get, Proc.run, id]
  by_cases hp : c.poisoned = true
  · simp only [hp, if_true, Proc.run]
  · simp only [hp, Bool.false_eq_true, if_false]
    by_cases hin : c.isInRange w.2.ts = true
    · simp only [hin, if_true, Proc.run, id]
      unfold Chunk.insertBody
      have hb0 : (kitComp K).byLabels c.store w.1 = K.byLabels c.store.idx w.1 := rfl
      rw [hb0]
      rcases hb : K.byLabels c.store.idx w.1 with (_ | i) | e | _
      · simp only [Proc.run]
        rw [kitCreate_run]
        rcases kitComp_create_cases K c.store w.1 (idNext c.nextId).1 with h1 | h1
        · rcases h2 : (kitComp K).create c.store w.1 (idNext c.nextId).1 with ⟨r, s⟩
          rw [h2] at h1
          simp only at h1
          subst h1
          simp only [kitWrite_run, kitComp_write]
          rw [afterWrite_eq ({ c with nextId := (idNext c.nextId).2, store := s } : SChunk) K _ _ _ ?_]
          · rcases (K.wr s.ser (idNext c.nextId).1 w.2).1 <;> rfl
          · simp only []
            rcases (K.wr s.ser (idNext c.nextId).1 w.2).1 <;> rfl
        · simp only [h1, Chunk.seal]
      · simp only [kitWrite_run, kitComp_write]
        unfold Chunk.seal afterWrite
        rcases h : (K.wr c.store.ser i w.2).1 with a | e | _
        · rfl
        · rfl
        · simp only []
          rw [K.wr_panic _ _ _ h]
      · simp only [Proc.run, Chunk.seal]
      · simp only [kitPanic, Proc.put, Proc.run, Chunk.seal]
    · simp only [hin, Bool.false_eq_true, if_false, Proc.run]

/-! ### Crash states -/

theorem kitWrite_upTo (K : Kit) (i : U64) (p : TimePoint) (f : Res Unit → Res Unit) (c : SChunk) (n : Nat) :
    (kitWrite K i p f).upTo n c = c ∨ (kitWrite K i p f).upTo n c = afterWrite c (K.wr c.store.ser i p) := by
  have hr := congrArg Prod.snd (kitWrite_run K i p f c)
  simp only at hr
  rw [← hr]
  match n with
  | 0 => exact Or.inl rfl
  | n + 1 =>
    simp only [kitWrite, Proc.get, Proc.upTo, Proc.run, id]
    rcases K.append p (c.store.ser (K.key i)) with v | e | _
    · cases n with
      | zero => exact Or.inl rfl
      | succ n => cases n <;> exact Or.inr rfl
    · cases n <;> exact Or.inl rfl
    · cases n with
      | zero => exact Or.inl rfl
      | succ n => cases n <;> exact Or.inr rfl

theorem Kit.afterLabels_get (K : Kit) {i : U64} {ls : Labels} (hk : (ls.map encodeLabel).Nodup) (kv : KV) (k : Str) :
    K.afterLabels i ls kv k = if k ∈ ls.map encodeLabel then some (K.app i (kv k)) else kv k := by
  unfold Kit.afterLabels
  rw [foldl_append_steps _ _ hk]

/-- Partial states of the loop over labels: every key is old or final; nothing after the loop has happened, or the loop is complete. -/
theorem kitCreateLabels_upTo (K : Kit) {i : U64} (k : Proc SChunk (Res Unit)) {ls : Labels} (hk : (ls.map encodeLabel).Nodup) (c : SChunk) (n : Nat) :
    (∃ kv, (kitCreateLabels K i k ls).upTo n c = c.withIdx kv ∧
      ∀ key, kv key = c.store.idx key ∨ kv key = K.afterLabels i ls c.store.idx key) ∨
    ∃ m, (kitCreateLabels K i k ls).upTo n c = k.upTo m (c.withIdx (K.afterLabels i ls c.store.idx)) := by
  induction ls generalizing c n with
  | nil => exact Or.inr ⟨n, rfl⟩
  | cons l ls ih =>
    match n with
    | 0 => exact Or.inl ⟨c.store.idx, rfl, fun _ => Or.inl rfl⟩
    | 1 => exact Or.inl ⟨c.store.idx, rfl, fun _ => Or.inl rfl⟩
    | n + 2 =>
      have hk' : (ls.map encodeLabel).Nodup := (List.nodup_cons.mp hk).2
      have hnot : encodeLabel l ∉ ls.map encodeLabel := (List.nodup_cons.mp hk).1
      generalize hkv1 : c.store.idx.set (encodeLabel l) (K.app i (c.store.idx (encodeLabel l))) = kv1
      have e0 : (kitCreateLabels K i k (l :: ls)).upTo (n + 2) c = (kitCreateLabels K i k ls).upTo n (c.withIdx kv1) := by rw [← hkv1]; rfl
      have e1 : K.afterLabels i (l :: ls) c.store.idx = K.afterLabels i ls kv1 := by rw [← hkv1]; rfl
      rcases ih hk' (c.withIdx kv1) n with ⟨kv, h1, h2⟩ | ⟨m, h1⟩
      · left
        refine ⟨kv, by rw [e0, h1]; rfl, ?_⟩
        intro key
        rcases h2 key with h3 | h3
        · by_cases hkey : key = encodeLabel l
          · right
            rw [h3, e1, K.afterLabels_get hk', if_neg (by rw [hkey]; exact hnot)]
            rfl
          · left
            rw [h3]
            show kv1 key = _
            rw [← hkv1, KV.set_other _ _ hkey]
        · right
          rw [h3, e1]; rfl
      · right
        exact ⟨m, by rw [e0, h1, e1]; rfl⟩

theorem Kit.first_not_mem (K : Kit) {ls : Labels} (hls : WFSet ls) (i : U64) : (K.first ls i).1 ∉ ls.map encodeLabel := by
  intro hm; obtain ⟨l, hl, e⟩ := List.mem_map.mp hm
  unfold Kit.first at e
  cases hx : K.ix <;> rw [hx] at e
  · exact hls.key_ne_label (hls.wf l hl) e.symm
  · exact encodeId_ne_label i l e.symm

theorem Kit.second_not_mem (K : Kit) {ls : Labels} (hls : WFSet ls) (i : U64) : (K.second ls i).1 ∉ ls.map encodeLabel := by
  intro hm; obtain ⟨l, hl, e⟩ := List.mem_map.mp hm
  unfold Kit.second at e
  cases hx : K.ix <;> rw [hx] at e
  · exact encodeId_ne_label i l e.symm
  · exact hls.key_ne_label (hls.wf l hl) e.symm

theorem Kit.first_ne_second (K : Kit) (ls : Labels) (i : U64) : (K.first ls i).1 ≠ (K.second ls i).1 := by
  unfold Kit.first Kit.second
  cases hx : K.ix
  · exact (encodeId_ne_labels i ls).symm
  · exact encodeId_ne_labels i ls

/-- Partial states of the sets of `create_index` and what follows. -/
theorem kitSets_upTo (K : Kit) {ls : Labels} (hls : WFSet ls) (i : U64) (k : Proc SChunk (Res Unit)) (c : SChunk) (n : Nat) :
    (∃ kv, (kitSets K ls i k).upTo n c = c.withIdx kv ∧ ∀ key, kv key = c.store.idx key ∨ kv key = K.created ls i c.store.idx key) ∨
    ∃ m, (kitSets K ls i k).upTo n c = k.upTo m (c.withIdx (K.created ls i c.store.idx)) := by
  have hn : (ls.map encodeLabel).Nodup := by have := labelKeys_nodup hls []; simpa using this
  have h1 := K.first_not_mem hls i
  have h2 := K.second_not_mem hls i
  have h12 := K.first_ne_second ls i
  rw [K.created_eq]
  generalize hf : K.first ls i = f at *
  generalize hs : K.second ls i = g at *
  have hk : kitSets K ls i k = .put (fun c : SChunk => c.setIdx f.1 f.2) (.put (fun c : SChunk => c.setIdx g.1 g.2) (kitCreateLabels K i k ls)) := by
    unfold kitSets
    rw [hf, hs]
  rw [hk]
  match n with
  | 0 => exact Or.inl ⟨c.store.idx, rfl, fun _ => Or.inl rfl⟩
  | 1 =>
    refine Or.inl ⟨c.store.idx.set f.1 f.2, rfl, ?_⟩
    intro key
    by_cases he : key = f.1
    · right
      subst he
      rw [K.afterLabels_get hn, if_neg h1, KV.set_other _ _ h12]
    · left; rw [KV.set_other _ _ he]
  | n + 2 =>
    rcases kitCreateLabels_upTo K (i := i) k hn (c.withIdx ((c.store.idx.set f.1 f.2).set g.1 g.2)) n with ⟨kv, e, hkv⟩ | ⟨m, e⟩
    · left
      refine ⟨kv, e, ?_⟩
      intro key
      rcases hkv key with e5 | e5
      · by_cases hkl : key ∈ ls.map encodeLabel
        · left
          rw [e5]
          show ((c.store.idx.set f.1 f.2).set g.1 g.2) key = _
          rw [KV.set_other _ _ (fun e : key = _ => h2 (by rw [← e]; exact hkl)), KV.set_other _ _ (fun e : key = _ => h1 (by rw [← e]; exact hkl))]
        · right
          rw [e5, K.afterLabels_get hn, if_neg hkl]
          rfl
      · right; exact e5
    · exact Or.inr ⟨m, e⟩

end Verif
