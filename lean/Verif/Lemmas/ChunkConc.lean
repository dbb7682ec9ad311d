import Verif.Model.ChunkConc
import Verif.Lemmas.Conc
import Verif.Lemmas.Chunk
namespace Verif
open List

/-! ### The elementary operations add up to the calls -/

/-- The reverse entries after the loop over labels. -/
def afterLabels (i : U64) (ls : Labels) (kv : KV) : KV :=
  (ls.map fun l => sledAppendId i (encodeLabel l)).foldl (fun kv f => f kv) kv

/-- The chunk with another index store. -/
def SChunk.withIdx (c : SChunk) (kv : KV) : SChunk := { c with store := { c.store with idx := kv } }
/-- The chunk with another series store. -/
def SChunk.withSer (c : SChunk) (kv : KV) : SChunk := { c with store := { c.store with ser := kv } }

theorem createLabelsProc_run (i : U64) (k : Proc SChunk (Res Unit)) (ls : Labels) (c : SChunk) :
    (createLabelsProc i k ls).run c = k.run (c.withIdx (afterLabels i ls c.store.idx)) := by
  induction ls generalizing c with
  | nil => rfl
  | cons l ls ih =>
    simp only [createLabelsProc, Proc.get, Proc.put, Proc.run, id]
    rw [ih]
    rfl

theorem createProc_run (ls : Labels) (i : U64) (k : Proc SChunk (Res Unit)) (c : SChunk) :
    (createProc ls i k).run c =
      match sledCreate c.store.idx ls i with
      | (.ok (), kv) => k.run (c.withIdx kv)
      | (r, _) => (r, c) := by
  simp only [createProc, Proc.get, Proc.run, id]
  unfold sledCreate
  by_cases h : (c.store.idx (encodeLabels ls true)).isSome = true
  · simp only [h, if_true, Proc.run]
  · simp only [h, Bool.false_eq_true, if_false, Proc.put, Proc.run, createLabelsProc_run]
    rfl

theorem writeProc_run (i : U64) (p : TimePoint) (c : SChunk) :
    (writeProc i p).run c = (.ok (), c.withSer (sledWrite c.store.ser i p).2) := by
  simp only [writeProc, Proc.get, Proc.put, Proc.run, id]
  unfold sledWrite
  rcases h : c.store.ser (sledKey i) with _ | v <;> rfl

theorem sledWrite_ok (kv : KV) (i : U64) (p : TimePoint) : (sledWrite kv i p).1 = .ok () := by
  unfold sledWrite; split <;> rfl

theorem sledByLabels_no_panic (kv : KV) (ls : Labels) : sledByLabels kv ls ≠ .panic := by
  unfold sledByLabels
  split
  · unfold parseId
    rename_i v h
    cases parseUnsigned 10 (2 ^ 64 - 1) v <;> simp [Res.ofErr]
  · simp

/-- The elementary operations of an insert, run without interruption, are the insert. -/
theorem insertProc_run (B : BinSearch) (w : Labels × TimePoint) (c : SChunk) :
    (insertProc w).run c = c.insert (sledComp B) w.1 w.2 := by
  unfold Chunk.insert
  simp only [insertProc, Proc.get, Proc.run, id]
  by_cases hp : c.poisoned = true
  · simp only [hp, if_true, Proc.run]
  · simp only [hp, Bool.false_eq_true, if_false]
    by_cases hin : c.isInRange w.2.ts = true
    · simp only [hin, if_true, Proc.run, id]
      unfold Chunk.insertBody
      simp only [sledComp]
      rcases hb : sledByLabels c.store.idx w.1 with (_ | i) | e | _
      · simp only [Proc.run]
        rw [createProc_run]
        have hidx : ({ c with nextId := (idNext c.nextId).2 } : SChunk).store.idx = c.store.idx := rfl
        rw [hidx]
        rcases hcr : sledCreate c.store.idx w.1 (idNext c.nextId).1 with ⟨r, kv⟩
        have hr : r = .ok () ∨ r = .err .internal := by
          unfold sledCreate at hcr
          split at hcr <;> simp only [Prod.mk.injEq] at hcr
          · exact Or.inr hcr.1.symm
          · exact Or.inl hcr.1.symm
        rcases hr with rfl | rfl
        · simp only [writeProc_run, sledWrite_ok, Chunk.seal]
          rfl
        · simp only [Chunk.seal]
          have hkv : kv = c.store.idx := by
            unfold sledCreate at hcr
            split at hcr <;> simp only [Prod.mk.injEq] at hcr
            · exact hcr.2.symm
            · simp at hcr
          rw [hkv]
      · simp only [writeProc_run, sledWrite_ok, Chunk.seal]
        rfl
      · simp only [Proc.run, Chunk.seal]
      · exact absurd hb (sledByLabels_no_panic _ _)
    · simp only [hin, Bool.false_eq_true, if_false, Proc.run]

theorem insertsProc_run (B : BinSearch) (h : Inserts) (c : SChunk) :
    ((insertsProc h).run c).2 = c.insertAll (sledComp B) h := by
  have hb : ∀ {α β : Type} (p : Proc SChunk α) (f : α → Proc SChunk β) (s : SChunk), (p.bind f).run s = (f (p.run s).1).run (p.run s).2 := by
    intro α β p f s
    induction p generalizing s with
    | ret a => rfl
    | act u k ih => exact ih s (u s)
  induction h generalizing c with
  | nil => rfl
  | cons w h ih =>
    rw [insertsProc, hb, insertProc_run B, ih]
    rfl

/-- A crash during a history of inserts leaves all inserts before some point completely and the next one partially done. -/
theorem insertsProc_upTo (B : BinSearch) (h : Inserts) (c : SChunk) (n : Nat) :
    (insertsProc h).upTo n c = c.insertAll (sledComp B) h ∨
    ∃ h1 w h2 m, h = h1 ++ w :: h2 ∧ (insertsProc h).upTo n c = (insertProc w).upTo m (c.insertAll (sledComp B) h1) := by
  induction h generalizing c n with
  | nil => left; cases n <;> rfl
  | cons w h ih =>
    rw [insertsProc]
    rcases Proc.upTo_bind (insertProc w) (fun _ => insertsProc h) c n with ⟨m, hm⟩ | ⟨m, hm⟩
    · exact Or.inr ⟨[], w, h, m, rfl, hm⟩
    · rw [hm, insertProc_run B]
      rcases ih (c.insert (sledComp B) w.1 w.2).2 m with h' | ⟨h1, w', h2, m', e, h'⟩
      · left; rw [h']; rfl
      · right; exact ⟨w :: h1, w', h2, m', by rw [e]; rfl, by rw [h']; rfl⟩

/-! ### Crash states -/

theorem writeProc_upTo (i : U64) (p : TimePoint) (c : SChunk) (n : Nat) :
    (writeProc i p).upTo n c = c ∨ (writeProc i p).upTo n c = c.withSer (sledWrite c.store.ser i p).2 := by
  match n with
  | 0 => exact Or.inl rfl
  | 1 => exact Or.inl rfl
  | n + 2 =>
    right
    simp only [writeProc, Proc.get, Proc.put, Proc.upTo, id]
    unfold sledWrite
    rcases h : c.store.ser (sledKey i) with _ | v <;> cases n <;> rfl

theorem afterLabels_get {i : U64} {ls : Labels} (hk : (ls.map encodeLabel).Nodup) (kv : KV) (k : Str) :
    afterLabels i ls kv k = if k ∈ ls.map encodeLabel then some (sledCodec.app i (kv k)) else kv k := by
  unfold afterLabels
  have e : (ls.map fun l => sledAppendId i (encodeLabel l)) =
      ((ls.map encodeLabel).map fun key => fun kv : KV => kv.set key (sledCodec.app i (kv key))) := by
    rw [List.map_map]; rfl
  rw [e, foldl_append_steps _ _ hk]

/-- Partial states of the loop over labels: every key is old or final; nothing after the loop has happened, or the loop is
complete. -/
theorem createLabelsProc_upTo {i : U64} (k : Proc SChunk (Res Unit)) {ls : Labels} (hk : (ls.map encodeLabel).Nodup) (c : SChunk) (n : Nat) :
    (∃ kv, (createLabelsProc i k ls).upTo n c = c.withIdx kv ∧
      ∀ key, kv key = c.store.idx key ∨ kv key = afterLabels i ls c.store.idx key) ∨
    ∃ m, (createLabelsProc i k ls).upTo n c = k.upTo m (c.withIdx (afterLabels i ls c.store.idx)) := by
  induction ls generalizing c n with
  | nil => exact Or.inr ⟨n, rfl⟩
  | cons l ls ih =>
    match n with
    | 0 => exact Or.inl ⟨c.store.idx, rfl, fun _ => Or.inl rfl⟩
    | 1 => exact Or.inl ⟨c.store.idx, rfl, fun _ => Or.inl rfl⟩
    | n + 2 =>
      have hk' : (ls.map encodeLabel).Nodup := (List.nodup_cons.mp hk).2
      have hnot : encodeLabel l ∉ ls.map encodeLabel := (List.nodup_cons.mp hk).1
      have e0 : (createLabelsProc i k (l :: ls)).upTo (n + 2) c =
          (createLabelsProc i k ls).upTo n (c.withIdx (sledAppendId i (encodeLabel l) c.store.idx)) := rfl
      have e1 : afterLabels i (l :: ls) c.store.idx = afterLabels i ls (sledAppendId i (encodeLabel l) c.store.idx) := rfl
      rcases ih hk' (c.withIdx (sledAppendId i (encodeLabel l) c.store.idx)) n with ⟨kv, h1, h2⟩ | ⟨m, h1⟩
      · left
        refine ⟨kv, by rw [e0, h1]; rfl, ?_⟩
        intro key
        rcases h2 key with h3 | h3
        · by_cases hkey : key = encodeLabel l
          · right
            rw [h3, e1, afterLabels_get hk', if_neg (by rw [hkey]; exact hnot)]
            rfl
          · left
            rw [h3]
            show KV.set _ _ _ key = _
            rw [KV.set_other _ _ hkey]
        · right
          rw [h3, e1]; rfl
      · right
        exact ⟨m, by rw [e0, h1, e1]; rfl⟩

/-- State left by a crash inside an insert of a chunk that represents a history. Either the store is untouched, or the
insert is complete, or a new series was being created: then no point has been stored yet and every index key has its old or
its final value. -/
structure CrashState (c c' m : SChunk) : Prop where
  start_ : m.start_ = c.start_
  end_ : m.end_ = c.end_
  poisoned : m.poisoned = c.poisoned
  ser : m.store.ser = c.store.ser ∨ m.store = c'.store
  idx : ∀ k, m.store.idx k = c.store.idx k ∨ m.store.idx k = c'.store.idx k

theorem insert_existing (B : BinSearch) {lo hi : U64} {h : Inserts} {c : SChunk} (hc : ChunkRep (sledRefines B) lo hi h c)
    {ls : Labels} (hls : WFSet ls) {p : TimePoint} (hin : inside lo hi p = true) {i : U64} (hi' : specByLabels (numbered h) ls = some i) :
    (c.insert (sledComp B) ls p).2 = c.withSer (sledWrite c.store.ser i p).2 ∧
    ∀ n, (insertProc (ls, p)).upTo n c = c ∨ (insertProc (ls, p)).upTo n c = c.withSer (sledWrite c.store.ser i p).2 := by
  have hb := (sledRefines B).byLabels hc.rep hls
  rw [hi'] at hb
  simp only [sledComp] at hb
  have hr : c.isInRange p.ts = true := by rw [inside_iff hc.start_ hc.end_]; exact hin
  constructor
  · rw [← insertProc_run B (ls, p)]
    simp only [insertProc, Proc.get, Proc.run, id, hc.ok, hr, hb, Bool.false_eq_true, if_false, if_true, writeProc_run]
  · intro n
    match n with
    | 0 => exact Or.inl rfl
    | 1 => exact Or.inl (by simp only [insertProc, Proc.get, Proc.upTo, id])
    | n + 2 =>
      have : (insertProc (ls, p)).upTo (n + 2) c = (writeProc i p).upTo n c := by
        simp only [insertProc, Proc.get, Proc.upTo, id, hc.ok, hr, hb, Bool.false_eq_true, if_false, if_true]
      rw [this]
      exact writeProc_upTo i p c n

/-- The index store of an insert that creates a series. -/
theorem insert_new (B : BinSearch) {lo hi : U64} {h : Inserts} {c : SChunk} (hc : ChunkRep (sledRefines B) lo hi h c)
    {ls : Labels} (hls : WFSet ls) {p : TimePoint} (hin : inside lo hi p = true) (hi' : specByLabels (numbered h) ls = none) :
    (c.insert (sledComp B) ls p).2.store = ⟨(sledCreateSteps ls c.nextId).foldl (fun kv f => f kv) c.store.idx,
      (sledWrite c.store.ser c.nextId p).2⟩ ∧
    ∀ n, CrashState c (c.insert (sledComp B) ls p).2 ((insertProc (ls, p)).upTo n c) := by
  have hb := (sledRefines B).byLabels hc.rep hls
  rw [hi'] at hb
  simp only [sledComp] at hb
  have hr : c.isInRange p.ts = true := by rw [inside_iff hc.start_ hc.end_]; exact hin
  have hL := hc.rep.1.byLabels ls hls
  simp only [sledCodec, List.nil_append, hi', Option.map_none] at hL
  have hcr : sledCreate c.store.idx ls c.nextId = (.ok (), (sledCreateSteps ls c.nextId).foldl (fun kv f => f kv) c.store.idx) := by
    unfold sledCreate; rw [hL]; rfl
  have hfin : (c.insert (sledComp B) ls p).2.store = ⟨(sledCreateSteps ls c.nextId).foldl (fun kv f => f kv) c.store.idx,
      (sledWrite c.store.ser c.nextId p).2⟩ := by
    rw [← insertProc_run B (ls, p)]
    simp only [insertProc, Proc.get, Proc.run, id, hc.ok, hr, hb, Bool.false_eq_true, if_false, if_true, createProc_run, idNext]
    have hidx : ({ c with nextId := c.nextId + 1#64 } : SChunk).store.idx = c.store.idx := rfl
    rw [hidx, hcr]
    simp only [writeProc_run]
    rfl
  refine ⟨hfin, ?_⟩
  -- keys
  have hn : (ls.map encodeLabel).Nodup := by have := labelKeys_nodup hls []; simpa using this
  have hkL : encodeLabels ls true ∉ ls.map encodeLabel := by
    intro hm; obtain ⟨l, hl, e⟩ := List.mem_map.mp hm
    exact hls.key_ne_label (hls.wf l hl) e.symm
  have hkI : encodeId c.nextId ∉ ls.map encodeLabel := by
    intro hm; obtain ⟨l, hl, e⟩ := List.mem_map.mp hm
    exact encodeId_ne_label c.nextId l e.symm
  have hLI := encodeId_ne_labels c.nextId ls
  -- intermediate index stores
  have hfold : (sledCreateSteps ls c.nextId).foldl (fun kv f => f kv) c.store.idx =
      afterLabels c.nextId ls ((c.store.idx.set (encodeLabels ls true) (fmtId c.nextId)).set (encodeId c.nextId) (encodeLabels ls false)) := rfl
  have h1 : ∀ k, (c.store.idx.set (encodeLabels ls true) (fmtId c.nextId)) k = c.store.idx k ∨
      (c.store.idx.set (encodeLabels ls true) (fmtId c.nextId)) k = (c.insert (sledComp B) ls p).2.store.idx k := by
    intro k
    rw [hfin]
    simp only []
    rw [hfold, afterLabels_get hn]
    by_cases hk : k = encodeLabels ls true
    · right
      rw [hk, if_neg hkL, KV.set_other _ _ hLI.symm]
    · left; rw [KV.set_other _ _ hk]
  have h2 : ∀ k, ((c.store.idx.set (encodeLabels ls true) (fmtId c.nextId)).set (encodeId c.nextId) (encodeLabels ls false)) k = c.store.idx k ∨
      ((c.store.idx.set (encodeLabels ls true) (fmtId c.nextId)).set (encodeId c.nextId) (encodeLabels ls false)) k =
        (c.insert (sledComp B) ls p).2.store.idx k := by
    intro k
    by_cases hkl : k ∈ ls.map encodeLabel
    · left
      rw [KV.set_other _ _ (fun e : k = _ => hkI (by rw [← e]; exact hkl)), KV.set_other _ _ (fun e : k = _ => hkL (by rw [← e]; exact hkl))]
    · right
      rw [hfin]
      simp only []
      rw [hfold, afterLabels_get hn, if_neg hkl]
  intro n
  match n with
  | 0 => exact ⟨rfl, rfl, rfl, Or.inl rfl, fun _ => Or.inl rfl⟩
  | 1 =>
    have : (insertProc (ls, p)).upTo 1 c = c := by simp only [insertProc, Proc.get, Proc.upTo, id]
    rw [this]; exact ⟨rfl, rfl, rfl, Or.inl rfl, fun _ => Or.inl rfl⟩
  | 2 =>
    have : (insertProc (ls, p)).upTo 2 c = c := by
      simp only [insertProc, Proc.get, Proc.upTo, id, hc.ok, hr, Bool.false_eq_true, if_false, if_true]
    rw [this]; exact ⟨rfl, rfl, rfl, Or.inl rfl, fun _ => Or.inl rfl⟩
  | 3 =>
    have : (insertProc (ls, p)).upTo 3 c = { c with nextId := c.nextId + 1#64 } := by
      simp only [insertProc, Proc.get, Proc.upTo, id, hc.ok, hr, hb, Bool.false_eq_true, if_false, if_true, idNext]
    rw [this]; exact ⟨rfl, rfl, rfl, Or.inl rfl, fun _ => Or.inl rfl⟩
  | n + 4 =>
    have e3 : (insertProc (ls, p)).upTo (n + 4) c =
        (Proc.put (fun d : SChunk => d.setIdx (encodeLabels ls true) (fmtId c.nextId))
          (Proc.put (fun d : SChunk => d.setIdx (encodeId c.nextId) (encodeLabels ls false))
            (createLabelsProc c.nextId (writeProc c.nextId p) ls))).upTo n { c with nextId := c.nextId + 1#64 } := by
      have hd : (c.store.idx (encodeLabels ls true)).isSome = false := by rw [hL]; rfl
      simp only [insertProc, Proc.get, Proc.upTo, id, hc.ok, hr, hb, Bool.false_eq_true, if_false, if_true, idNext, createProc, hd]
    rw [e3]
    match n with
    | 0 => exact ⟨rfl, rfl, rfl, Or.inl rfl, fun _ => Or.inl rfl⟩
    | 1 => exact ⟨rfl, rfl, rfl, Or.inl rfl, h1⟩
    | n + 2 =>
      simp only [Proc.put, Proc.upTo]
      rcases createLabelsProc_upTo (i := c.nextId) (writeProc c.nextId p) hn
        ((SChunk.setIdx { c with nextId := c.nextId + 1#64 } (encodeLabels ls true) (fmtId c.nextId)).setIdx (encodeId c.nextId)
          (encodeLabels ls false)) n with ⟨kv, e4, hkv⟩ | ⟨m, e4⟩
      · rw [e4]
        refine ⟨rfl, rfl, rfl, Or.inl rfl, ?_⟩
        intro k
        rcases hkv k with e5 | e5
        · show kv k = _ ∨ kv k = _
          rw [e5]
          exact h2 k
        · right
          show kv k = _
          rw [e5, hfin]
          rfl
      · rw [e4]
        rcases writeProc_upTo c.nextId p (SChunk.withIdx ((SChunk.setIdx { c with nextId := c.nextId + 1#64 } (encodeLabels ls true)
          (fmtId c.nextId)).setIdx (encodeId c.nextId) (encodeLabels ls false)) (afterLabels c.nextId ls
            ((c.store.idx.set (encodeLabels ls true) (fmtId c.nextId)).set (encodeId c.nextId) (encodeLabels ls false)))) m with e5 | e5
        · refine ⟨?_, ?_, ?_, ?_, ?_⟩
          · exact (congrArg Chunk.start_ e5).trans rfl
          · exact (congrArg Chunk.end_ e5).trans rfl
          · exact (congrArg Chunk.poisoned e5).trans rfl
          · left; exact (congrArg (fun d : SChunk => d.store.ser) e5).trans rfl
          · intro k; right
            rw [hfin]
            exact (congrArg (fun d : SChunk => d.store.idx k) e5).trans rfl
        · refine ⟨?_, ?_, ?_, ?_, ?_⟩
          · exact (congrArg Chunk.start_ e5).trans rfl
          · exact (congrArg Chunk.end_ e5).trans rfl
          · exact (congrArg Chunk.poisoned e5).trans rfl
          · right
            rw [hfin]
            exact (congrArg (fun d : SChunk => d.store) e5).trans rfl
          · intro k; right
            rw [hfin]
            exact (congrArg (fun d : SChunk => d.store.idx k) e5).trans rfl

end Verif
