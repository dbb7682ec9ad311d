import Verif.Model.TikvBackend
import Verif.Props.Chunk
/-! Properties of the TiKV backend. -/
namespace Verif

theorem nilUuid_length : nilUuid.length = 16 := rfl

/-- Building a chunk that the cluster does not know: the identifiers in use, and the record that is left. -/
theorem buildTikv_fresh (kv : KV) (chunkId uuidS uuidI : Str) (hS : uuidS.length = 16) (hI : uuidI.length = 16) (hk : kv chunkId = none) :
    (buildTikv kv chunkId uuidS uuidI).1 = .ok ([], uuidI ++ nilUuid) ∧ (buildTikv kv chunkId uuidS uuidI).2 chunkId = some (uuidI ++ nilUuid) ∧
    ∀ k, k ≠ chunkId → (buildTikv kv chunkId uuidS uuidI).2 k = kv k := by
  have h1 : initComponent kv chunkId false uuidS = (.ok [], kv.set chunkId (nilUuid ++ uuidS)) := by
    unfold initComponent
    rw [hk]
    have e : (nilUuid ++ nilUuid).drop 16 = nilUuid := by decide
    simp [e, nilUuid_length]
  have h2 : initComponent (kv.set chunkId (nilUuid ++ uuidS)) chunkId true uuidI =
      (.ok (uuidI ++ nilUuid), (kv.set chunkId (nilUuid ++ uuidS)).set chunkId (uuidI ++ nilUuid)) := by
    unfold initComponent
    rw [KV.set_same]
    have e : (nilUuid ++ uuidS).take 16 = nilUuid := by rw [List.take_append_of_le_length (by simp [nilUuid])]; simp [nilUuid]
    simp [e, nilUuid_length]
  unfold buildTikv
  rw [h1]
  simp only []
  rw [h2]
  refine ⟨rfl, KV.set_same _ _ _, ?_⟩
  intro k hk
  simp only []
  rw [KV.set_other _ _ hk, KV.set_other _ _ hk]

/-! ### C45: not true -/

/-- For every assignment of UUIDs and every cluster content: the identifiers found at reopening differ from the ones used for
writing, both for the storage (empty while writing, 16 zero bytes at reopening) and for the indexer (32 bytes while writing,
the first 16 of them at reopening). -/
theorem C45_violated (kv : KV) (chunkId uuidS uuidI : Str) (hS : uuidS.length = 16) (hI : uuidI.length = 16) (hk : kv chunkId = none) :
    ∃ sW iW sR iR, (buildTikv kv chunkId uuidS uuidI).1 = .ok (sW, iW) ∧
      reopenTikv (buildTikv kv chunkId uuidS uuidI).2 chunkId = .ok (some (sR, iR)) ∧ sW ≠ sR ∧ iW ≠ iR ∧
      sW = [] ∧ sR = nilUuid ∧ iW = uuidI ++ nilUuid ∧ iR = uuidI := by
  obtain ⟨h1, h2, -⟩ := buildTikv_fresh kv chunkId uuidS uuidI hS hI hk
  refine ⟨[], uuidI ++ nilUuid, nilUuid, uuidI, h1, ?_, by decide, ?_, rfl, rfl, rfl, rfl⟩
  · unfold reopenTikv
    rw [h2]
    simp [hI]
  · intro e
    have := congrArg List.length e
    simp [nilUuid_length] at this

/-- No index entry is where the reopened indexer looks. -/
def NoIndexAt (pre : Str) (kv : KV) : Prop := ∀ k, kv (pre ++ 76#8 :: k) = none ∧ kv (pre ++ 73#8 :: k) = none

theorem key_ne (u : Str) (c : Byte) (hc : c ≠ 0#8) (k k' : Str) : u ++ c :: k ≠ (u ++ nilUuid) ++ k' := by
  intro e
  rw [List.append_assoc] at e
  have := List.append_cancel_left e
  simp only [nilUuid, List.replicate_succ, List.cons_append, List.cons.injEq] at this
  exact hc this.1

theorem NoIndexAt.set {u : Str} {kv : KV} (h : NoIndexAt u kv) (key v : Str)
    (hne : ∀ c k, c ≠ 0#8 → u ++ c :: k ≠ key) : NoIndexAt u (kv.set key v) := fun k =>
  ⟨by rw [KV.set_other _ _ (hne _ _ (by decide))]; exact (h k).1, by rw [KV.set_other _ _ (hne _ _ (by decide))]; exact (h k).2⟩

theorem toBE_len (i : U64) : (toBE i).length = 8 := by
  unfold toBE; simp [beBytes]

theorem NoIndexAt.insert {u : Str} (hu : u.length = 16) (B : BinSearch) {c : Chunk KV} (h : NoIndexAt u c.store) (ls : Labels) (p : TimePoint) :
    NoIndexAt u (c.insert (tikvComp B (u ++ nilUuid) []) ls p).2.store := by
  have hw : ∀ (kv : KV) i, NoIndexAt u kv → NoIndexAt u (tikvWrite [] kv i p).2 := by
    intro kv i hk
    have hne : ∀ c k, c ≠ 0#8 → u ++ c :: k ≠ tikvKey [] i := by
      intro c k _ e
      have := congrArg List.length e
      simp [tikvKey, toBE_len, hu] at this
      omega
    unfold tikvWrite
    repeat' split
    all_goals first
      | exact hk
      | exact hk.set _ _ hne
  have hc : ∀ (kv : KV) i, NoIndexAt u kv → NoIndexAt u (tikvCreate (u ++ nilUuid) kv ls i).2 := by
    intro kv i hk
    unfold tikvCreate
    have : ∀ (fs : List (KV → KV)), (∀ f ∈ fs, ∀ kv, NoIndexAt u kv → NoIndexAt u (f kv)) → ∀ kv, NoIndexAt u kv →
        NoIndexAt u (fs.foldl (fun kv f => f kv) kv) := by
      intro fs
      induction fs with
      | nil => intro _ kv hk; exact hk
      | cons f fs ih => intro hf kv hk; exact ih (fun g hg => hf g (by simp [hg])) _ (hf f (by simp) kv hk)
    apply this _ _ _ hk
    intro f hf kv hk
    unfold tikvCreateSteps at hf
    simp only [List.mem_cons, List.mem_map] at hf
    rcases hf with rfl | rfl | ⟨l, -, rfl⟩
    · exact hk.set _ _ fun c k hc => key_ne u c hc k _
    · exact hk.set _ _ fun c k hc => key_ne u c hc k _
    · exact hk.set _ _ fun c k hc => key_ne u c hc k _
  unfold Chunk.insert
  split
  · exact h
  · split
    · have hb : NoIndexAt u (Chunk.insertBody (tikvComp B (u ++ nilUuid) []) c ls p).2.store := by
        unfold Chunk.insertBody
        split
        · exact h
        · exact h
        · simp only []
          split
          · exact hw _ _ (hc _ _ h)
          · exact hc _ _ h
          · exact hc _ _ h
        · simp only []
          split
          · exact hw _ _ h
          · exact hw _ _ h
      unfold Chunk.seal
      split
      · exact hb
      · exact hb
    · exact h

/-- Consequence: after a restart nothing written to a TiKV chunk is ever found again. For every history of inserts into a new
chunk with a UUID nobody used before, every query on the reopened chunk over its window returns no series. -/
theorem C45_violated_data_lost (B : BinSearch) (kv : KV) (chunkId uuidS uuidI : Str) (hC : chunkId.length = 16) (hS : uuidS.length = 16)
    (hI : uuidI.length = 16) (hk : kv chunkId = none) (hu : ∀ k, kv (uuidI ++ k) = none) (lo hi : U64) (h : Inserts) (q : Labels) (a b : U64)
    (ho : overlaps lo hi a b = true) :
    ∃ sW iW sR iR, (buildTikv kv chunkId uuidS uuidI).1 = .ok (sW, iW) ∧
      reopenTikv (buildTikv kv chunkId uuidS uuidI).2 chunkId = .ok (some (sR, iR)) ∧
      (Chunk.new ((Chunk.new (buildTikv kv chunkId uuidS uuidI).2 lo hi).insertAll (tikvComp B iW sW) h).store lo hi).query (tikvComp B iR sR) q a b = .ok [] := by
  obtain ⟨sW, iW, sR, iR, e1, e2, -, -, rfl, rfl, rfl, rfl⟩ := C45_violated kv chunkId uuidS uuidI hS hI hk
  refine ⟨_, _, _, _, e1, e2, ?_⟩
  obtain ⟨-, -, h3⟩ := buildTikv_fresh kv chunkId uuidS iR hS hI hk
  have h0 : NoIndexAt iR (buildTikv kv chunkId uuidS iR).2 := by
    intro k
    have hlen : ∀ c : Byte, iR ++ c :: k ≠ chunkId := by
      intro c e
      have := congrArg List.length e
      simp [hC, hI] at this
    exact ⟨by rw [h3 _ (hlen _)]; exact hu _, by rw [h3 _ (hlen _)]; exact hu _⟩
  have hn : NoIndexAt iR ((Chunk.new (buildTikv kv chunkId uuidS iR).2 lo hi).insertAll (tikvComp B (iR ++ nilUuid) []) h).store := by
    generalize hc : Chunk.new (buildTikv kv chunkId uuidS iR).2 lo hi = c
    have hcs : NoIndexAt iR c.store := by rw [← hc]; exact h0
    clear hc h0
    induction h generalizing c with
    | nil => exact hcs
    | cons w h ih => exact ih _ (hcs.insert hI B w.1 w.2)
  generalize ((Chunk.new (buildTikv kv chunkId uuidS iR).2 lo hi).insertAll (tikvComp B (iR ++ nilUuid) []) h).store = st at hn
  unfold Chunk.query
  simp only [Chunk.isWithRange_eq]
  have hm : (tikvComp B iR nilUuid).metadata st q = .ok [] := by
    show tikvMetadata iR st q = .ok []
    unfold tikvMetadata tikvContains
    have : (q.filterMap fun l => st (iR ++ encodeLabel l)) = [] := by
      rw [List.filterMap_eq_nil_iff]
      intro l _
      exact (hn _).1
    rw [this]
    rfl
  show (if false = true then _ else if overlaps lo hi a b = true then _ else _) = _
  rw [ho]
  simp only [Bool.false_eq_true, if_false, if_true]
  show ((tikvComp B iR nilUuid).metadata st q).bind _ = _
  rw [hm]; rfl

/-- What does hold: the identifiers found at reopening are a function of the record, the first 16 bytes of the indexer
identifier in use are the reopened one, and reopening twice gives the same identifiers (it does not change the store). -/
theorem C45_partial (kv : KV) (chunkId uuidS uuidI : Str) (hS : uuidS.length = 16) (hI : uuidI.length = 16) (hk : kv chunkId = none) :
    ∃ sW iW sR iR, (buildTikv kv chunkId uuidS uuidI).1 = .ok (sW, iW) ∧
      reopenTikv (buildTikv kv chunkId uuidS uuidI).2 chunkId = .ok (some (sR, iR)) ∧ iR <+: iW ∧ sW <+: sR := by
  obtain ⟨sW, iW, sR, iR, e1, e2, -, -, rfl, rfl, rfl, rfl⟩ := C45_violated kv chunkId uuidS uuidI hS hI hk
  exact ⟨_, _, _, _, e1, e2, List.prefix_append _ _, List.nil_prefix⟩

example : ∃ sW iW sR iR, (buildTikv KV.empty (List.replicate 16 9#8) (List.replicate 16 1#8) (List.replicate 16 2#8)).1 = .ok (sW, iW) ∧
    reopenTikv (buildTikv KV.empty (List.replicate 16 9#8) (List.replicate 16 1#8) (List.replicate 16 2#8)).2 (List.replicate 16 9#8) =
      .ok (some (sR, iR)) ∧ sW ≠ sR ∧ iW ≠ iR := by
  obtain ⟨a, b, c, d, h1, h2, h3, h4, -⟩ := C45_violated KV.empty (List.replicate 16 9#8) (List.replicate 16 1#8) (List.replicate 16 2#8) rfl rfl rfl
  exact ⟨a, b, c, d, h1, h2, h3, h4⟩

/-! ### C46: not true -/

/-- All chunks built on a cluster use the same storage keys, whatever their UUIDs. -/
theorem C46_violated (kv kv' : KV) (c c' uS uS' uI uI' : Str) (hc : kv c = none) (hc' : kv' c' = none) (h1 : uS.length = 16)
    (h2 : uS'.length = 16) (h3 : uI.length = 16) (h4 : uI'.length = 16) :
    ∃ s i s' i', (buildTikv kv c uS uI).1 = .ok (s, i) ∧ (buildTikv kv' c' uS' uI').1 = .ok (s', i') ∧ ∀ id, tikvKey s id = tikvKey s' id :=
  ⟨_, _, _, _, (buildTikv_fresh kv c uS uI h1 h3 hc).1, (buildTikv_fresh kv' c' uS' uI' h2 h4 hc').1, fun _ => rfl⟩

/-- Two chunks on one cluster: window (0, 1000) with `{a=1}`, then window (1000, 2000) with `{x=y}`. Both series have id 1. -/
def sharedStore : KV :=
  let kv0 := (buildTikv KV.empty (List.replicate 16 9#8) (List.replicate 16 1#8) (List.replicate 16 2#8)).2
  let c1 := (Chunk.new kv0 0#64 1000#64).insertAll (tikvComp stdBinSearch (List.replicate 16 2#8 ++ nilUuid) [])
    [([lbl "a" "1"], ⟨10#64, 5#64⟩)]
  let kv1 := (buildTikv c1.store (List.replicate 16 8#8) (List.replicate 16 3#8) (List.replicate 16 4#8)).2
  ((Chunk.new kv1 1000#64 2000#64).insertAll (tikvComp stdBinSearch (List.replicate 16 4#8 ++ nilUuid) [])
    [([lbl "x" "y"], ⟨1500#64, 7#64⟩)]).store

/-- The point of `{a=1}` of the first chunk is returned as a point of `{x=y}` by the second chunk, and the other way round. -/
theorem C46_violated_mixes :
    (Chunk.new sharedStore 1000#64 2000#64).query (tikvComp stdBinSearch (List.replicate 16 4#8 ++ nilUuid) []) [lbl "x" "y"] 0#64 2000#64 =
      .ok [⟨1#64, [lbl "x" "y"], [⟨10#64, 5#64⟩, ⟨1500#64, 7#64⟩]⟩] ∧
    (Chunk.new sharedStore 0#64 1000#64).query (tikvComp stdBinSearch (List.replicate 16 2#8 ++ nilUuid) []) [lbl "a" "1"] 0#64 2000#64 =
      .ok [⟨1#64, [lbl "a" "1"], [⟨10#64, 5#64⟩, ⟨1500#64, 7#64⟩]⟩] := by
  constructor <;> decide +kernel

/-- What does hold: index entries of two chunks with different UUIDs have different keys, and differ from all storage keys
and from all chunk records. -/
theorem C46_partial (kv kv' : KV) (c c' uS uS' uI uI' : Str) (hc : kv c = none) (hc' : kv' c' = none) (h1 : uS.length = 16)
    (h2 : uS'.length = 16) (h3 : uI.length = 16) (h4 : uI'.length = 16) (hne : uI ≠ uI') :
    ∃ s i s' i', (buildTikv kv c uS uI).1 = .ok (s, i) ∧ (buildTikv kv' c' uS' uI').1 = .ok (s', i') ∧
      (∀ k k', i ++ k ≠ i' ++ k') ∧ (∀ k id, i ++ k ≠ tikvKey s' id) ∧ ∀ k x : Str, x.length = 16 → i ++ k ≠ x := by
  refine ⟨_, _, _, _, (buildTikv_fresh kv c uS uI h1 h3 hc).1, (buildTikv_fresh kv' c' uS' uI' h2 h4 hc').1, ?_, ?_, ?_⟩
  · intro k k' e
    rw [List.append_assoc, List.append_assoc] at e
    exact hne (List.append_inj_left e (by rw [h3, h4]))
  · intro k id e
    have := congrArg List.length e
    simp [tikvKey, toBE_len, h3, nilUuid_length] at this
    omega
  · intro k x hx e
    have := congrArg List.length e
    simp [hx, h3, nilUuid_length] at this

end Verif
