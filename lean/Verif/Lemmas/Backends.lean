import Verif.Model.Backends
import Verif.Props.TikvBackend
namespace Verif
open List

/-- What the storage of a combination accepts. -/
def Backend.accepts : Backend → List TimePoint → TimePoint → Bool
  | .sled => sledAccepts
  | .tikv => tikvAccepts

/-- The index represents these series. -/
def IdxRep (ix : Backend) (ipre : Str) (c : Created) (s : Stores) : Prop :=
  match ix with
  | .sled => IndexInv sledCodec c s.idx
  | .tikv => IndexInv (tikvCodec ipre) c s.kvI

/-- The storage represents these points. -/
def SerRep (conn : Conn) (st : Backend) (spre : Str) (ser : U64 → List TimePoint) (s : Stores) : Prop :=
  match st with
  | .sled => StoreInv sledKey ser s.ser
  | .tikv => StoreInv (tikvKey spre) ser (s.getS conn)

/-- The stored bytes of a series. -/
def Stores.bytes (conn : Conn) (st : Backend) (spre : Str) (s : Stores) (i : U64) : Option Str :=
  match st with
  | .sled => s.ser (sledKey i)
  | .tikv => s.getS conn (tikvKey spre i)

theorem SerRep.bytes {conn : Conn} {st : Backend} {spre : Str} {ser : U64 → List TimePoint} {s : Stores} (h : SerRep conn st spre ser s) (i : U64) :
    s.bytes conn st spre i = if ser i = [] then none else some ((ser i).flatMap encodePoint) := by
  cases st <;> exact h i

/-- Reading is a function of the stored bytes. -/
theorem back_read (B : BinSearch) (conn : Conn) (st ix : Backend) (ipre spre : Str) (s : Stores) (i a b : U64) :
    (backComp B conn st ix ipre spre).read s i a b =
      match s.bytes conn st spre i with
      | none => .err .notFound
      | some v => (decodeSeries v).bind fun series => readSeries B series a b := by
  cases st <;> rfl

theorem getS_setS (conn : Conn) (s : Stores) (kv : KV) : (s.setS conn kv).getS conn = kv := by cases conn <;> rfl

theorem sledCreate_ok {c : Created} {kv : KV} (h : IndexInv sledCodec c kv) {ls : Labels} (hwf : WFSet ls) (hf : ∀ x ∈ c, ¬ x.1.Perm ls) (i : U64) :
    sledCreate kv ls i = (.ok (), (sledCreateSteps ls i).foldl (fun kv f => f kv) kv) := by
  have hL := h.byLabels ls hwf
  have hnone : specByLabels c ls = none := by
    unfold specByLabels
    rw [Option.map_eq_none_iff, List.find?_eq_none]
    intro t ht hp
    exact hf t ht (by simpa using hp)
  simp only [sledCodec, List.nil_append, hnone, Option.map_none] at hL
  unfold sledCreate; rw [hL]; rfl

theorem tikvCreate_store {ls : Labels} (hwf : WFSet ls) {ipre spre : Str} (hp : spre.length + 8 ≤ ipre.length) (i j : U64) (kv : KV) :
    (tikvCreate ipre kv ls i).2 (tikvKey spre j) = kv (tikvKey spre j) :=
  (tikv_after hwf ipre i kv).other _ (tikvKey_ne_index hp j (encodeLabels_ne_nil ls))
    (tikvKey_ne_index hp j (encodeId_ne_nil i)) fun l _ => tikvKey_ne_index hp j (encodeLabel_ne_nil l)

/-- Writing to the storage when the series accepts the point. -/
theorem back_write (B : BinSearch) {conn : Conn} {st ix : Backend} {ipre spre : Str} {ser : U64 → List TimePoint} {s : Stores}
    (h : SerRep conn st spre ser s) (i : U64) (p : TimePoint) :
    if st.accepts (ser i) p then ((backComp B conn st ix ipre spre).write s i p).1 = .ok () ∧
      SerRep conn st spre (upd ser i (ser i ++ [p])) ((backComp B conn st ix ipre spre).write s i p).2
    else (backComp B conn st ix ipre spre).write s i p = (.err .internal, s) := by
  cases st with
  | sled =>
    rw [if_pos (show Backend.sled.accepts (ser i) p = true from rfl)]
    exact sledWrite_inv h i p
  | tikv =>
    have hw := tikvWrite_inv (pre := spre) (show StoreInv (tikvKey spre) ser (s.getS conn) from h) i p
    by_cases ha : tikvAccepts (ser i) p = true
    · rw [if_pos (show Backend.tikv.accepts (ser i) p = true from ha)]
      rw [if_pos] at hw
      · refine ⟨hw.1, ?_⟩
        show StoreInv (tikvKey spre) _ ((s.setS conn (tikvWrite spre (s.getS conn) i p).2).getS conn)
        rw [getS_setS]; exact hw.2
      · intro l hl
        unfold tikvAccepts at ha
        rw [hl] at ha; simpa using ha
    · rw [if_neg (show ¬ Backend.tikv.accepts (ser i) p = true from ha)]
      rw [if_neg] at hw
      · show ((tikvWrite spre (s.getS conn) i p).1, s.setS conn (tikvWrite spre (s.getS conn) i p).2) = _
        rw [hw]
        cases conn <;> rfl
      · intro hc
        unfold tikvAccepts at ha
        rcases hl : (ser i).getLast? with _ | l
        · rw [hl] at ha; simp at ha
        · rw [hl] at ha
          have := hc l hl
          simp only [decide_eq_true_eq] at ha
          exact ha this

theorem back_write_idx (B : BinSearch) {conn : Conn} {st ix : Backend} {ipre spre : Str}
    (hp : conn = .cluster → st = .tikv → ix = .tikv → spre.length + 8 ≤ ipre.length) {c : Created} {s : Stores}
    (h : IdxRep ix ipre c s) (i : U64) (p : TimePoint) : IdxRep ix ipre c ((backComp B conn st ix ipre spre).write s i p).2 := by
  cases st with
  | sled => cases ix <;> exact h
  | tikv =>
    cases conn with
    | dryRun => cases ix <;> exact h
    | cluster =>
      cases ix with
      | sled => exact h
      | tikv => exact tikvWrite_index (hp rfl rfl rfl) h i p

/-- Every combination is an index with a series store. On a cluster with both components on TiKV the identifiers must not make keys
collide. -/
def backRefines (B : BinSearch) (conn : Conn) (st ix : Backend) (ipre spre : Str)
    (hp : conn = .cluster → st = .tikv → ix = .tikv → spre.length + 8 ≤ ipre.length) :
    Refines (backComp B conn st ix ipre spre) st.accepts where
  Rep c ser s := IdxRep ix ipre c s ∧ SerRep conn st spre ser s
  byLabels h hl := by
    cases ix
    · exact sled_byLabels h.1 hl
    · exact tikv_byLabels h.1 hl
  metadata h hwf hids hq := by
    cases ix
    · exact sled_metadata h.1 hwf hids hq
    · exact tikv_metadata h.1 hwf hids hq
  create {c ser s ls i} h hwf hf hi := by
    cases ix with
    | sled =>
      have e := sledCreate_ok h.1 hwf hf i
      refine ⟨by show (sledCreate s.idx ls i).1 = _; rw [e], ?_, ?_⟩
      · show IndexInv sledCodec _ (sledCreate s.idx ls i).2
        rw [e]
        exact IndexInv.step h.1 hwf hf hi (sled_after hwf i _)
      · cases st
        · exact h.2
        · cases conn <;> exact h.2
    | tikv =>
      refine ⟨rfl, IndexInv.step h.1 hwf hf hi (tikv_after hwf ipre i _), ?_⟩
      cases st with
      | sled => exact h.2
      | tikv =>
        cases conn with
        | dryRun => exact h.2
        | cluster =>
          intro j
          rw [← h.2 j]
          exact tikvCreate_store hwf (hp rfl rfl rfl) i j _
  writeYes {c ser s i p} h ha := by
    have := back_write B (ix := ix) (ipre := ipre) h.2 i p
    rw [if_pos ha] at this
    exact ⟨this.1, back_write_idx B hp h.1 i p, this.2⟩
  writeNo {c ser s i p} h ha := by
    have := back_write B (ix := ix) (ipre := ipre) h.2 i p
    rw [if_neg (by simp [ha])] at this
    exact this
  read {c ser s i a b} h hs hab := by
    rw [back_read, SerRep.bytes h.2]
    by_cases h0 : ser i = []
    · rw [if_pos h0, h0]; rfl
    · rw [if_neg h0]
      simp only []
      rw [decodeSeries_points, Res.bind_ok, readSeries_spec hs h0 hab]
  first _ := by cases st <;> rfl

/-! ### Frames -/

theorem foldl_set_frame (fs : List (KV → KV)) (key : Str) (h : ∀ f ∈ fs, ∀ kv, f kv key = kv key) (kv : KV) :
    fs.foldl (fun kv f => f kv) kv key = kv key := by
  induction fs generalizing kv with
  | nil => rfl
  | cons f fs ih => rw [List.foldl_cons, ih (fun g hg => h g (by simp [hg])), h f (by simp)]

/-- Creating index entries touches only keys that begin with the indexer's identifier. -/
theorem tikvCreate_frame {ipre key : Str} (hk : ∀ k, key ≠ ipre ++ k) (kv : KV) (ls : Labels) (i : U64) :
    (tikvCreate ipre kv ls i).2 key = kv key := by
  unfold tikvCreate
  apply foldl_set_frame
  intro f hf kv
  unfold tikvCreateSteps at hf
  simp only [List.mem_cons, List.mem_map] at hf
  rcases hf with rfl | rfl | ⟨l, -, rfl⟩
  · exact KV.set_other _ _ (hk _)
  · exact KV.set_other _ _ (hk _)
  · exact KV.set_other _ _ (hk _)

/-- Writing a point touches only the key of the series. -/
theorem tikvWrite_frame {spre key : Str} {i : U64} (hk : key ≠ tikvKey spre i) (kv : KV) (p : TimePoint) :
    (tikvWrite spre kv i p).2 key = kv key := by
  unfold tikvWrite
  repeat' split
  all_goals first
    | rfl
    | exact KV.set_other _ _ hk

/-- A property of the stores that creating entries and writing points keep is kept by inserts. -/
theorem insert_store_inv {σ : Type} (C : Comp σ) (P : σ → Prop) (hc : ∀ s ls i, P s → P (C.create s ls i).2)
    (hw : ∀ s i p, P s → P (C.write s i p).2) (c : Chunk σ) (ls : Labels) (p : TimePoint) (h : P c.store) : P (c.insert C ls p).2.store := by
  unfold Chunk.insert
  split
  · exact h
  · split
    · have hb : P (Chunk.insertBody C c ls p).2.store := by
        unfold Chunk.insertBody
        split
        · exact h
        · exact h
        · simp only []
          split
          · exact hw _ _ _ (hc _ _ _ h)
          · exact hc _ _ _ h
          · exact hc _ _ _ h
        · simp only []
          split
          · exact hw _ _ _ h
          · exact hw _ _ _ h
      unfold Chunk.seal
      split
      · exact hb
      · exact hb
    · exact h

theorem insertAll_store_inv {σ : Type} (C : Comp σ) (P : σ → Prop) (hc : ∀ s ls i, P s → P (C.create s ls i).2)
    (hw : ∀ s i p, P s → P (C.write s i p).2) (h : Inserts) (c : Chunk σ) (h0 : P c.store) : P (c.insertAll C h).store := by
  induction h generalizing c with
  | nil => exact h0
  | cons w h ih => exact ih _ (insert_store_inv C P hc hw c w.1 w.2 h0)

/-- What the indexer's client sees outside the keys of this chunk does not change. -/
theorem insert_frame (B : BinSearch) (st ix : Backend) {ipre spre key : Str} (h1 : ix = .tikv → ∀ k, key ≠ ipre ++ k)
    (h2 : st = .tikv → ∀ i, key ≠ tikvKey spre i) (c : Chunk Stores) (ls : Labels) (p : TimePoint) :
    (c.insert (backComp B .cluster st ix ipre spre) ls p).2.store.kvI key = c.store.kvI key := by
  refine insert_store_inv _ (fun s => s.kvI key = c.store.kvI key) ?_ ?_ c ls p rfl
  · intro s ls i hs
    cases ix with
    | sled => exact hs
    | tikv =>
      show (tikvCreate ipre s.kvI ls i).2 key = _
      rw [tikvCreate_frame (h1 rfl)]; exact hs
  · intro s i p hs
    cases st with
    | sled => exact hs
    | tikv =>
      show (tikvWrite spre s.kvI i p).2 key = _
      rw [tikvWrite_frame (h2 rfl i)]; exact hs

theorem insertAll_frame (B : BinSearch) (st ix : Backend) {ipre spre key : Str} (h1 : ix = .tikv → ∀ k, key ≠ ipre ++ k)
    (h2 : st = .tikv → ∀ i, key ≠ tikvKey spre i) (h : Inserts) (c : Chunk Stores) :
    (c.insertAll (backComp B .cluster st ix ipre spre) h).store.kvI key = c.store.kvI key := by
  induction h generalizing c with
  | nil => rfl
  | cons w h ih => exact (ih _).trans (insert_frame B st ix h1 h2 c w.1 w.2)

end Verif
