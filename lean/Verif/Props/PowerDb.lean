import Verif.Lemmas.PowerDb
import Verif.Props.PowerLoss
import Verif.Props.Life
/-! C80: the answers of a database after any life, with failures, stops and losses of power. -/
namespace Verif
open List

/-- Whatever happened before, and whatever fails during the query: the database answers (it neither panics nor reports an error), lists no
label set twice, and each label set it lists was written, has a label that was asked for, and comes with points that were written for it
and lie in the range. -/
theorem C80_partial_sound (B : BinSearch) (H : Hash) (base : Str) (size : U64) (w : List (Labels × TimePoint)) (db : PlDb)
    (hlife : Lived base size w (.up db)) (hwf : ∀ x ∈ w, WFSet x.1) (hlen : w.length < 2 ^ 64 - 1) (hincr : ∀ ls, SIncr (pointsFor w ls))
    (hgood : H.Good fun ls => ∃ x ∈ w, ls = sortLabels x.1) (q : Labels) (hq : ∀ l ∈ q, WFLabel l) (a b : U64) (hab : a.toNat ≤ b.toNat)
    (os : List OpOutcome) (oss : List (List OpOutcome)) :
    ∃ r, db.query B H q a b os oss = .ok r ∧ (r.map (·.1)).Nodup ∧ ∀ x ∈ r,
      (∃ y ∈ w, x.1.Perm y.1) ∧ (∃ l ∈ q, l ∈ x.1) ∧ x.2 ≠ [] ∧
      ∀ p ∈ x.2, p ∈ pointsFor w x.1 ∧ a.toNat ≤ p.ts.toNat ∧ p.ts.toNat ≤ b.toNat := by
  have hok := lived_ok hlife hwf hlen
  have hview : ∀ st, OldOk w st → ∀ os, SaneView (fun ls => ∃ x ∈ w, ls = sortLabels x.1)
      (fun ls p => (∃ l ∈ q, l ∈ ls) ∧ p ∈ pointsFor w ls ∧ a.toNat ≤ p.ts.toNat ∧ p.ts.toNat ≤ b.toNat) q a b
      ⟨fun q a b => slFaultyQuery B st q a b os, st.1.isWithRange⟩ := by
    rintro st ⟨hf, c, ser, h, hsub, S⟩ os
    have hps : ∀ ls, pointsFor h ls <+ pointsFor w ls := fun ls => (hsub.filter _).map _
    obtain ⟨g1, g2⟩ := S.answer hf (fun ls => (hincr ls).sublist (hps ls)) B hq hab os
    refine ⟨g1, fun ss hss x hx => ?_⟩
    obtain ⟨⟨⟨y, hy, -, hl⟩, h2, h3⟩, hm, -⟩ := g2 ss hss x hx
    refine ⟨⟨y, hsub.subset hy, hl⟩, h2, fun p hp => ⟨hm, ?_⟩⟩
    have hp := h3.subset hp
    unfold inRange at hp
    rw [List.mem_filter] at hp
    exact ⟨(hps _).subset hp.1, by simpa using hp.2⟩
  obtain ⟨r, h1, h2, h3⟩ := dbQuery_sane hgood _ (db.secondary.mapIdx fun i st =>
      (⟨fun q a b => slFaultyQuery B st q a b (oss.getD i []), st.1.isWithRange⟩ : View)) q a b (hview _ hok.1.old os) (by
    intro v hv
    obtain ⟨i, hi, rfl⟩ := List.mem_mapIdx.mp hv
    exact hview _ (hok.2.2 _ (List.getElem_mem hi)) _)
  refine ⟨r, h1, h2, fun x hx => ?_⟩
  obtain ⟨⟨y, hy, g1⟩, g2, g3⟩ := h3 x hx
  refine ⟨⟨y, hy, by rw [g1]; exact sortLabels_perm y.1⟩, ?_, g2, fun p hp => (g3 p hp).2⟩
  obtain ⟨p, hp⟩ := List.exists_mem_of_ne_nil _ g2
  exact (g3 p hp).1

/-- Writes never panic either: they report success or the one error for failed inserts. -/
theorem C80_partial_write (base : Str) (size : U64) (w : List (Labels × TimePoint)) (db : PlDb) (hlife : Lived base size w (.up db))
    (hwf : ∀ x ∈ w, WFSet x.1) (ls : Labels) (hls : WFSet ls) (ps : List (TimePoint × List OpOutcome)) (hlen : w.length + ps.length < 2 ^ 64 - 1) :
    (plWrite db.cur ls ps).1 = .ok () ∨ (plWrite db.cur ls ps).1 = .err .internal := by
  have hok := lived_ok hlife hwf (by omega)
  have hk : (plKept db.cur ps).length ≤ ps.length := List.length_filter_le _ _
  have h := (hok.1.insertEach hls (plKept db.cur ps) (by omega)).1
  have he : ∀ (st : Chunk Unit × Volatile) (ps : List (TimePoint × List OpOutcome)) (e : MErr), (plInsertEach st ls ps).1 ≠ .err e := by
    intro st ps
    induction ps generalizing st with
    | nil => intro e h; cases h
    | cons p ps ih =>
      intro e
      rw [plInsertEach]
      rcases plInsert st ⟨ls, p.1, p.2⟩ with ⟨u | e' | _, st'⟩
      · exact ih st' e
      · simp only
        have := ih st'
        revert this
        rcases plInsertEach st' ls ps with ⟨n | e' | _, st''⟩ <;> intro this
        · simp
        · exact this e
        · simp
      · simp
  unfold plWrite
  have he := he db.cur (plKept db.cur ps)
  revert he h
  rcases plInsertEach db.cur ls (plKept db.cur ps) with ⟨(_ | n) | e | _, st⟩ <;> intro h he
  · exact .inl rfl
  · exact .inr rfl
  · exact (he e rfl).elim
  · exact (h rfl).elim

/-! ### When nothing fails on the trees -/

/-- The chunk with the trees as the program sees them. -/
def plChunk (st : Chunk Unit × Volatile) : Chunk SledStores := st.1.withStore st.2.now

/-- The database as the program sees it: the model of C76, which knows nothing of flushes. -/
def PlDb.seen (db : PlDb) : FaultyDb := ⟨⟨db.old.map PlSlot.seen, plChunk db.cur, db.secondary.map fun st => st.1.withStore st.2⟩, db.config⟩

/-- Likewise. -/
def PlNode.seen : PlNode → Node
  | .up db => .up db.seen
  | .down ss => .down (ss.map PlSlot.seen)

theorem plInsert_done (B : BinSearch) (st : Chunk Unit × Volatile) (ls : Labels) (p : TimePoint) {os : List OpOutcome} (hos : ∀ o ∈ os, o = .done) :
    (plInsert st ⟨ls, p, os⟩).1 = ((plChunk st).insert (sledComp B) ls p).1 ∧ plChunk (plInsert st ⟨ls, p, os⟩).2 = ((plChunk st).insert (sledComp B) ls p).2 := by
  have h := C77_no_faults B st.1 st.2.now os hos ls p
  have h1 := plInsert_now st ⟨ls, p, os⟩
  refine ⟨h1.1.trans h.1, ?_⟩
  unfold plChunk
  rw [h1.2.1, h1.2.2]; exact h.2

theorem plInsertEach_done (B : BinSearch) (st : Chunk Unit × Volatile) (ls : Labels) (ps : List (TimePoint × List OpOutcome))
    (hos : ∀ p ∈ ps, ∀ o ∈ p.2, o = .done) :
    insertEach (sledComp B) (plChunk st) ls (ps.map (·.1)) = ((plInsertEach st ls ps).1, plChunk (plInsertEach st ls ps).2) := by
  induction ps generalizing st with
  | nil => rfl
  | cons p ps ih =>
    obtain ⟨h1, h2⟩ := plInsert_done B st ls p.1 (hos p (by simp))
    have ih := ih (plInsert st ⟨ls, p.1, p.2⟩).2 fun x hx => hos x (by simp [hx])
    have h3 : (plChunk st).insert (sledComp B) ls p.1 = ((plInsert st ⟨ls, p.1, p.2⟩).1, plChunk (plInsert st ⟨ls, p.1, p.2⟩).2) := Prod.ext h1.symm h2.symm
    rw [plInsertEach, List.map_cons, insertEach, h3]
    revert ih
    rcases plInsert st ⟨ls, p.1, p.2⟩ with ⟨u | e | _, st'⟩ <;> intro ih
    · exact ih
    · simp only at ih ⊢
      rw [ih]
      rcases plInsertEach st' ls ps with ⟨n | e | _, y⟩ <;> rfl
    · rfl

/-- As long as no operation on the trees fails and nothing is lost, this is the database of C76 (whose answers are exact, see there): all
events and queries agree. -/
theorem C80_no_faults (B : BinSearch) (base : Str) (size : U64) :
    (∀ (db : PlDb) (ls : Labels) (ps : List (TimePoint × List OpOutcome)), (∀ p ∈ ps, ∀ o ∈ p.2, o = .done) →
      (plWrite db.cur ls ps).1 = (writeTimePoints (sledComp B) db.seen.live.cur ls (ps.map (·.1))).1 ∧
      (PlNode.up { db with cur := (plWrite db.cur ls ps).2 }).seen = (PlNode.up db).seen.step B base size (.write ls (ps.map (·.1)))) ∧
    (∀ (db : PlDb) (r : U64) (f : DirFaults), (db.swap size (r + 1) f).1 = (db.seen.swap size (r + 1) f).1 ∧
      (PlNode.up (db.swap size (r + 1) f).2).seen = (PlNode.up db).seen.step B base size (.tick r f)) ∧
    (∀ db : PlDb, (PlNode.down db.slots).seen = (PlNode.up db).seen.step B base size .stop) ∧
    (∀ (ss : List PlSlot) (clock : Str → U64) (now : U64) (f : DirFaults),
      (PlNode.open base size clock now f ss).seen = (PlNode.down ss).seen.step B base size (.start id clock now f)) ∧
    ∀ (db : PlDb) (H : Hash) (q : Labels) (a b : U64), db.query B H q a b [] [] = db.seen.query B H q a b := by
  refine ⟨?_, ?_, ?_, ?_, ?_⟩
  · intro db ls ps hos
    have hk : (plKept db.cur ps).map (·.1) = (ps.map (·.1)).filter (keepPoint db.seen.live.cur.start_ db.seen.live.cur.end_) := by
      unfold plKept
      rw [List.filter_map]; rfl
    have h1 := plInsertEach_done B db.cur ls (plKept db.cur ps) fun p hp => hos p (List.mem_filter.mp hp).1
    rw [hk] at h1
    have e : (plWrite db.cur ls ps).1 = (writeTimePoints (sledComp B) db.seen.live.cur ls (ps.map (·.1))).1 ∧
        plChunk (plWrite db.cur ls ps).2 = (writeTimePoints (sledComp B) db.seen.live.cur ls (ps.map (·.1))).2 := by
      unfold plWrite writeTimePoints
      change insertEach (sledComp B) db.seen.live.cur ls _ = _ at h1
      rw [h1]
      rcases plInsertEach db.cur ls (plKept db.cur ps) with ⟨(_ | n) | e | _, y⟩ <;> exact ⟨rfl, rfl⟩
    refine ⟨e.1, ?_⟩
    simp only [PlNode.seen, Node.step, PlDb.seen]
    rw [e.2]; rfl
  · intro db r f
    have hsl : db.slots.map PlSlot.seen = db.seen.slots := by
      unfold PlDb.slots FaultyDb.slots
      rw [List.map_append]; rfl
    rcases f with ⟨_ | _, _ | _, _ | _, _ | _, _ | _⟩ <;>
      simp [PlDb.swap, FaultyDb.swap, makeChunk, writeConfig, PlNode.seen, Node.step, PlDb.seen, hsl, Slot.settled, PlSlot.seen, Volatile.settled] <;>
      first
        | done
        | (unfold Chunk.close plChunk Chunk.withStore Chunk.split; simp only; split <;> simp_all [PlDb.seen, plChunk, Chunk.withStore])
  · intro db
    unfold PlDb.slots
    simp only [PlNode.seen, Node.step, FaultyDb.slots, PlDb.seen, List.map_append]
    rfl
  · intro ss clock now f
    have hs : ∀ o : Option Slot, (o.toList.map Slot.settled).map PlSlot.seen = o.toList := by
      intro o; cases o <;> rfl
    unfold PlNode.open
    simp only [PlNode.seen, Node.step, Node.open, id]
    rcases readExistingChunks base clock (ss.map PlSlot.seen) with _ | cs
    · rfl
    · have hcs : (cs.map Chunk.split).map (fun st => st.1.withStore st.2) = cs := by
        rw [List.map_map]
        conv_rhs => rw [← List.map_id cs]
        rfl
      rcases hm : makeChunk f now (now + size) with ⟨c | e | _, o⟩
      · rcases o with _ | o
        · simp
        · simp only [PlDb.seen, hcs]
          rfl
      · simp only [List.map_append, hs]
      · simp only [List.map_append, hs]
  · intro db H q a b
    have hv : ∀ st : Chunk Unit × SledStores, (⟨fun q a b => slFaultyQuery B st q a b [], st.1.isWithRange⟩ : View) = (st.1.withStore st.2).view (sledComp B) := by
      intro st
      unfold Chunk.view
      congr 1
      funext q a b
      exact (C77_query B st.1 st.2 q a b []).2.2 (by simp)
    unfold PlDb.query FaultyDb.query LiveDb.query
    simp only [List.getD_nil, hv]
    congr 1
    rw [List.mapIdx_eq_zipIdx_map]
    simp only [PlDb.seen, List.map_map]
    have : ∀ (l : List (Chunk Unit × SledStores)) (k : Nat), (l.zipIdx k).map (fun x => (x.1.1.withStore x.1.2).view (sledComp B)) =
        l.map fun st => (st.1.withStore st.2).view (sledComp B) := by
      intro l
      induction l with
      | nil => intro k; rfl
      | cons x l ih => intro k; simp [ih]
    exact this _ _

/-! ### A life -/

/-- The labels. -/
def exA : Labels := [lbl "a" "1"]

/-- The first start. -/
def exPl0 : PlDb := ⟨[], plNew 100#64 1100#64, .complete, []⟩
/-- A write during which storing the entry for the label set fails, which is not noticed. -/
def exBad : List (TimePoint × List OpOutcome) := [(⟨200#64, 5#64⟩, [.done, .done, .failed])]
/-- A write without failures. -/
def exFine : List (TimePoint × List OpOutcome) := [(⟨300#64, 6#64⟩, [])]
/-- After the first write. -/
def exPl1 : PlDb := { exPl0 with cur := (plWrite exPl0.cur exA exBad).2 }
/-- After the second write. -/
def exPl2 : PlDb := { exPl1 with cur := (plWrite exPl1.cur exA exFine).2 }
/-- After a tick. -/
def exPl3 : PlDb := (exPl2.swap 1000#64 1101#64 .none).2

theorem exLived0 : Lived [100#8] 1000#64 [] (.up exPl0) :=
  Lived.start (ss' := []) .empty (List.Perm.refl _) (fun _ => 0#64) 100#64 .none (by simp)
theorem exLived1 : Lived [100#8] 1000#64 [(exA, ⟨200#64, 5#64⟩)] (.up exPl1) := exLived0.write exA exBad
theorem exLived2 : Lived [100#8] 1000#64 [(exA, ⟨200#64, 5#64⟩), (exA, ⟨300#64, 6#64⟩)] (.up exPl2) := exLived1.write exA exFine
theorem exLived3 : Lived [100#8] 1000#64 [(exA, ⟨200#64, 5#64⟩), (exA, ⟨300#64, 6#64⟩)] (.up exPl3) :=
  exLived2.tick 1100#64 .none (by
    intro s hs
    have : s.name = encodeChunkDir 100#64 1100#64 := by
      rcases List.mem_append.mp hs with hs | hs
      · cases hs
      · rw [List.mem_singleton] at hs; rw [hs]; rfl
    rw [this]; decide +kernel)

/-- C80 fails: both writes report success; the query finds only the second point. -/
theorem C80_violated_hidden : Lived [100#8] 1000#64 [(exA, ⟨200#64, 5#64⟩), (exA, ⟨300#64, 6#64⟩)] (.up exPl2) ∧
    (plWrite exPl0.cur exA exBad).1 = .ok () ∧ (plWrite exPl1.cur exA exFine).1 = .ok () ∧
    exPl2.query stdBinSearch idealHash exA 0#64 2000#64 [] [] = .ok [(exA, [⟨300#64, 6#64⟩])] :=
  ⟨exLived2, by decide +kernel, by decide +kernel, by decide +kernel⟩

/-- C80 fails: once the chunk is no longer the current one both points are there, but not in the order of time. -/
theorem C80_violated_order : Lived [100#8] 1000#64 [(exA, ⟨200#64, 5#64⟩), (exA, ⟨300#64, 6#64⟩)] (.up exPl3) ∧
    exPl3.query stdBinSearch idealHash exA 0#64 2000#64 [] [] = .ok [(exA, [⟨300#64, 6#64⟩, ⟨200#64, 5#64⟩])] :=
  ⟨exLived3, by decide +kernel⟩

/-! The hypotheses of the theorems are met: the power is lost, which brings back the index and the first point, the database is started
again, and more is written. -/

/-- What is left of the first directory. -/
def exLeft : PlSlot := ⟨encodeChunkDir 100#64 1100#64, .complete, .settled ⟨exPl2.cur.2.now.idx, exPl1.cur.2.now.ser⟩⟩

theorem exWritten_wf : ∀ x ∈ [(exA, (⟨200#64, 5#64⟩ : TimePoint)), (exA, ⟨300#64, 6#64⟩)], WFSet x.1 := by
  intro x hx
  simp only [List.mem_cons, List.not_mem_nil, or_false] at hx
  rcases hx with rfl | rfl <;> exact wfSet_of (by decide +kernel)

theorem exLeft_rests : exPl2.cur.2.Rests exLeft.trees := by
  have hleft : exPl2.cur.2.Leaves ⟨exPl2.cur.2.now.idx, exPl1.cur.2.now.ser⟩ := by
    intro t k
    cases t with
    | idx => exact ⟨_, (lived_ok exLived2 exWritten_wf (by decide)).1.1 .idx, rfl⟩
    | ser =>
      refine ⟨_, ?_, rfl⟩
      have h1 := (lived_ok exLived1 (fun x hx => exWritten_wf x (by rw [List.mem_singleton] at hx; simp [hx])) (by decide)).1.1 .ser
      show exPl1.cur.2.now.ser ∈ ((slInsertP exPl1.cur.1 exA ⟨300#64, 6#64⟩).execV [] exPl1.cur.2).2.held .ser
      rcases slInsertP_held exPl1.cur.1 exA ⟨300#64, 6#64⟩ [] exPl1.cur.2 with e | e
      · rw [e]; exact h1
      · rw [e]; exact List.mem_append_left _ h1
  refine ⟨Volatile.settled_leaves _, fun s hs t k => ?_⟩
  obtain ⟨kv, hkv, e⟩ := hs t k
  have hkv : kv = (⟨exPl2.cur.2.now.idx, exPl1.cur.2.now.ser⟩ : SledStores).tree t := by simpa [exLeft, Volatile.settled] using hkv
  obtain ⟨kv', h1, h2⟩ := hleft t k
  exact ⟨kv', h1, by rw [e, hkv]; exact h2⟩

/-- After the next start. -/
def exPl4 : PlDb := ⟨[exLeft], plNew 5000#64 6000#64, .complete, [(plReopen 100#64 1100#64, exLeft.trees.now)]⟩

theorem exLived4 : Lived [100#8] 1000#64 [(exA, ⟨200#64, 5#64⟩), (exA, ⟨300#64, 6#64⟩)] (.up exPl4) := by
  have h1 := exLived3.stop.lose (ss' := [exLeft]) (by
    intro s hs
    rw [List.mem_singleton] at hs
    subst hs
    exact ⟨⟨encodeChunkDir 100#64 1100#64, .complete, exPl2.cur.2⟩, by
      show _ ∈ [_] ++ [_]
      exact List.mem_append_left _ (List.mem_singleton.mpr rfl), rfl, exLeft_rests⟩)
  have h2 := h1.start (List.Perm.refl _) (fun _ => 5000#64) 5000#64 .none (by
    intro s hs
    rw [List.mem_singleton] at hs
    rw [hs]; decide +kernel)
  have e : PlNode.open [100#8] 1000#64 (fun _ => 5000#64) 5000#64 .none [exLeft] = .up exPl4 := by
    unfold PlNode.open
    have : readExistingChunks [100#8] (fun _ => 5000#64) ([exLeft].map PlSlot.seen) = some [(Chunk.close (Chunk.new exLeft.trees.now 100#64 1100#64)).2] := by
      have hr : exLeft.seen.reopen [100#8] (fun _ => 5000#64) = some (some (Chunk.close (Chunk.new exLeft.trees.now 100#64 1100#64)).2) := by
        unfold Slot.reopen
        have : readEntry [100#8] ⟨exLeft.seen.name, decide (exLeft.seen.config = .complete), some true, some true, 5000#64⟩ = .chunk 100#64 1100#64 := by
          decide +kernel
        rw [this]; rfl
      unfold readExistingChunks
      simp only [List.map_cons, List.map_nil, readChunks, hr]
      rfl
    rw [this]; rfl
  rw [e] at h2; exact h2

/-- The next writes. -/
def exMore : List (TimePoint × List OpOutcome) := [(⟨5500#64, 7#64⟩, []), (⟨5600#64, 8#64⟩, [.failed])]
/-- After them. -/
def exPl5 : PlDb := { exPl4 with cur := (plWrite exPl4.cur exA exMore).2 }

theorem exLived5 : Lived [100#8] 1000#64 [(exA, ⟨200#64, 5#64⟩), (exA, ⟨300#64, 6#64⟩), (exA, ⟨5500#64, 7#64⟩), (exA, ⟨5600#64, 8#64⟩)] (.up exPl5) :=
  exLived4.write exA exMore

example : exPl5.query stdBinSearch idealHash exA 0#64 9000#64 [] [] = .ok [(exA, [⟨5500#64, 7#64⟩])] := by decide +kernel
example : exPl5.query stdBinSearch idealHash exA 0#64 9000#64 [.failed] [] = .ok [] := by decide +kernel

example (os : List OpOutcome) (oss : List (List OpOutcome)) : ∃ r, exPl5.query stdBinSearch idealHash exA 0#64 9000#64 os oss = .ok r ∧ (r.map (·.1)).Nodup := by
  obtain ⟨r, h1, h2, -⟩ := C80_partial_sound stdBinSearch idealHash _ _ _ _ exLived5 (by
    intro x hx
    simp only [List.mem_cons, List.not_mem_nil, or_false] at hx
    rcases hx with rfl | rfl | rfl | rfl <;> exact wfSet_of (by decide +kernel)) (by decide)
    (incr_pointsFor (by unfold SIncr; decide +kernel)) (idealHash_good _) exA
    (by intro l hl; simp only [exA, List.mem_singleton] at hl; subst hl; exact wfLabel_of (by decide +kernel)) 0#64 9000#64 (by decide) os oss
  exact ⟨r, h1, h2⟩

example : (plWrite exPl4.cur exA exMore).1 = .err .internal := by decide +kernel

end Verif
