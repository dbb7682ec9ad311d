import Verif.Lemmas.SwapFault
/-! Property C76: failing operations on the base directory when the next chunk is created. -/
namespace Verif
open List

/-- The directories a creation with failures leaves are the ones of the creation without failures stopped after some steps
(`chunkDirProc`): no failure adds a state of the disk that a crash could not produce. -/
theorem makeChunk_disk (f : DirFaults) (size start_ : U64) {d : Disk} (hf : FreshWindow d size start_) :
    ∃ n, (swapDiskProc size start_).upTo n d = { d with slots := d.slots ++ (makeChunk f start_ (start_ + size)).2.toList } := by
  have h : (makeChunk f start_ (start_ + size)).2 = leftover f start_ (start_ + size) := by
    rcases f with ⟨_ | _, _ | _, _ | _, _ | _, _ | _⟩ <;> rfl
  rw [h]
  unfold swapDiskProc leftover DirFaults.leaves
  split
  · exact ⟨0, by rw [chunkDir_upTo hf]; simp⟩
  · split
    · exact ⟨1, by rw [chunkDir_upTo hf]; rfl⟩
    · split
      · exact ⟨2, by rw [chunkDir_upTo hf]; rfl⟩
      · exact ⟨3, by rw [chunkDir_upTo hf]; rfl⟩

/-- A swap succeeds unless one of the operations whose result is looked at fails; otherwise the chunks in memory, and with them all
answers, stay as they were. -/
theorem C76_failed_swap (B : BinSearch) (db : FaultyDb) (size start_ : U64) (f : DirFaults) :
    ((db.swap size start_ f).1 = .ok () ↔ f.stops = false) ∧
    ((db.swap size start_ f).1 ≠ .ok () → (db.swap size start_ f).2.live.cur = db.live.cur ∧ (db.swap size start_ f).2.live.secondary = db.live.secondary ∧
      ∀ H q a b, (db.swap size start_ f).2.query B H q a b = db.query B H q a b) := by
  rcases hs : f.stops with _ | _
  · have : (db.swap size start_ f).1 = .ok () := by unfold FaultyDb.swap; rw [makeChunk_ok hs]
    rw [this]; simp
  · obtain ⟨e, he⟩ := makeChunk_stops hs start_ (start_ + size)
    have : db.swap size start_ f = (.err e, ⟨{ db.live with old := db.live.old ++ (leftover f start_ (start_ + size)).toList }, db.config⟩) := by
      unfold FaultyDb.swap; rw [he]
    rw [this]
    refine ⟨by simp, fun _ => ⟨rfl, rfl, fun H q a b => rfl⟩⟩

/-- A failing `File::create`, as an example. -/
def exNoCreate : DirFaults := ⟨false, true, false, false, false⟩
/-- The contents of `metadata.json` cannot be written (disk full). -/
def exFull : DirFaults := ⟨false, false, true, false, false⟩
/-- The tree for the points cannot be opened. -/
def exNoTree : DirFaults := ⟨false, false, false, true, false⟩

example : ((FaultyDb.mk (LiveDb.fresh 1000#64 100#64) .complete).swap 1000#64 1101#64 exNoCreate).1 ≠ .ok () ∧
    ((FaultyDb.mk (LiveDb.fresh 1000#64 100#64) .complete).swap 1000#64 1101#64 exFull).1 = .ok () := by
  refine ⟨?_, rfl⟩
  intro h
  cases h

/-- Every history of writes, ticks, stops and starts with any failures: the database runs exactly if the specification says so (a tick
that fails did not happen, a start that fails did not happen, no start succeeds in a damaged directory), and while it runs every query
merges exactly what was written to the chunks of the specification. -/
theorem C76_history_partial (B : BinSearch) (H : Hash) (base : Str) (hb : ∀ b ∈ base, isCont b = false) (size t0 : U64) (es : List NodeEvent)
    (he : FairLife size (Ledger.fresh size t0) es) (hlen : pointsIn es < 2 ^ 64 - 1) :
    match ((Ledger.fresh size t0).run size es).status with
    | .stopped _ => ∃ ss, (Node.fresh size t0).run B base size es = .down ss
    | .running g => ∃ db, (Node.fresh size t0).run B base size es = .up db ∧
      ∀ (q : Labels) (a b : U64), (∀ l ∈ q, WFLabel l) → a.toNat ≤ b.toNat → (∀ c ∈ g.all, ∀ ls, SIncr (pointsFor c.h ls)) →
        (H.Good fun ls => ∃ c ∈ g.all, ∃ s ∈ c.answer q a b, s.labels = ls) →
        ∃ r, db.query B H q a b = .ok r ∧ IsMerge (g.all.map fun c => c.answer q a b) r := by
  have h := (freshNode_rep B size t0).run hb es he (by simpa [Ledger.fresh, Gens.fresh, Gen.new, Status.load] using hlen)
  have hwf := Ledger.run_wf size es _ he (by simp [Ledger.fresh, Status.all, Gens.all, Gens.fresh, Gen.new])
  have hln := Ledger.run_length size es (Ledger.fresh size t0) 0 (by simp [Ledger.fresh, Status.all, Gens.all, Gens.fresh, Gen.new])
  revert h hwf hln
  generalize (Node.fresh size t0).run B base size es = n
  generalize (Ledger.fresh size t0).run size es = l
  intro h hwf hln
  obtain ⟨st, latest, dam⟩ := l
  rcases n with db | ss <;> rcases st with g | gs
  · refine ⟨db, rfl, fun q a b hq hab hincr hg => ?_⟩
    exact h.1.query H (fun c hc => by have := hln c hc; omega) hwf hincr hq hab hg
  · exact h.elim
  · exact h.elim
  · exact ⟨ss, rfl⟩

/-! ### Damage -/

theorem damaged_stays (size : U64) (es : List NodeEvent) (l : Ledger) (h : l.damaged = true) : (l.run size es).damaged = true := by
  induction es generalizing l with
  | nil => exact h
  | cons e es ih =>
    refine ih _ ?_
    obtain ⟨st, latest, dam⟩ := l
    simp only [] at h
    subst h
    rcases st with g | gs <;> cases e <;> rfl

theorem damaged_stopped (size : U64) (es : List NodeEvent) (l : Ledger) (h : l.damaged = true) {gs : List Gen} (hs : l.status = .stopped gs) :
    (l.run size es).status = .stopped gs := by
  induction es generalizing l with
  | nil => exact hs
  | cons e es ih =>
    have : l.step size e = l := by
      obtain ⟨st, latest, dam⟩ := l
      simp only [] at h hs
      subst h hs
      cases e <;> rfl
    have ih := ih l h hs
    show ((l.step size e).run size es).status = _
    rw [this]; exact ih

theorem Ledger.run_append (size : U64) (l : Ledger) (es fs : List NodeEvent) : l.run size (es ++ fs) = (l.run size es).run size fs := by
  unfold Ledger.run; rw [List.foldl_append]

theorem Node.run_append (B : BinSearch) (base : Str) (size : U64) (n : Node) (es fs : List NodeEvent) :
    n.run B base size (es ++ fs) = (n.run B base size es).run B base size fs := by
  unfold Node.run; rw [List.foldl_append]

theorem FairLife.append {size : U64} {es fs : List NodeEvent} {l : Ledger} (h : FairLife size l (es ++ fs)) :
    FairLife size l es ∧ FairLife size (l.run size es) fs := by
  induction es generalizing l with
  | nil => exact ⟨trivial, h⟩
  | cons e es ih => exact ⟨⟨h.1, (ih h.2).1⟩, (ih h.2).2⟩

/-- C76 fails: one tick, while the database runs, at which the directory of the new chunk is created but its `metadata.json` is not
created or its contents are not written, and after the process has ended it can never be started again, whatever happens before and
after. In the second case the swap even reports success. -/
theorem C76_violated (B : BinSearch) (base : Str) (hb : ∀ b ∈ base, isCont b = false) (size t0 : U64) (es ms fs : List NodeEvent) (r : U64) (f : DirFaults)
    (hf : f.damages = true) (he : FairLife size (Ledger.fresh size t0) (es ++ (.tick r f :: ms ++ .stop :: fs)))
    (hlen : pointsIn (es ++ (.tick r f :: ms ++ .stop :: fs)) < 2 ^ 64 - 1) {db : FaultyDb} (hup : (Node.fresh size t0).run B base size es = .up db) :
    ∃ ss, (Node.fresh size t0).run B base size (es ++ (.tick r f :: ms ++ .stop :: fs)) = .down ss := by
  have hp : ∀ es fs : List NodeEvent, pointsIn (es ++ fs) = pointsIn es + pointsIn fs := by
    intro es fs
    induction es with
    | nil => simp [pointsIn]
    | cons e es ih => rw [List.cons_append, pointsIn_cons, ih, pointsIn_cons e es]; omega
  have h := C76_history_partial B idealHash base hb size t0 _ he hlen
  have h0 := C76_history_partial B idealHash base hb size t0 es he.append.1 (by rw [hp] at hlen; omega)
  rw [hup] at h0
  rw [Ledger.run_append] at h
  revert h h0
  generalize (Ledger.fresh size t0).run size es = l
  intro h h0
  obtain ⟨st, latest, dam⟩ := l
  rcases st with g | gs
  · have hd : ∀ l' : Ledger, l'.damaged = true → ∃ gs, (l'.run size (.stop :: fs)).status = .stopped gs := by
      intro l' hl'
      show ∃ gs, ((l'.step size .stop).run size fs).status = .stopped gs
      obtain ⟨st', latest', dam'⟩ := l'
      simp only [] at hl'
      subst hl'
      rcases st' with g' | gs'
      · exact ⟨_, damaged_stopped size fs _ rfl rfl⟩
      · exact ⟨_, damaged_stopped size fs _ rfl rfl⟩
    have h1 : ((Ledger.mk (.running g) latest dam).run size (.tick r f :: ms)).damaged = true := by
      refine damaged_stays size ms _ ?_
      show (dam || f.damages) = true
      rw [hf]; simp
    obtain ⟨gs, h2⟩ := hd _ h1
    rw [Ledger.run_append, h2] at h
    exact h
  · obtain ⟨ss, hss⟩ := h0
    cases hss

/-- Before: the point is found; then the disk is full for a moment at a tick, the swap reports success, another point is written and
found, the process is stopped, and no start succeeds any more. -/
def exBefore : List NodeEvent := [.write [lbl "a" "1"] [⟨300#64, 4#64⟩]]

def exMeanwhile : List NodeEvent := [.write [lbl "a" "1"] [⟨1200#64, 5#64⟩]]

def exLater : List NodeEvent := [.start id (fun _ => 1500#64) 1500#64 .none, .start List.reverse (fun _ => 1600#64) 1600#64 .none]

theorem exDamage_fair (f : DirFaults) (hf : f.damages = true) (hs : f.stops = false) :
    FairLife 1000#64 (Ledger.fresh 1000#64 100#64) (exBefore ++ (.tick 1100#64 f :: exMeanwhile ++ .stop :: exLater)) := by
  refine ⟨exWf, ⟨by decide +kernel, by decide⟩, exWf, trivial, ?_⟩
  have hd : (false || f.damages) = true := by rw [hf]; rfl
  simp only [List.foldl_nil, Ledger.step, Ledger.fresh, hs, hd]
  refine ⟨⟨fun _ => .refl _, by decide, by decide⟩, ⟨fun _ => List.reverse_perm _, by decide, by decide⟩, trivial⟩

example (B : BinSearch) : ∃ ss, (Node.fresh 1000#64 100#64).run B (ascii "/d".toList) 1000#64
    (exBefore ++ (.tick 1100#64 exFull :: exMeanwhile ++ .stop :: exLater)) = .down ss :=
  C76_violated B _ (by decide) 1000#64 100#64 exBefore exMeanwhile exLater 1100#64 exFull rfl (exDamage_fair exFull rfl rfl) (by decide) rfl

/-- Nothing is damaged by harmless failures. -/
theorem harmless_undamaged (size : U64) (es : List NodeEvent) (l : Ledger) (h : l.damaged = false) (he : Harmless es) : (l.run size es).damaged = false := by
  induction es generalizing l with
  | nil => exact h
  | cons e es ih =>
    obtain ⟨st, latest, dam⟩ := l
    simp only [] at h
    subst h
    cases e with
    | write ls ps => exact ih _ (by rcases st with g | gs <;> rfl) he
    | tick r f =>
      refine ih _ ?_ he.2
      rcases st with g | gs
      · show (false || f.damages) = false
        rw [he.1]; rfl
      · rfl
    | stop => exact ih _ (by rcases st with g | gs <;> rfl) he
    | start o k n f =>
      refine ih _ ?_ he.2
      rcases st with g | gs
      · rfl
      · exact he.1

theorem pointsIn_append (es fs : List NodeEvent) : pointsIn (es ++ fs) = pointsIn es + pointsIn fs := by
  induction es with
  | nil => simp [pointsIn]
  | cons e es ih => rw [List.cons_append, pointsIn_cons, ih, pointsIn_cons e es]; omega

/-- What holds of C76: if no failure leaves a half-made directory, then after the process has ended every start without failures
succeeds, with everything that was stored and nothing else: the directories left by failed ticks and starts are not noticed. -/
theorem C76_harmless_partial (B : BinSearch) (H : Hash) (base : Str) (hb : ∀ b ∈ base, isCont b = false) (size t0 : U64) (es : List NodeEvent)
    (order : List Slot → List Slot) (clock : Str → U64) (now : U64) (f : DirFaults) (hf : f.stops = false) (hh : Harmless es)
    (he : FairLife size (Ledger.fresh size t0) (es ++ [.start order clock now f])) (hlen : pointsIn es < 2 ^ 64 - 1)
    {gs : List Gen} (hgs : ((Ledger.fresh size t0).run size es).status = .stopped gs) :
    ∃ db, (Node.fresh size t0).run B base size (es ++ [.start order clock now f]) = .up db ∧
      ∀ (q : Labels) (a b : U64), (∀ l ∈ q, WFLabel l) → a.toNat ≤ b.toNat → (∀ c ∈ gs, ∀ ls, SIncr (pointsFor c.h ls)) →
        (H.Good fun ls => ∃ c ∈ gs, ∃ s ∈ (c.reopened (clock c.name)).answer q a b, s.labels = ls) →
        ∃ r, db.query B H q a b = .ok r ∧ IsMerge (gs.map fun c => (c.reopened (clock c.name)).answer q a b) r := by
  have h := C76_history_partial B H base hb size t0 _ he (by rw [pointsIn_append]; simpa [pointsIn] using hlen)
  have hd := harmless_undamaged size es (Ledger.fresh size t0) rfl hh
  rw [Ledger.run_append] at h
  revert h hd hgs
  generalize (Ledger.fresh size t0).run size es = l
  intro hgs h hd
  have hstep : (l.run size [.start order clock now f]).status = .running ⟨gs.map fun c => c.reopened (clock c.name), Gen.new now size⟩ := by
    obtain ⟨st, latest, dam⟩ := l
    simp only [] at hgs hd
    subst hgs hd
    show (if f.stops then Status.stopped gs else _) = _
    rw [hf]; rfl
  rw [hstep] at h
  obtain ⟨db, h1, h2⟩ := h
  have hall : ∀ c, c ∈ (Gens.mk (gs.map fun c => c.reopened (clock c.name)) (Gen.new now size)).all → (∃ c' ∈ gs, c = c'.reopened (clock c'.name)) ∨ c.h = [] := by
    intro c hc
    rcases List.mem_append.mp hc with hc | hc
    · obtain ⟨c', hc', rfl⟩ := List.mem_map.mp hc
      exact .inl ⟨c', hc', rfl⟩
    · rw [List.mem_singleton] at hc; subst hc; exact .inr rfl
  refine ⟨db, h1, fun q a b hq hab hincr hg => ?_⟩
  obtain ⟨r, h3, h4⟩ := h2 q a b hq hab (by
      intro c hc ls
      rcases hall c hc with ⟨c', hc', rfl⟩ | hc
      · exact hincr c' hc' ls
      · rw [hc]; simp [pointsFor, SIncr]) (by
      have key : ∀ c ∈ (Gens.mk (gs.map fun c => c.reopened (clock c.name)) (Gen.new now size)).all, ∀ s ∈ c.answer q a b,
          ∃ c ∈ gs, ∃ s0 ∈ (c.reopened (clock c.name)).answer q a b, s0.labels = s.labels := by
        intro c hc s hs
        rcases hall c hc with ⟨c', hc', rfl⟩ | hc
        · exact ⟨c', hc', s, hs, rfl⟩
        · rw [answer_empty hc] at hs; simp at hs
      rintro k k' ⟨c, hc, s, hs, rfl⟩ ⟨c', hc', s', hs', rfl⟩ ht
      exact hg _ _ (key c hc s hs) (key c' hc' s' hs') ht)
  refine ⟨r, h3, ?_⟩
  have hp : Padded (Gens.mk (gs.map fun c => c.reopened (clock c.name)) (Gen.new now size)).all (gs.map fun c => c.reopened (clock c.name)) := by
    have := (Padded.refl (gs.map fun c => c.reopened (clock c.name))).append (.pad (Gen.new now size) rfl .nil)
    rwa [List.append_nil] at this
  have := hp.merge h4
  rwa [List.map_map] at this

-- a tick whose tree cannot be opened, a start that fails in the same way, and a start that works; the point is there
example (B : BinSearch) : ∃ db, (Node.fresh 1000#64 100#64).run B (ascii "/d".toList) 1000#64
    ((exBefore ++ [.tick 1100#64 exNoTree, .stop, .start id (fun _ => 1400#64) 1400#64 exNoTree]) ++ [.start id (fun _ => 1500#64) 1500#64 .none]) = .up db ∧
    ∃ r, db.query B idealHash [lbl "a" "1"] 200#64 950#64 = .ok r ∧ IsMerge [[⟨1#64, [lbl "a" "1"], [⟨300#64, 4#64⟩]⟩]] r := by
  have hfair : FairLife 1000#64 (Ledger.fresh 1000#64 100#64)
      ((exBefore ++ [.tick 1100#64 exNoTree, .stop, .start id (fun _ => 1400#64) 1400#64 exNoTree]) ++ [.start id (fun _ => 1500#64) 1500#64 .none]) :=
    ⟨exWf, ⟨by decide +kernel, by decide⟩, trivial, ⟨fun _ => .refl _, by decide, by decide⟩, ⟨fun _ => .refl _, by decide, by decide⟩, trivial⟩
  obtain ⟨db, h1, h2⟩ := C76_harmless_partial B idealHash (ascii "/d".toList) (by decide) 1000#64 100#64
    (exBefore ++ [.tick 1100#64 exNoTree, .stop, .start id (fun _ => 1400#64) 1400#64 exNoTree]) id (fun _ => 1500#64) 1500#64 .none rfl
    (show Harmless [.write _ _, .tick 1100#64 exNoTree, .stop, .start id (fun _ => 1400#64) 1400#64 exNoTree] from ⟨rfl, rfl, trivial⟩) hfair (by decide) (gs := [⟨100#64, 1100#64, 1100#64, [([lbl "a" "1"], ⟨300#64, 4#64⟩)]⟩]) rfl
  refine ⟨db, h1, ?_⟩
  obtain ⟨r, h3, h4⟩ := h2 [lbl "a" "1"] 200#64 950#64 exWf.wf (by decide) (by
    intro c hc ls
    rw [List.mem_singleton] at hc; subst hc
    exact incr_pointsFor (by unfold SIncr; decide +kernel) ls) (idealHash_good _)
  refine ⟨r, h3, ?_⟩
  have : ([⟨100#64, 1100#64, 1100#64, [([lbl "a" "1"], ⟨300#64, 4#64⟩)]⟩] : List Gen).map (fun c => (c.reopened (1500#64)).answer [lbl "a" "1"] 200#64 950#64) =
    [[⟨1#64, [lbl "a" "1"], [⟨300#64, 4#64⟩]⟩]] := by decide +kernel
  rw [← this]; exact h4

/-- C76 fails in another way: after a tick that failed the current chunk is the one whose window is over, so that every write of
points after that window is acknowledged and has no effect. -/
theorem C76_violated_window (B : BinSearch) (base : Str) (hb : ∀ b ∈ base, isCont b = false) (size t0 : U64) (es : List NodeEvent) (r : U64) (f : DirFaults)
    (hs : f.stops = true) (he : FairLife size (Ledger.fresh size t0) (es ++ [.tick r f])) (ls : Labels) (hls : WFSet ls) (ps : List TimePoint)
    (hlen : pointsIn es + ps.length < 2 ^ 64 - 1) {db : FaultyDb} (hup : (Node.fresh size t0).run B base size es = .up db)
    (hps : ∀ p ∈ ps, db.live.cur.end_.toNat < p.ts.toNat) :
    ∃ db', (Node.fresh size t0).run B base size (es ++ [.tick r f]) = .up db' ∧ db'.live.cur = db.live.cur ∧
      (writeTimePoints (sledComp B) db'.live.cur ls ps).1 = .ok () ∧
      (Node.up db').step B base size (.write ls ps) = .up db' := by
  have h := (freshNode_rep B size t0).run hb es he.append.1 (by simpa [Ledger.fresh, Gens.fresh, Gen.new, Status.load] using by omega)
  have hload : ∀ (es : List NodeEvent) (l : Ledger), (l.run size es).status.load ≤ l.status.load + pointsIn es := by
    intro es
    induction es with
    | nil => intro l; exact Nat.le_add_right _ _
    | cons e es ih =>
      intro l
      have h1 := ih (l.step size e)
      have h2 := l.step_load size e
      rw [pointsIn_cons]
      show ((l.step size e).run size es).status.load ≤ _
      omega
  have hl := hload es (Ledger.fresh size t0)
  rw [hup] at h
  rw [Node.run_append, hup]
  revert h hl
  generalize (Ledger.fresh size t0).run size es = l
  intro h hl
  obtain ⟨st, latest, dam⟩ := l
  rcases st with g | gs
  · have hm : MemHolds B db.live g := h.1
    have hl' : g.cur.h.length ≤ pointsIn es := by simpa [Ledger.fresh, Gens.fresh, Gen.new, Status.load] using hl
    have hsw := (C76_failed_swap B db size (r + 1) f)
    have hne : (db.swap size (r + 1) f).1 ≠ .ok () := by rw [Ne, hsw.1, hs]; simp
    have hkept : keptPoints g.cur.lo g.cur.hi ps = [] := by
      unfold keptPoints
      rw [List.filter_eq_nil_iff]
      intro p hp
      have := hps p hp
      rw [hm.cur.end_] at this
      simp; omega
    have hw := writeTimePoints_rep hm.cur hls ps (by omega)
    rw [hkept] at hw
    have hw1 : (writeTimePoints (sledComp B) db.live.cur ls ps).2 = db.live.cur := hw.1
    refine ⟨(db.swap size (r + 1) f).2, rfl, (hsw.2 hne).1, ?_, ?_⟩
    · rw [(hsw.2 hne).1]
      refine hw.2.1 fun p hp hbd => ?_
      have := hps p hp
      rw [hm.cur.end_] at this
      obtain ⟨h1 | h1, -, h2⟩ := hbd <;> rw [h1] at this <;> omega
    · show Node.up ⟨{ (db.swap size (r + 1) f).2.live with cur := (writeTimePoints (sledComp B) (db.swap size (r + 1) f).2.live.cur ls ps).2 }, _⟩ = _
      rw [(hsw.2 hne).1, hw1, ← (hsw.2 hne).1]
  · exact h.elim

-- the tick at 1100 fails, the point at 1200 is acknowledged and lost
example (B : BinSearch) : ∃ db', (Node.fresh 1000#64 100#64).run B (ascii "/d".toList) 1000#64 (exBefore ++ [.tick 1100#64 exNoTree]) = .up db' ∧
      (writeTimePoints (sledComp B) db'.live.cur [lbl "a" "1"] [⟨1200#64, 5#64⟩]).1 = .ok () ∧
      (Node.up db').step B (ascii "/d".toList) 1000#64 (.write [lbl "a" "1"] [⟨1200#64, 5#64⟩]) = .up db' := by
  obtain ⟨db', h1, -, h2, h3⟩ := C76_violated_window B (ascii "/d".toList) (by decide) 1000#64 100#64 exBefore 1100#64 exNoTree rfl
    ⟨exWf, ⟨by decide +kernel, by decide⟩, trivial⟩ _ exWf [⟨1200#64, 5#64⟩] (by decide) rfl (by
      intro p hp
      rw [List.mem_singleton] at hp; subst hp
      have := (writeTimePoints_rep (R := sledRefines B) (newSled_rep B 100#64 1100#64) exWf [⟨300#64, 4#64⟩] (by decide)).1
      have h2 := batch_rep (R := sledRefines B) (newSled_rep B 100#64 1100#64) exWf (keptPoints 100#64 1100#64 [⟨300#64, 4#64⟩]) (by decide)
      show (writeTimePoints (sledComp B) (Chunk.new noStores 100#64 1100#64) [lbl "a" "1"] [⟨300#64, 4#64⟩]).2.end_.toNat < _
      rw [show (Chunk.new noStores 100#64 1100#64) = newSled 100#64 1100#64 from rfl, this, h2.end_]
      decide)
  exact ⟨db', h1, h2, h3⟩

end Verif
