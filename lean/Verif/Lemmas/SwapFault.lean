import Verif.Props.Life
import Verif.Spec.SwapFault
namespace Verif
open List

/-- `D` is `gs` with additional empty chunks. -/
inductive Padded : List Gen → List Gen → Prop where
  | nil : Padded [] []
  | keep (g : Gen) {D gs : List Gen} : Padded D gs → Padded (g :: D) (g :: gs)
  | pad (g : Gen) (hg : g.h = []) {D gs : List Gen} : Padded D gs → Padded (g :: D) gs

theorem Padded.refl : ∀ gs, Padded gs gs
  | [] => .nil
  | g :: gs => .keep g (Padded.refl gs)

theorem Padded.append {D gs D' gs' : List Gen} (h : Padded D gs) (h' : Padded D' gs') : Padded (D ++ D') (gs ++ gs') := by
  induction h with
  | nil => exact h'
  | keep g _ ih => exact .keep g ih
  | pad g hg _ ih => exact .pad g hg ih

theorem Padded.reopened {D gs : List Gen} (h : Padded D gs) (clock : Str → U64) :
    Padded (D.map fun g => g.reopened (clock g.name)) (gs.map fun g => g.reopened (clock g.name)) := by
  induction h with
  | nil => exact .nil
  | keep g _ ih => exact .keep _ ih
  | pad g hg _ ih => exact .pad (g.reopened (clock g.name)) hg ih

theorem Padded.mem {D gs : List Gen} (h : Padded D gs) : ∀ d ∈ D, d ∈ gs ∨ d.h = [] := by
  induction h with
  | nil => simp
  | keep g _ ih =>
    intro d hd
    rcases List.mem_cons.mp hd with rfl | hd
    · simp
    · rcases ih d hd with h | h
      · simp [h]
      · exact .inr h
  | pad g hg _ ih =>
    intro d hd
    rcases List.mem_cons.mp hd with rfl | hd
    · exact .inr hg
    · exact ih d hd

theorem answer_empty {g : Gen} (hg : g.h = []) (q : Labels) (a b : U64) : g.answer q a b = [] := by
  unfold Gen.answer Desc.answer
  have : matched sledAccepts g.h q = [] := by
    unfold matched
    rw [if_pos]
    unfold knownLabels
    rw [List.filter_eq_nil_iff]
    intro l _
    simp [numbered, labelSets, hg]
  simp only [this]
  split <;> rfl

theorem Padded.seriesWith {D gs : List Gen} (h : Padded D gs) (q : Labels) (a b : U64) (ls : Labels) :
    seriesWith (D.map fun c => c.answer q a b) ls = Verif.seriesWith (gs.map fun c => c.answer q a b) ls := by
  induction h with
  | nil => rfl
  | keep g _ ih =>
    rw [List.map_cons, List.map_cons, show ∀ (x : List Series) xs, (x :: xs) = [x] ++ xs from fun _ _ => rfl, seriesWith_append, ih, ← seriesWith_append]
    rfl
  | pad g hg _ ih =>
    rw [List.map_cons, answer_empty hg, show ∀ (x : List Series) xs, (x :: xs) = [x] ++ xs from fun _ _ => rfl, seriesWith_append, ih]
    simp [Verif.seriesWith]

theorem Padded.merge {D gs : List Gen} (h : Padded D gs) {q : Labels} {a b : U64} {r : List (Labels × List TimePoint)}
    (hm : IsMerge (D.map fun c => c.answer q a b) r) : IsMerge (gs.map fun c => c.answer q a b) r := by
  refine ⟨hm.once, fun ls ps => ?_⟩
  rw [hm.entries, h.seriesWith q a b ls]
  unfold mergedPoints
  rw [h.seriesWith q a b ls]

/-! ### The creation of a chunk -/

/-- The state of `metadata.json` afterwards. -/
def DirFaults.leaves (f : DirFaults) : Option ConfigFile :=
  if f.mkdir then Option.none else if f.create then some .absent else if f.contents then some .unfinished else some .complete

/-- The directory left behind. -/
def leftover (f : DirFaults) (lo hi : U64) : Option Slot := f.leaves.map fun c => ⟨encodeChunkDir lo hi, c, noStores⟩

theorem makeChunk_stops {f : DirFaults} (h : f.stops = true) (lo hi : U64) : ∃ e, makeChunk f lo hi = (.err e, leftover f lo hi) := by
  rcases f with ⟨_ | _, _ | _, _ | _, _ | _, _ | _⟩ <;> first | exact ⟨_, rfl⟩ | cases h

theorem makeChunk_ok {f : DirFaults} (h : f.stops = false) (lo hi : U64) :
    makeChunk f lo hi = (.ok (Chunk.new noStores lo hi), some ⟨encodeChunkDir lo hi, if f.contents then .unfinished else .complete, noStores⟩) := by
  rcases f with ⟨_ | _, _ | _, _ | _, _ | _, _ | _⟩ <;> first | rfl | cases h

theorem leftover_damages {f : DirFaults} (h : f.damages = true) (lo hi : U64) :
    ∃ c, c ≠ .complete ∧ leftover f lo hi = some ⟨encodeChunkDir lo hi, c, noStores⟩ := by
  rcases f with ⟨_ | _, _ | _, _ | _, _ | _, _ | _⟩ <;> first | exact ⟨.absent, by decide, rfl⟩ | exact ⟨.unfinished, by decide, rfl⟩ | cases h

theorem leftover_harmless {f : DirFaults} (h : f.damages = false) (lo hi : U64) :
    leftover f lo hi = Option.none ∨ leftover f lo hi = some ⟨encodeChunkDir lo hi, .complete, noStores⟩ := by
  rcases f with ⟨_ | _, _ | _, _ | _, _ | _, _ | _⟩ <;> first | exact .inl rfl | exact .inr rfl | cases h

theorem damages_of_ok {f : DirFaults} (h : f.stops = false) : f.damages = f.contents := by
  rcases f with ⟨_ | _, _ | _, _ | _, _ | _, _ | _⟩ <;> first | rfl | cases h

/-! ### The invariant -/

/-- The running database shows these chunks, possibly with additional empty ones. -/
structure MemHolds (B : BinSearch) (db : LiveDb) (g : Gens) : Prop where
  cur : ChunkRep (sledRefines B) g.cur.lo g.cur.hi g.cur.h db.cur
  shown : g.cur.shown = g.cur.hi
  secondary : ∃ M, Forall₂ (Shows B) db.secondary M ∧ Padded M g.old

/-- The directories hold these chunks, possibly with additional empty ones. -/
def DiskHolds (B : BinSearch) (slots : List Slot) (gs : List Gen) (latest : U64) : Prop :=
  ∃ ss D, ss.Perm slots ∧ Forall₂ (Keeps B) ss D ∧ InOrder D ∧ Padded D gs ∧ ∀ d ∈ D, d.lo.toNat ≤ latest.toNat

/-- The same while the database runs: the additional ones may be older or younger than the current chunk. -/
def DiskUp (B : BinSearch) (db : FaultyDb) (g : Gens) (latest : U64) : Prop :=
  db.config = .complete ∧ ∃ ss D1 D2, ss.Perm db.live.old ∧ Forall₂ (Keeps B) ss (D1 ++ D2) ∧ InOrder (D1 ++ g.cur :: D2) ∧ Padded D1 g.old ∧
    Padded D2 [] ∧ ∀ d ∈ D1 ++ g.cur :: D2, d.lo.toNat ≤ latest.toNat

/-- A directory is not complete. -/
def Damaged (slots : List Slot) : Prop := ∃ s ∈ slots, s.config ≠ .complete ∧ ∃ lo hi, s.name = encodeChunkDir lo hi

/-- The invariant. -/
def NodeRep (B : BinSearch) (n : Node) (l : Ledger) : Prop :=
  match n, l.status with
  | .up db, .running g => MemHolds B db.live g ∧ if l.damaged then db.config ≠ .complete ∨ Damaged db.live.old else DiskUp B db g l.latest
  | .down ss, .stopped gs => if l.damaged then Damaged ss else DiskHolds B ss gs l.latest
  | _, _ => False

theorem DiskUp.slots {B : BinSearch} {db : FaultyDb} {g : Gens} {latest : U64} (h : DiskUp B db g latest) (hm : MemHolds B db.live g) :
    DiskHolds B db.slots g.all latest := by
  obtain ⟨hc, ss, D1, D2, h1, h2, h3, h4, h5, h6⟩ := h
  obtain ⟨s1, s2, k1, k2, rfl⟩ : ∃ s1 s2, Forall₂ (Keeps B) s1 D1 ∧ Forall₂ (Keeps B) s2 D2 ∧ ss = s1 ++ s2 := by
    have := List.forall₂_iff_zip.mp h2
    refine ⟨ss.take D1.length, ss.drop D1.length, ?_, ?_, (List.take_append_drop _ _).symm⟩
    · have := List.forall₂_take_append ss D1 D2 h2; exact this
    · have := List.forall₂_drop_append ss D1 D2 h2; exact this
  have hk : Keeps B ⟨encodeChunkDir db.live.cur.start_ db.live.cur.end_, db.config, db.live.cur.store⟩ g.cur := by
    refine ⟨?_, hc, hm.cur.rep⟩
    show encodeChunkDir db.live.cur.start_ db.live.cur.end_ = _
    rw [hm.cur.start_, hm.cur.end_]; rfl
  refine ⟨s1 ++ ⟨encodeChunkDir db.live.cur.start_ db.live.cur.end_, db.config, db.live.cur.store⟩ :: s2, D1 ++ g.cur :: D2, ?_,
    List.rel_append k1 (.cons hk k2), h3, ?_, h6⟩
  · refine List.perm_middle.trans ?_
    refine (List.Perm.cons _ h1).trans ?_
    exact (List.perm_append_singleton _ _).symm
  · exact h4.append (.keep _ h5)

theorem inOrder_last {D : List Gen} {g : Gen} (h : InOrder D) (hl : ∀ d ∈ D, d.lo.toNat < g.lo.toNat) : InOrder (D ++ [g]) := by
  unfold InOrder at h ⊢
  rw [List.pairwise_append]
  exact ⟨h, by simp, fun x hx y hy => by simp only [List.mem_singleton] at hy; subst hy; exact hl x hx⟩

theorem keeps_new (B : BinSearch) (lo size : U64) : Keeps B ⟨encodeChunkDir lo (lo + size), .complete, noStores⟩ (Gen.new lo size) :=
  ⟨rfl, rfl, (newSled_rep B lo (lo + size)).rep⟩

/-- An empty chunk directory is added. -/
theorem DiskHolds.add {B : BinSearch} {slots : List Slot} {gs : List Gen} {latest : U64} (h : DiskHolds B slots gs latest) {lo size : U64}
    (hl : latest.toNat < lo.toNat) : DiskHolds B (slots ++ [⟨encodeChunkDir lo (lo + size), .complete, noStores⟩]) gs lo := by
  obtain ⟨ss, D, h1, h2, h3, h4, h5⟩ := h
  refine ⟨ss ++ [⟨encodeChunkDir lo (lo + size), .complete, noStores⟩], D ++ [Gen.new lo size], h1.append_right _,
    List.rel_append h2 (.cons (keeps_new B lo size) .nil), inOrder_last h3 fun d hd => ?_, ?_, ?_⟩
  · have := h5 d hd
    show d.lo.toNat < lo.toNat
    omega
  · have := h4.append (.pad (Gen.new lo size) rfl .nil)
    rwa [List.append_nil] at this
  · intro d hd
    rcases List.mem_append.mp hd with hd | hd
    · have := h5 d hd; omega
    · rw [List.mem_singleton] at hd; subst hd; exact Nat.le_refl _

theorem DiskUp.add {B : BinSearch} {db : FaultyDb} {g : Gens} {latest : U64} (h : DiskUp B db g latest) {lo size : U64} (hl : latest.toNat < lo.toNat) :
    DiskUp B ⟨{ db.live with old := db.live.old ++ [⟨encodeChunkDir lo (lo + size), .complete, noStores⟩] }, db.config⟩ g lo := by
  obtain ⟨hc, ss, D1, D2, h1, h2, h3, h4, h5, h6⟩ := h
  refine ⟨hc, ss ++ [⟨encodeChunkDir lo (lo + size), .complete, noStores⟩], D1, D2 ++ [Gen.new lo size], h1.append_right _, ?_, ?_, h4, ?_, ?_⟩
  · rw [← List.append_assoc]
    exact List.rel_append h2 (.cons (keeps_new B lo size) .nil)
  · rw [← List.cons_append, ← List.append_assoc]
    refine inOrder_last h3 fun d hd => ?_
    have := h6 d hd
    show d.lo.toNat < lo.toNat
    omega
  · exact h5.append (.pad (Gen.new lo size) rfl .nil)
  · intro d hd
    rw [← List.cons_append, ← List.append_assoc] at hd
    rcases List.mem_append.mp hd with hd | hd
    · have := h6 d hd; omega
    · rw [List.mem_singleton] at hd; subst hd; exact Nat.le_refl _

theorem DiskHolds.later {B : BinSearch} {slots : List Slot} {gs : List Gen} {latest lo : U64} (h : DiskHolds B slots gs latest)
    (hl : latest.toNat ≤ lo.toNat) : DiskHolds B slots gs lo := by
  obtain ⟨ss, D, h1, h2, h3, h4, h5⟩ := h
  exact ⟨ss, D, h1, h2, h3, h4, fun d hd => by have := h5 d hd; omega⟩

theorem DiskUp.later {B : BinSearch} {db : FaultyDb} {g : Gens} {latest lo : U64} (h : DiskUp B db g latest)
    (hl : latest.toNat ≤ lo.toNat) : DiskUp B db g lo := by
  obtain ⟨hc, ss, D1, D2, h1, h2, h3, h4, h5, h6⟩ := h
  exact ⟨hc, ss, D1, D2, h1, h2, h3, h4, h5, fun d hd => by have := h6 d hd; omega⟩

/-- A new current chunk. -/
theorem DiskHolds.up {B : BinSearch} {slots : List Slot} {gs : List Gen} {latest : U64} (h : DiskHolds B slots gs latest) {lo size : U64}
    (hl : latest.toNat < lo.toNat) (c : Chunk SledStores) (sec : List (Chunk SledStores)) :
    DiskUp B ⟨⟨slots, c, sec⟩, .complete⟩ ⟨gs, Gen.new lo size⟩ lo := by
  obtain ⟨ss, D, h1, h2, h3, h4, h5⟩ := h
  refine ⟨rfl, ss, D, [], h1, by simpa using h2, inOrder_last h3 fun d hd => ?_, h4, .nil, ?_⟩
  · have := h5 d hd
    show d.lo.toNat < lo.toNat
    omega
  · intro d hd
    rcases List.mem_append.mp hd with hd | hd
    · have := h5 d hd; omega
    · rw [List.mem_singleton] at hd; subst hd; exact Nat.le_refl _

theorem Damaged.mono {ss tt : List Slot} (h : Damaged ss) (hs : ∀ s ∈ ss, s ∈ tt) : Damaged tt := by
  obtain ⟨s, h1, h2⟩ := h
  exact ⟨s, hs s h1, h2⟩

theorem damaged_slots {db : FaultyDb} (h : db.config ≠ .complete ∨ Damaged db.live.old) : Damaged db.slots := by
  rcases h with h | h
  · exact ⟨_, List.mem_append_right _ (List.mem_singleton_self _), h, _, _, rfl⟩
  · exact h.mono fun s hs => List.mem_append_left _ hs

/-! ### One step -/

theorem MemHolds.write {B : BinSearch} {db : LiveDb} {g : Gens} (h : MemHolds B db g) {ls : Labels} (hw : WFSet ls) (ps : List TimePoint) (size : U64)
    (hl : g.cur.h.length + ps.length < 2 ^ 64 - 1) :
    MemHolds B { db with cur := (writeTimePoints (sledComp B) db.cur ls ps).2 } (g.step size (.write ls ps)) := by
  refine ⟨?_, h.shown, h.secondary⟩
  have h1 := (writeTimePoints_rep h.cur hw ps hl).1
  have hk : (keptPoints g.cur.lo g.cur.hi ps).length ≤ ps.length := List.length_filter_le _ _
  have h2 := batch_rep h.cur hw (keptPoints g.cur.lo g.cur.hi ps) (by omega)
  simp only [Gens.step]
  rw [h1, ← kept_inside]
  exact h2

theorem MemHolds.tick {B : BinSearch} {db : LiveDb} {g : Gens} (h : MemHolds B db g) (old : List Slot) (lo size : U64) :
    MemHolds B ⟨old, Chunk.new noStores lo (lo + size), db.secondary ++ [db.cur.close.2]⟩ ⟨g.all, Gen.new lo size⟩ := by
  obtain ⟨M, h1, h2⟩ := h.secondary
  refine ⟨newSled_rep B _ _, rfl, M ++ [g.cur], ?_, h2.append (Padded.refl _)⟩
  refine List.rel_append h1 (.cons ?_ .nil)
  have : db.cur.close.2 = { db.cur with closed := true } := by unfold Chunk.close; simp [h.cur.ok]
  rw [this]
  exact ⟨h.cur.start_, h.cur.end_.trans h.shown.symm, h.cur.ok, h.cur.rep⟩

/-- Points in the current chunk. -/
def Status.load : Status → Nat
  | .running g => g.cur.h.length
  | .stopped _ => 0

theorem NodeRep.step {B : BinSearch} {base : Str} (hb : ∀ b ∈ base, isCont b = false) {size : U64} {n : Node} {l : Ledger} (h : NodeRep B n l)
    {e : NodeEvent} (he : FairEvent size l e) (hlen : l.status.load + pointsIn [e] < 2 ^ 64 - 1) : NodeRep B (n.step B base size e) (l.step size e) := by
  obtain ⟨st, latest, dam⟩ := l
  rcases n with db | ss <;> rcases st with g | gs
  · obtain ⟨hm, hd⟩ := h
    simp only [] at hd
    cases e with
    | write ls ps =>
      have hm' := hm.write he ps size hlen
      refine ⟨hm', ?_⟩
      show if dam then _ else _
      rcases dam with _ | _
      · obtain ⟨hc, ss, D1, D2, h1, h2, h3, h4, h5, h6⟩ := hd
        refine ⟨hc, ss, D1, D2, h1, h2, ?_, h4, h5, ?_⟩
        · unfold InOrder at h3 ⊢
          rw [List.pairwise_append, List.pairwise_cons] at h3 ⊢
          refine ⟨h3.1, ⟨h3.2.1.1, h3.2.1.2⟩, fun x hx y hy => ?_⟩
          rcases List.mem_cons.mp hy with rfl | hy
          · exact h3.2.2 x hx g.cur (by simp)
          · exact h3.2.2 x hx y (by simp [hy])
        · intro d hd
          simp only [List.mem_append, List.mem_cons] at hd
          rcases hd with hd | rfl | hd
          · exact h6 d (by simp [hd])
          · exact h6 g.cur (by simp)
          · exact h6 d (by simp [hd])
      · exact hd
    | tick r f =>
      have h1 : latest.toNat ≤ r.toNat := he.1
      have h2 : r.toNat + 1 + size.toNat < 2 ^ 64 := he.2
      have hr : latest.toNat < (r + 1#64).toNat := by
        rw [BitVec.toNat_add, Nat.mod_eq_of_lt (by simp; omega)]; simp; omega
      show NodeRep B (.up (db.swap size (r + 1) f).2) ⟨.running (if f.stops then g else g.step size (.tick r)), r + 1, dam || f.damages⟩
      rcases hs : f.stops with _ | _
      · have hmk := makeChunk_ok hs (r + 1) (r + 1 + size)
        have hsw : (db.swap size (r + 1) f).2 =
            ⟨⟨db.slots, Chunk.new noStores (r + 1) (r + 1 + size), db.live.secondary ++ [db.live.cur.close.2]⟩, if f.contents then .unfinished else .complete⟩ := by
          unfold FaultyDb.swap; rw [hmk]
        rw [hsw, damages_of_ok hs]
        refine ⟨hm.tick _ _ _, ?_⟩
        rcases dam with _ | _
        · rcases hc : f.contents with _ | _
          · exact (DiskUp.slots hd hm).up hr _ _
          · exact .inl (by simp)
        · exact .inr (damaged_slots hd)
      · obtain ⟨er, hmk⟩ := makeChunk_stops hs (r + 1) (r + 1 + size)
        have hsw : (db.swap size (r + 1) f).2 = ⟨{ db.live with old := db.live.old ++ (leftover f (r + 1) (r + 1 + size)).toList }, db.config⟩ := by
          unfold FaultyDb.swap; rw [hmk]
        rw [hsw]
        refine ⟨⟨hm.cur, hm.shown, hm.secondary⟩, ?_⟩
        rcases dam with _ | _
        · rcases hdm : f.damages with _ | _
          · rcases leftover_harmless hdm (r + 1) (r + 1 + size) with hlo | hlo
            · rw [hlo]
              simp only [Option.toList_none, List.append_nil]
              exact DiskUp.later hd (Nat.le_of_lt hr)
            · rw [hlo]
              exact DiskUp.add hd hr
          · obtain ⟨c, hc, hlo⟩ := leftover_damages hdm (r + 1) (r + 1 + size)
            rw [hlo]
            exact .inr ⟨_, List.mem_append_right _ (List.mem_singleton_self _), hc, _, _, rfl⟩
        · rcases hd with hd | hd
          · exact .inl hd
          · exact .inr (hd.mono fun s hs => List.mem_append_left _ hs)
    | stop =>
      show if dam then _ else _
      rcases dam with _ | _
      · exact DiskUp.slots hd hm
      · exact damaged_slots hd
    | start o c n f => exact ⟨hm, hd⟩
  · exact h.elim
  · exact h.elim
  · have hd : if dam then Damaged ss else DiskHolds B ss gs latest := h
    cases e with
    | write ls ps => exact h
    | tick r f => exact h
    | stop => exact h
    | start o k now f =>
      have hp : ∀ s, (o s).Perm s := he.1
      have hl : latest.toNat < now.toNat := he.2.1
      rcases dam with _ | _
      · obtain ⟨ss', D, h1, h2, h3, h4, h5⟩ := hd
        obtain ⟨cs, k1, k2⟩ := readExisting_keeps hb (clock := k) h2 ((hp ss).trans h1.symm) h3
        have hd' : DiskHolds B (o ss) gs latest := ⟨ss', D, h1.trans (hp ss).symm, h2, h3, h4, h5⟩
        show NodeRep B (Node.open base size k now f (o ss)) ⟨if f.stops then .stopped gs else
          .running ⟨gs.map fun c => c.reopened (k c.name), Gen.new now size⟩, now, f.damages⟩
        unfold Node.open
        rw [k1]
        rcases hs : f.stops with _ | _
        · simp only [makeChunk_ok hs now (now + size), damages_of_ok hs]
          refine ⟨⟨newSled_rep B _ _, rfl, _, k2, h4.reopened k⟩, ?_⟩
          rcases hc : f.contents with _ | _
          · have : DiskHolds B (o ss) (gs.map fun c => c.reopened (k c.name)) latest := by
              refine ⟨ss', D.map fun c => c.reopened (k c.name), h1.trans (hp ss).symm, ?_, reopened_inOrder h3 k, h4.reopened k, ?_⟩
              · rw [List.forall₂_map_right_iff]
                exact h2.imp fun s c hsc => ⟨hsc.name, hsc.config, hsc.holds⟩
              · intro d hd
                obtain ⟨d', hd', rfl⟩ := List.mem_map.mp hd
                exact h5 d' hd'
            exact this.up hl _ _
          · exact .inl (by simp)
        · obtain ⟨er, hmk⟩ := makeChunk_stops hs now (now + size)
          simp only [hmk]
          show if f.damages then _ else _
          rcases hdm : f.damages with _ | _
          · rcases leftover_harmless hdm now (now + size) with hlo | hlo
            · rw [hlo]
              simp only [Option.toList_none, List.append_nil]
              exact DiskHolds.later hd' (by omega)
            · rw [hlo]
              exact DiskHolds.add hd' hl
          · obtain ⟨c, hc, hlo⟩ := leftover_damages hdm now (now + size)
            rw [hlo]
            exact ⟨_, List.mem_append_right _ (List.mem_singleton_self _), hc, _, _, rfl⟩
      · obtain ⟨s, h1, h2, lo, hi, h3⟩ := hd
        have hn : readExistingChunks base k (o ss) = Option.none := by
          unfold readExistingChunks
          rw [readChunks_incomplete hb k ((hp ss).mem_iff.mpr h1) h2 h3]
          rfl
        show NodeRep B (Node.open base size k now f (o ss)) _
        unfold Node.open
        rw [hn]
        show Damaged (o ss)
        exact ⟨s, (hp ss).mem_iff.mpr h1, h2, lo, hi, h3⟩

theorem pointsIn_cons (e : NodeEvent) (es : List NodeEvent) : pointsIn (e :: es) = pointsIn [e] + pointsIn es := by
  cases e <;> simp [pointsIn]

theorem Ledger.step_load (size : U64) (l : Ledger) (e : NodeEvent) : (l.step size e).status.load ≤ l.status.load + pointsIn [e] := by
  obtain ⟨st, latest, dam⟩ := l
  rcases st with g | gs
  · cases e with
    | write ls ps => exact g.step_length size (.write ls ps)
    | tick r f =>
      show (Status.running (if f.stops then g else g.step size (.tick r))).load ≤ _
      split
      · exact Nat.le_add_right _ _
      · simp [Gens.step, Gen.new, Status.load]
    | stop => simp [Ledger.step, Status.load]
    | start o c n f => simp [Ledger.step]
  · cases e with
    | write ls ps => simp [Ledger.step, Status.load]
    | tick r f => simp [Ledger.step, Status.load]
    | stop => simp [Ledger.step, Status.load]
    | start o c n f =>
      rcases dam with _ | _
      · show (if f.stops then Status.stopped gs else _).load ≤ _
        split <;> simp [Status.load, Gen.new]
      · exact Nat.le_add_right _ _

theorem NodeRep.run {B : BinSearch} {base : Str} (hb : ∀ b ∈ base, isCont b = false) {size : U64} (es : List NodeEvent) {n : Node} {l : Ledger}
    (h : NodeRep B n l) (he : FairLife size l es) (hlen : l.status.load + pointsIn es < 2 ^ 64 - 1) :
    NodeRep B (n.run B base size es) (l.run size es) := by
  induction es generalizing n l with
  | nil => exact h
  | cons e es ih =>
    rw [pointsIn_cons] at hlen
    have h1 := h.step hb he.1 (by omega)
    have := l.step_load size e
    exact ih h1 he.2 (by omega)

theorem freshNode_rep (B : BinSearch) (size now : U64) : NodeRep B (Node.fresh size now) (Ledger.fresh size now) :=
  ⟨⟨newSled_rep B _ _, rfl, [], .nil, .nil⟩, rfl, [], [], [], .refl _, .nil, by simp [InOrder], .nil, .nil, by
    intro d hd; simp only [List.nil_append, List.mem_singleton] at hd; subst hd; exact Nat.le_refl _⟩

/-! ### Queries -/

theorem MemHolds.query {B : BinSearch} (H : Hash) {db : LiveDb} {g : Gens} (h : MemHolds B db g) (hlen : ∀ c ∈ g.all, c.h.length + 1 < 2 ^ 64)
    (hwf : ∀ c ∈ g.all, ∀ w ∈ c.h, WFSet w.1) (hincr : ∀ c ∈ g.all, ∀ ls, SIncr (pointsFor c.h ls)) {q : Labels} (hq : ∀ l ∈ q, WFLabel l)
    {a b : U64} (hab : a.toNat ≤ b.toNat) (hg : H.Good fun ls => ∃ c ∈ g.all, ∃ s ∈ c.answer q a b, s.labels = ls) :
    ∃ r, db.query B H q a b = .ok r ∧ IsMerge (g.all.map fun c => c.answer q a b) r := by
  obtain ⟨M, h1, h2⟩ := h.secondary
  have hp : Padded (M ++ [g.cur]) g.all := h2.append (Padded.refl _)
  have hm := hp.mem
  obtain ⟨r, h3, h4⟩ := live_query (g := ⟨M, g.cur⟩) H ⟨h.cur.start_, h.cur.end_.trans h.shown.symm, h.cur.ok, h.cur.rep⟩ h1
    (fun c hc => by rcases hm c hc with hc | hc
                    · exact hlen c hc
                    · rw [hc]; decide)
    (fun c hc => by rcases hm c hc with hc | hc
                    · exact hwf c hc
                    · rw [hc]; simp)
    (fun c hc => by rcases hm c hc with hc | hc
                    · exact hincr c hc
                    · rw [hc]; simp [pointsFor, SIncr]) hq hab (by
      have key : ∀ c ∈ M ++ [g.cur], ∀ s ∈ c.answer q a b, ∃ c ∈ g.all, ∃ s0 ∈ c.answer q a b, s0.labels = s.labels := by
        intro c hc s hs
        rcases hm c hc with hc | hc
        · exact ⟨c, hc, s, hs, rfl⟩
        · rw [answer_empty hc] at hs; simp at hs
      rintro k k' ⟨c, hc, s, hs, rfl⟩ ⟨c', hc', s', hs', rfl⟩ ht
      exact hg _ _ (key c hc s hs) (key c' hc' s' hs') ht)
  exact ⟨r, h3, hp.merge h4⟩

/-! ### Facts about the specification -/

theorem Ledger.run_wf (size : U64) (es : List NodeEvent) (l : Ledger) (he : FairLife size l es) (h : ∀ c ∈ l.status.all, ∀ w ∈ c.h, WFSet w.1) :
    ∀ c ∈ (l.run size es).status.all, ∀ w ∈ c.h, WFSet w.1 := by
  induction es generalizing l with
  | nil => exact h
  | cons e es ih =>
    refine ih _ he.2 ?_
    have he := he.1
    clear ih
    obtain ⟨st, latest, dam⟩ := l
    rcases st with g | gs
    · cases e with
      | write ls ps => exact Gens.run_wf size [.write ls ps] g ⟨he, trivial⟩ h
      | tick r f =>
        show ∀ c ∈ (Status.running (if f.stops then g else g.step size (.tick r))).all, _
        split
        · exact h
        · intro c hc w hw
          rcases List.mem_append.mp hc with hc | hc
          · exact h c hc w hw
          · simp only [Gens.step, List.mem_singleton] at hc; subst hc; simp [Gen.new] at hw
      | stop => exact h
      | start o k n f => exact h
    · cases e with
      | write ls ps => exact h
      | tick r f => exact h
      | stop => exact h
      | start o k n f =>
        rcases dam with _ | _
        · show ∀ c ∈ (if f.stops then Status.stopped gs else .running ⟨gs.map fun c => c.reopened (k c.name), Gen.new n size⟩).all, _
          split
          · exact h
          · intro c hc w hw
            rcases List.mem_append.mp hc with hc | hc
            · obtain ⟨c', hc', rfl⟩ := List.mem_map.mp hc
              exact h c' hc' w hw
            · simp only [List.mem_singleton] at hc; subst hc; simp [Gen.new] at hw
        · exact h

theorem Ledger.run_length (size : U64) (es : List NodeEvent) (l : Ledger) (n : Nat) (h : ∀ c ∈ l.status.all, c.h.length ≤ n) :
    ∀ c ∈ (l.run size es).status.all, c.h.length ≤ n + pointsIn es := by
  induction es generalizing l n with
  | nil => intro c hc; have := h c hc; simp only [pointsIn]; omega
  | cons e es ih =>
    rw [pointsIn_cons, ← Nat.add_assoc]
    apply ih
    have h' : ∀ c ∈ l.status.all, c.h.length ≤ n + pointsIn [e] := fun c hc => Nat.le_trans (h c hc) (Nat.le_add_right _ _)
    clear ih
    obtain ⟨st, latest, dam⟩ := l
    rcases st with g | gs
    · cases e with
      | write ls ps => exact Gens.run_length size [.write ls ps] g n h
      | tick r f =>
        show ∀ c ∈ (Status.running (if f.stops then g else g.step size (.tick r))).all, _
        split
        · exact h'
        · intro c hc
          rcases List.mem_append.mp hc with hc | hc
          · exact h' c hc
          · simp only [Gens.step, List.mem_singleton] at hc; subst hc; simp [Gen.new]
      | stop => exact h'
      | start o k n f => exact h'
    · cases e with
      | write ls ps => exact h'
      | tick r f => exact h'
      | stop => exact h'
      | start o k m f =>
        rcases dam with _ | _
        · show ∀ c ∈ (if f.stops then Status.stopped gs else .running ⟨gs.map fun c => c.reopened (k c.name), Gen.new m size⟩).all, _
          split
          · exact h'
          · intro c hc
            rcases List.mem_append.mp hc with hc | hc
            · obtain ⟨c', hc', rfl⟩ := List.mem_map.mp hc
              exact h' c' hc'
            · simp only [List.mem_singleton] at hc; subst hc; simp [Gen.new]
        · exact h'

end Verif
