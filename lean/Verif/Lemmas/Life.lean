import Mathlib.Data.List.Perm.Basic
import Verif.Spec.Life
import Verif.Props.ChunkDir
import Verif.Props.Db
namespace Verif
open List

theorem forall₂_get {α β : Type} {R : α → β → Prop} {l : List α} {m : List β} (h : Forall₂ R l m) : ∀ y ∈ m, ∃ x ∈ l, R x y := by
  induction h with
  | nil => simp
  | cons h1 _ ih =>
    intro y hy
    rcases List.mem_cons.mp hy with rfl | hy
    · exact ⟨_, by simp, h1⟩
    · obtain ⟨x, hx, h⟩ := ih y hy; exact ⟨x, by simp [hx], h⟩

/-- The trees hold exactly these accepted writes. -/
def Stored (B : BinSearch) (h : Inserts) (s : SledStores) : Prop := (sledRefines B).Rep (numbered h) (seriesOf sledAccepts h) s

/-- A chunk of the running process shows this generation. -/
structure Shows (B : BinSearch) (c : Chunk SledStores) (g : Gen) : Prop where
  start_ : c.start_ = g.lo
  end_ : c.end_ = g.shown
  ok : c.poisoned = false
  holds : Stored B g.h c.store

/-- A directory keeps this generation. -/
structure Keeps (B : BinSearch) (s : Slot) (g : Gen) : Prop where
  name : s.name = g.name
  config : s.config = .complete
  holds : Stored B g.h s.stores

theorem reopen_keeps {B : BinSearch} {base : Str} (hb : ∀ b ∈ base, isCont b = false) {clock : Str → U64} {s : Slot} {g : Gen} (h : Keeps B s g) :
    ∃ c, s.reopen base clock = some (some c) ∧ Shows B c (g.reopened (clock g.name)) ∧ c.closed = true := by
  unfold Slot.reopen
  rw [h.config, h.name, show decide (ConfigFile.complete = ConfigFile.complete) = true from rfl]
  rw [show readEntry base ⟨g.name, true, some true, some true, clock g.name⟩ = _ from C11_partial base hb g.lo g.hi (clock g.name)]
  exact ⟨_, rfl, ⟨rfl, rfl, rfl, h.holds⟩, rfl⟩

theorem readChunks_keeps {B : BinSearch} {base : Str} (hb : ∀ b ∈ base, isCont b = false) {clock : Str → U64} {ss : List Slot} {gs : List Gen}
    (h : Forall₂ (Keeps B) ss gs) :
    ∃ cs, readChunks base clock ss = some cs ∧ Forall₂ (Shows B) cs (gs.map fun g => g.reopened (clock g.name)) := by
  induction h with
  | nil => exact ⟨[], rfl, .nil⟩
  | cons hd _ ih =>
    obtain ⟨c, h1, h2, -⟩ := reopen_keeps hb (clock := clock) hd
    obtain ⟨cs, h3, h4⟩ := ih
    exact ⟨c :: cs, by simp [readChunks, h1, h3], .cons h2 h4⟩

/-- Generations in order of their start times. -/
def InOrder (gs : List Gen) : Prop := gs.Pairwise fun x y => x.lo.toNat < y.lo.toNat

theorem inOrder_unique {gs gs' : List Gen} (h : InOrder gs) (hp : gs'.Perm gs) (h' : gs'.Pairwise fun x y => x.lo.toNat ≤ y.lo.toNat) : gs' = gs := by
  refine List.Perm.eq_of_pairwise (le := fun x y : Gen => x.lo.toNat ≤ y.lo.toNat) ?_ h' (h.imp fun h => Nat.le_of_lt h) hp
  intro x y hx hy h1 h2
  have hx' := hp.mem_iff.mp hx
  have : ∀ (l : List Gen), InOrder l → ∀ x ∈ l, ∀ y ∈ l, x.lo.toNat = y.lo.toNat → x = y := by
    intro l
    induction l with
    | nil => simp
    | cons z l ih =>
      intro hl x hx y hy e
      unfold InOrder at hl
      rw [List.pairwise_cons] at hl
      rcases List.mem_cons.mp hx with rfl | hx <;> rcases List.mem_cons.mp hy with rfl | hy
      · rfl
      · have h := hl.1 y ‹_›; omega
      · have h := hl.1 x ‹_›; omega
      · exact ih hl.2 x hx y hy e
  exact this gs h x hx' y hy (by omega)

theorem reopened_inOrder {gs : List Gen} (h : InOrder gs) (clock : Str → U64) : InOrder (gs.map fun g => g.reopened (clock g.name)) := by
  unfold InOrder at h ⊢
  rw [List.pairwise_map]
  exact h

/-- Reopening finds every generation, in order of creation, however the directories are listed. -/
theorem readExisting_keeps {B : BinSearch} {base : Str} (hb : ∀ b ∈ base, isCont b = false) {clock : Str → U64} {ss ss' : List Slot} {gs : List Gen}
    (h : Forall₂ (Keeps B) ss gs) (hp : ss'.Perm ss) (ho : InOrder gs) :
    ∃ cs, readExistingChunks base clock ss' = some cs ∧ Forall₂ (Shows B) cs (gs.map fun g => g.reopened (clock g.name)) := by
  obtain ⟨gs', h1, h2⟩ := List.perm_comp_forall₂ hp h
  obtain ⟨cs, h3, h4⟩ := readChunks_keeps hb (clock := clock) h1
  have hsp := stableSort_perm (fun a b : Chunk SledStores => decide (a.start_.toNat ≤ b.start_.toNat)) cs
  have hss := stableSort_sorted (le := fun a b : Chunk SledStores => decide (a.start_.toNat ≤ b.start_.toNat))
    (by intro a b; simp; omega) (by intro a b c; simp; omega) cs
  obtain ⟨gs'', h5, h6⟩ := List.perm_comp_forall₂ hsp h4
  refine ⟨_, by unfold readExistingChunks; rw [h3]; rfl, ?_⟩
  have hsorted : gs''.Pairwise fun x y => x.lo.toNat ≤ y.lo.toNat := by
    clear h6 hsp h4
    revert h5 hss
    generalize stableSort _ cs = l
    intro hss h5
    induction h5 with
    | nil => exact .nil
    | cons hd tl ih =>
      rw [List.pairwise_cons] at hss ⊢
      refine ⟨fun y hy => ?_, ih hss.2⟩
      obtain ⟨c, hc, hcy⟩ := forall₂_get tl y hy
      have := hss.1 c hc
      rw [decide_eq_true_eq, hd.start_, hcy.start_] at this
      exact this
  have : gs'' = gs.map fun g => g.reopened (clock g.name) :=
    inOrder_unique (reopened_inOrder ho clock) (h6.trans (h2.map _)) hsorted
  rw [← this]; exact h5

/-- The running database shows these generations. -/
structure LifeRep (B : BinSearch) (db : LiveDb) (g : Gens) : Prop where
  cur : ChunkRep (sledRefines B) g.cur.lo g.cur.hi g.cur.h db.cur
  shown : g.cur.shown = g.cur.hi
  secondary : Forall₂ (Shows B) db.secondary g.old
  old : ∃ ss, ss.Perm db.old ∧ Forall₂ (Keeps B) ss g.old
  inOrder : InOrder g.all

theorem LifeRep.slots {B : BinSearch} {db : LiveDb} {g : Gens} (h : LifeRep B db g) : ∃ ss, ss.Perm db.slots ∧ Forall₂ (Keeps B) ss g.all := by
  obtain ⟨ss, h1, h2⟩ := h.old
  refine ⟨ss ++ [⟨encodeChunkDir db.cur.start_ db.cur.end_, .complete, db.cur.store⟩], h1.append_right _, ?_⟩
  refine List.rel_append h2 (.cons ⟨?_, rfl, h.cur.rep⟩ .nil)
  show encodeChunkDir db.cur.start_ db.cur.end_ = _
  rw [h.cur.start_, h.cur.end_]; rfl

theorem inOrder_snoc {gs : List Gen} {g c : Gen} (h : InOrder (gs ++ [c])) (hl : c.lo.toNat < g.lo.toNat) : InOrder ((gs ++ [c]) ++ [g]) := by
  unfold InOrder at h ⊢
  rw [List.pairwise_append]
  refine ⟨h, by simp, ?_⟩
  intro x hx y hy
  simp only [List.mem_singleton] at hy; subst hy
  rw [List.pairwise_append] at h
  rcases List.mem_append.mp hx with hx | hx
  · have := h.2.2 x hx c (by simp); omega
  · simp only [List.mem_singleton] at hx; subst hx; exact hl

theorem kept_inside (lo hi : U64) (ls : Labels) (ps : List TimePoint) :
    insideOnly lo hi (asInserts ls (keptPoints lo hi ps)) = (ps.filter (inside lo hi)).map fun p => (ls, p) := by
  unfold insideOnly asInserts keptPoints
  rw [List.filter_map, List.filter_filter]
  congr 1
  apply List.filter_congr
  intro p _
  simp only [Function.comp_apply, inside]
  by_cases h : lo.toNat < p.ts.toNat ∧ p.ts.toNat < hi.toNat
  · simp [h.1, h.2]; omega
  · by_cases h1 : lo.toNat < p.ts.toNat
    · have h2 : ¬ p.ts.toNat < hi.toNat := fun h2 => h ⟨h1, h2⟩
      simp [h1, h2]
    · simp [h1]

theorem LifeRep.step {B : BinSearch} {base : Str} (hb : ∀ b ∈ base, isCont b = false) {size : U64} {db : LiveDb} {g : Gens} (h : LifeRep B db g)
    {e : LifeEvent} (he : GoodEvent size g e) (hlen : g.cur.h.length + written [e] < 2 ^ 64 - 1) :
    ∃ db', db.step B base size e = some db' ∧ LifeRep B db' (g.step size e) := by
  cases e with
  | write ls ps =>
    have hl : g.cur.h.length + ps.length < 2 ^ 64 - 1 := hlen
    refine ⟨_, rfl, ?_, h.shown, h.secondary, h.old, ?_⟩
    · have h1 := (writeTimePoints_rep h.cur he ps hl).1
      have hk : (keptPoints g.cur.lo g.cur.hi ps).length ≤ ps.length := List.length_filter_le _ _
      have h2 := batch_rep h.cur he (keptPoints g.cur.lo g.cur.hi ps) (by omega)
      simp only [Gens.step]
      rw [h1, ← kept_inside]
      exact h2
    · have := h.inOrder
      unfold InOrder Gens.all at this ⊢
      rw [List.pairwise_append] at this ⊢
      exact ⟨this.1, by simp, fun x hx y hy => by
        simp only [Gens.step, List.mem_singleton] at hy; subst hy; exact this.2.2 x hx g.cur (by simp)⟩
  | tick r =>
    refine ⟨_, rfl, ?_, rfl, ?_, ?_, ?_⟩
    · exact newSled_rep B _ _
    · refine List.rel_append h.secondary (.cons ?_ .nil)
      have : db.cur.close.2 = { db.cur with closed := true } := by unfold Chunk.close; simp [h.cur.ok]
      rw [this]
      exact ⟨h.cur.start_, h.cur.end_.trans h.shown.symm, h.cur.ok, h.cur.rep⟩
    · exact h.slots
    · refine inOrder_snoc h.inOrder ?_
      have h1 : g.cur.lo.toNat ≤ r.toNat := he.1
      have h2 : r.toNat + 1 + size.toNat < 2 ^ 64 := he.2
      show g.cur.lo.toNat < (r + 1#64).toNat
      rw [BitVec.toNat_add, Nat.mod_eq_of_lt (by simp; omega)]
      simp; omega
  | restart order clock now =>
    obtain ⟨ss, h1, h2⟩ := h.slots
    obtain ⟨cs, h3, h4⟩ := readExisting_keeps hb (clock := clock) h2 ((he.1 db.slots).trans h1.symm) h.inOrder
    refine ⟨⟨order db.slots, Chunk.new noStores now (now + size), cs⟩, by simp [LiveDb.step, h3], ?_, rfl, h4, ?_, ?_⟩
    · exact newSled_rep B _ _
    · refine ⟨ss, h1.trans (he.1 db.slots).symm, ?_⟩
      show Forall₂ (Keeps B) ss (g.all.map fun c => c.reopened (clock c.name))
      rw [List.forall₂_map_right_iff]
      exact h2.imp fun s c hsc => ⟨hsc.name, hsc.config, hsc.holds⟩
    · have hr := reopened_inOrder h.inOrder clock
      show InOrder ((g.all.map fun c => c.reopened (clock c.name)) ++ [Gen.new now size])
      unfold Gens.all at hr ⊢
      rw [List.map_append, List.map_singleton] at hr ⊢
      exact inOrder_snoc hr he.2.1

/-- All writes of a history are accounted for. -/
theorem Gens.step_length (size : U64) (g : Gens) (e : LifeEvent) : (g.step size e).cur.h.length ≤ g.cur.h.length + written [e] := by
  cases e with
  | write ls ps =>
    have := List.length_filter_le (inside g.cur.lo g.cur.hi) ps
    simp only [Gens.step, List.length_append, List.length_map, written]; omega
  | tick r => simp [Gens.step, Gen.new]
  | restart o c n => simp [Gens.step, Gen.new]

theorem written_cons (e : LifeEvent) (es : List LifeEvent) : written (e :: es) = written [e] + written es := by
  cases e <;> simp [written]

theorem LifeRep.run {B : BinSearch} {base : Str} (hb : ∀ b ∈ base, isCont b = false) {size : U64} (es : List LifeEvent) {db : LiveDb} {g : Gens}
    (h : LifeRep B db g) (he : GoodLife size g es) (hlen : g.cur.h.length + written es < 2 ^ 64 - 1) :
    ∃ db', db.run B base size es = some db' ∧ LifeRep B db' (g.run size es) := by
  induction es generalizing db g with
  | nil => exact ⟨db, rfl, h⟩
  | cons e es ih =>
    rw [written_cons] at hlen
    obtain ⟨db', h1, h2⟩ := h.step hb he.1 (by omega)
    have := g.step_length size e
    obtain ⟨db'', h3, h4⟩ := ih h2 he.2 (by omega)
    exact ⟨db'', by simp [LiveDb.run, h1, h3], h4⟩

theorem fresh_rep (B : BinSearch) (size now : U64) : LifeRep B (LiveDb.fresh size now) (Gens.fresh size now) :=
  ⟨newSled_rep B _ _, rfl, .nil, ⟨[], .refl _, .nil⟩, by simp [InOrder, Gens.all, Gens.fresh]⟩

/-! ### Well-formedness of what was written -/

theorem Gens.run_wf (size : U64) (es : List LifeEvent) (g : Gens) (he : GoodLife size g es) (h : ∀ c ∈ g.all, ∀ w ∈ c.h, WFSet w.1) :
    ∀ c ∈ (g.run size es).all, ∀ w ∈ c.h, WFSet w.1 := by
  induction es generalizing g with
  | nil => exact h
  | cons e es ih =>
    apply ih _ he.2
    intro c hc w hw
    cases e with
    | write ls ps =>
      rcases List.mem_append.mp hc with hc | hc
      · exact h c (by simp [Gens.all]; left; exact hc) w hw
      · simp only [Gens.step, List.mem_singleton] at hc; subst hc
        rcases List.mem_append.mp hw with hw | hw
        · exact h g.cur (by simp [Gens.all]) w hw
        · obtain ⟨p, -, rfl⟩ := List.mem_map.mp hw
          exact he.1
    | tick r =>
      rcases List.mem_append.mp hc with hc | hc
      · exact h c hc w hw
      · simp only [Gens.step, List.mem_singleton] at hc; subst hc; simp [Gen.new] at hw
    | restart o k n =>
      rcases List.mem_append.mp hc with hc | hc
      · obtain ⟨c', hc', rfl⟩ := List.mem_map.mp hc
        exact h c' hc' w hw
      · simp only [Gens.step, List.mem_singleton] at hc; subst hc; simp [Gen.new] at hw

theorem Gens.run_length (size : U64) (es : List LifeEvent) (g : Gens) (n : Nat) (h : ∀ c ∈ g.all, c.h.length ≤ n) :
    ∀ c ∈ (g.run size es).all, c.h.length ≤ n + written es := by
  induction es generalizing g n with
  | nil => intro c hc; have := h c hc; simp only [written]; omega
  | cons e es ih =>
    rw [written_cons, ← Nat.add_assoc]
    apply ih
    intro c hc
    cases e with
    | write ls ps =>
      rcases List.mem_append.mp hc with hc | hc
      · have := h c (by simp [Gens.all]; left; exact hc); omega
      · have h0 := h g.cur (by simp [Gens.all])
        have h1 := g.step_length size (.write ls ps)
        rw [List.mem_singleton] at hc; subst hc; omega
    | tick r =>
      rcases List.mem_append.mp hc with hc | hc
      · have := h c hc; omega
      · simp only [Gens.step, List.mem_singleton] at hc; subst hc; simp [Gen.new]
    | restart o k m =>
      rcases List.mem_append.mp hc with hc | hc
      · obtain ⟨c', hc', rfl⟩ := List.mem_map.mp hc
        have := h c' hc'
        show c'.h.length ≤ _
        omega
      · simp only [Gens.step, List.mem_singleton] at hc; subst hc; simp [Gen.new]

/-! ### Queries -/

theorem shows_answer {B : BinSearch} {c : Chunk SledStores} {g : Gen} (h : Shows B c g) (hlen : g.h.length + 1 < 2 ^ 64) (hwf : ∀ w ∈ g.h, WFSet w.1)
    (hincr : ∀ ls, SIncr (pointsFor g.h ls)) {q : Labels} (hq : ∀ l ∈ q, WFLabel l) {a b : U64} (hab : a.toNat ≤ b.toNat) :
    (c.view (sledComp B)).query q a b ≠ .panic ∧ okSeries ((c.view (sledComp B)).query q a b) = g.answer q a b ∧
    (if (c.view (sledComp B)).within a b then okSeries ((c.view (sledComp B)).query q a b) else []) = g.answer q a b := by
  have hl := labelSets_length g.h
  let c0 : Chunk SledStores := { c with nextId := BitVec.ofNat 64 ((labelSets g.h).length + 1) }
  have hc0 : ChunkRep (sledRefines B) g.lo g.shown g.h c0 :=
    ⟨h.start_, h.end_, h.ok, by
      show (BitVec.ofNat 64 ((labelSets g.h).length + 1)).toNat = _
      rw [BitVec.toNat_ofNat, Nat.mod_eq_of_lt (by omega)], h.holds⟩
  have hv := view_answer (d := ⟨g.lo, g.shown, g.h⟩) hc0 (by show g.h.length < _; omega) hwf (fun ls => by rw [keepBy_sled]; exact hincr ls) hq hab
  exact hv

/-- The query on the running database merges what the generations contribute. -/
theorem live_query {B : BinSearch} (H : Hash) {db : LiveDb} {g : Gens} (hcur : Shows B db.cur g.cur) (hsec : Forall₂ (Shows B) db.secondary g.old) (hlen : ∀ c ∈ g.all, c.h.length + 1 < 2 ^ 64)
    (hwf : ∀ c ∈ g.all, ∀ w ∈ c.h, WFSet w.1) (hincr : ∀ c ∈ g.all, ∀ ls, SIncr (pointsFor c.h ls)) {q : Labels} (hq : ∀ l ∈ q, WFLabel l)
    {a b : U64} (hab : a.toNat ≤ b.toNat) (hg : H.Good fun ls => ∃ c ∈ g.all, ∃ s ∈ c.answer q a b, s.labels = ls) :
    ∃ r, db.query B H q a b = .ok r ∧ IsMerge (g.all.map fun c => c.answer q a b) r := by
  have hca := shows_answer hcur (hlen _ (by simp [Gens.all])) (hwf _ (by simp [Gens.all])) (hincr _ (by simp [Gens.all])) hq hab
  have hall : ∀ c x, Shows B c x → x ∈ g.old → _ := fun c x hs hx =>
    shows_answer hs (hlen _ (by simp [Gens.all, hx])) (hwf _ (by simp [Gens.all, hx])) (hincr _ (by simp [Gens.all, hx])) hq hab
  have hu : usedResults (db.cur.view (sledComp B)) (db.secondary.map fun c => c.view (sledComp B)) q a b = g.all.map fun c => c.answer q a b := by
    unfold usedResults Gens.all
    rw [List.map_append, List.map_map]
    congr 1
    · have hs := hsec
      clear hsec
      revert hall
      generalize db.secondary = l at hs
      generalize g.old = m at hs
      intro hall
      induction hs with
      | nil => rfl
      | cons h1 _ ih =>
        rw [List.map_cons, List.map_cons, ih fun c x hs hx => hall c x hs (by simp [hx])]
        congr 1
        exact (hall _ _ h1 (by simp)).2.2
    · rw [List.map_singleton]; congr 1; exact hca.2.1
  rw [← hu]
  refine dbQuery_merge H _ _ q a b hca.1 ?_ hg ?_ ?_
  · intro v hv _
    obtain ⟨c, hc, rfl⟩ := List.mem_map.mp hv
    obtain ⟨x, hx, hs⟩ := forall₂_get hsec.flip c hc
    exact (hall c x hs hx).1
  · intro v hv s hs
    rcases List.mem_cons.mp hv with rfl | hv
    · rw [hca.2.1] at hs
      exact ⟨g.cur, by simp [Gens.all], s, hs, rfl⟩
    · obtain ⟨c, hc, rfl⟩ := List.mem_map.mp hv
      obtain ⟨x, hx, hsh⟩ := forall₂_get hsec.flip c hc
      rw [(hall c x hsh hx).2.1] at hs
      exact ⟨x, by simp [Gens.all, hx], s, hs, rfl⟩
  · intro r hr
    rw [hu, List.mem_map] at hr
    obtain ⟨c, hc, rfl⟩ := hr
    exact answer_nodup _ _ _ _ _

/-- The same for a database that shows generations kept on disk. -/
theorem LifeRep.query {B : BinSearch} (H : Hash) {db : LiveDb} {g : Gens} (h : LifeRep B db g) (hlen : ∀ c ∈ g.all, c.h.length + 1 < 2 ^ 64)
    (hwf : ∀ c ∈ g.all, ∀ w ∈ c.h, WFSet w.1) (hincr : ∀ c ∈ g.all, ∀ ls, SIncr (pointsFor c.h ls)) {q : Labels} (hq : ∀ l ∈ q, WFLabel l)
    {a b : U64} (hab : a.toNat ≤ b.toNat) (hg : H.Good fun ls => ∃ c ∈ g.all, ∃ s ∈ c.answer q a b, s.labels = ls) :
    ∃ r, db.query B H q a b = .ok r ∧ IsMerge (g.all.map fun c => c.answer q a b) r :=
  live_query H ⟨h.cur.start_, h.cur.end_.trans h.shown.symm, h.cur.ok, h.cur.rep⟩ h.secondary hlen hwf hincr hq hab hg

/-! ### Merges -/

theorem isMerge_perm {rs rs' : ChunkResults} {r r' : List (Labels × List TimePoint)} (h : IsMerge rs r) (h' : IsMerge rs' r')
    (he : ∀ ls, seriesWith rs ls = seriesWith rs' ls) : r.Perm r' := by
  rw [List.perm_ext_iff_of_nodup (List.Nodup.of_map _ h.once) (List.Nodup.of_map _ h'.once)]
  rintro ⟨ls, ps⟩
  rw [h.entries, h'.entries]
  unfold mergedPoints
  rw [he]

/-- If all points of a chunk lie before the end of the window shown, the end does not matter. -/
theorem answer_shown {lo hi hi' : U64} {h : Inserts} (h1 : ∀ w ∈ h, w.2.ts.toNat ≤ hi.toNat) (h2 : ∀ w ∈ h, w.2.ts.toNat ≤ hi'.toNat) (q : Labels) (a b : U64) :
    Desc.answer sledAccepts ⟨lo, hi, h⟩ q a b = Desc.answer sledAccepts ⟨lo, hi', h⟩ q a b := by
  have key : ∀ hi : U64, (∀ w ∈ h, w.2.ts.toNat ≤ hi.toNat) → Desc.answer sledAccepts ⟨lo, hi, h⟩ q a b =
      if lo.toNat ≤ b.toNat then okSeries (specQuery a b (matched sledAccepts h q)) else [] := by
    intro hi hw
    unfold Desc.answer overlaps
    by_cases hlo : lo.toNat ≤ b.toNat
    · rw [if_pos hlo]
      by_cases hhi : a.toNat ≤ hi.toNat
      · rw [if_pos (by simp; omega)]
      · rw [if_neg (by simp; omega)]
        symm
        unfold specQuery
        rcases hm : matched sledAccepts h q with _ | ⟨s, ss⟩
        · rfl
        · have hout : outside a b s = true := by
            have hs : s ∈ matched sledAccepts h q := by rw [hm]; simp
            unfold matched at hs
            split at hs
            · simp at hs
            · obtain ⟨x, -, rfl⟩ := List.mem_map.mp hs
              rw [keepBy_sled]
              unfold outside
              simp only []
              rcases hf : (pointsFor h x.1).head? with _ | f
              · rfl
              · rcases hl : (pointsFor h x.1).getLast? with _ | l
                · simp
                · have hlm := List.mem_of_mem_getLast? (show l ∈ (pointsFor h x.1).getLast? from hl)
                  unfold pointsFor at hlm
                  obtain ⟨w, hw', rfl⟩ := List.mem_map.mp hlm
                  have := hw w (List.mem_filter.mp hw').1
                  simp; omega
          simp [hout, okSeries]
    · rw [if_neg hlo, if_neg (by simp; omega)]
  rw [key hi h1, key hi' h2]

end Verif
