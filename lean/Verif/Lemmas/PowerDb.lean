import Verif.Lemmas.PowerLossInv
import Verif.Lemmas.Db
import Verif.Lemmas.SwapFault
import Verif.Model.PowerDb
namespace Verif
open List

/-! ### Answers of the database from chunk answers about which little is known -/

/-- The values of the map have some property. -/
def Sane (P : Labels → TimePoint → Prop) (f : Labels → Option (List TimePoint)) : Prop := ∀ k v, f k = some v → v ≠ [] ∧ ∀ p ∈ v, P k p

/-- So has a chunk answer. -/
def SaneSeries (K : Labels → Prop) (P : Labels → TimePoint → Prop) (s : Series) : Prop := K s.labels ∧ s.points ≠ [] ∧ ∀ p ∈ s.points, P s.labels p

theorem addSeries_insert_sane {H : Hash} {K : Labels → Prop} {P : Labels → TimePoint → Prop} (hg : H.Good K) (ss : List Series)
    (hs : ∀ s ∈ ss, SaneSeries K P s) {f : Labels → Option (List TimePoint)} {m : HMap} (h : Holds K f m) (hf : Sane P f) :
    ∃ m' f', addSeries (HMap.insert H) m ss = some m' ∧ Holds K f' m' ∧ Sane P f' := by
  induction ss generalizing f m with
  | nil => exact ⟨m, f, rfl, h, hf⟩
  | cons s ss ih =>
    obtain ⟨h1, h2, h3⟩ := hs s (by simp)
    obtain ⟨m1, e1, g1⟩ := h.insert hg h1 s.points.reverse
    rw [addSeries, e1]
    refine ih (fun x hx => hs x (by simp [hx])) g1 ?_
    intro k v hv
    simp only at hv
    split at hv
    · rename_i hk
      cases hv
      exact ⟨by simpa using h2, fun p hp => hk ▸ h3 p (by simpa using hp)⟩
    · exact hf k v hv

theorem addSeries_append_sane {H : Hash} {K : Labels → Prop} {P : Labels → TimePoint → Prop} (hg : H.Good K) (ss : List Series)
    (hs : ∀ s ∈ ss, SaneSeries K P s) {f : Labels → Option (List TimePoint)} {m : HMap} (h : Holds K f m) (hf : Sane P f) :
    ∃ m' f', addSeries (HMap.append H) m ss = some m' ∧ Holds K f' m' ∧ Sane P f' := by
  induction ss generalizing f m with
  | nil => exact ⟨m, f, rfl, h, hf⟩
  | cons s ss ih =>
    obtain ⟨h1, h2, h3⟩ := hs s (by simp)
    obtain ⟨m1, e1, g1⟩ := h.append hg h1 s.points.reverse
    rw [addSeries, e1]
    refine ih (fun x hx => hs x (by simp [hx])) g1 ?_
    intro k v hv
    simp only at hv
    split at hv
    · rename_i hk
      cases hv
      subst hk
      refine ⟨by simp [h2], fun p hp => ?_⟩
      rcases List.mem_append.mp hp with hp | hp
      · rcases hfk : f s.labels with _ | u
        · rw [hfk] at hp; simp at hp
        · rw [hfk] at hp; exact (hf _ u hfk).2 p hp
      · exact h3 p (by simpa using hp)
    · exact hf k v hv

/-- A view of a chunk never panics, and its answers have some property. -/
def SaneView (K : Labels → Prop) (P : Labels → TimePoint → Prop) (q : Labels) (a b : U64) (v : View) : Prop :=
  v.query q a b ≠ .panic ∧ ∀ ss, v.query q a b = .ok ss → ∀ s ∈ ss, SaneSeries K P s

theorem querySecondary_sane {H : Hash} {K : Labels → Prop} {P : Labels → TimePoint → Prop} (hg : H.Good K) {q : Labels} {a b : U64} (vs : List View)
    (hv : ∀ v ∈ vs, SaneView K P q a b v) {f : Labels → Option (List TimePoint)} {m : HMap} (h : Holds K f m) (hf : Sane P f) :
    ∃ m' f', querySecondary H q a b vs m = some m' ∧ Holds K f' m' ∧ Sane P f' := by
  induction vs generalizing f m with
  | nil => exact ⟨m, f, rfl, h, hf⟩
  | cons v vs ih =>
    obtain ⟨h1, h2⟩ := hv v (by simp)
    have ih' := fun {f : Labels → Option (List TimePoint)} {m : HMap} (h : Holds K f m) (hf : Sane P f) => ih (fun x hx => hv x (by simp [hx])) h hf
    rw [querySecondary]
    split
    · rcases hr : v.query q a b with ss | e | _
      · obtain ⟨m1, f1, e1, g1, g2⟩ := addSeries_append_sane hg ss (h2 ss hr) h hf
        simp only [e1]
        exact ih' g1 g2
      · exact ih' h hf
      · exact absurd hr h1
    · exact ih' h hf

theorem dbQuery_sane {H : Hash} {K : Labels → Prop} {P : Labels → TimePoint → Prop} (hg : H.Good K) (cur : View) (secondary : List View) (q : Labels)
    (a b : U64) (hc : SaneView K P q a b cur) (hs : ∀ v ∈ secondary, SaneView K P q a b v) :
    ∃ r, dbQuery H cur secondary q a b = .ok r ∧ (r.map (·.1)).Nodup ∧ ∀ x ∈ r, K x.1 ∧ x.2 ≠ [] ∧ ∀ p ∈ x.2, P x.1 p := by
  have h0 : Holds K (fun _ => none) [] := ⟨List.nodup_nil, by simp, by simp⟩
  have s0 : Sane P (fun _ => none) := fun k v h => by cases h
  have hcur : ∃ m f, queryCurrent H cur q a b = some m ∧ Holds K f m ∧ Sane P f := by
    unfold queryCurrent
    rcases hr : cur.query q a b with ss | e | _
    · exact addSeries_insert_sane hg ss (hc.2 ss hr) h0 s0
    · exact ⟨[], _, rfl, h0, s0⟩
    · exact absurd hr hc.1
  obtain ⟨m, f, e1, h1, s1⟩ := hcur
  obtain ⟨m', f', e2, h2, s2⟩ := querySecondary_sane hg secondary.reverse (fun v hv => hs v (by simpa using hv)) h1 s1
  refine ⟨(H.order (m'.map (·.1))).map fun k => (k, ((f' k).getD []).reverse), ?_, ?_, ?_⟩
  · unfold dbQuery
    simp only [e1, e2]
    rw [collectKeys_good hg h2 _ (fun k hk => (H.perm _).mem_iff.mp hk)]
    rfl
  · rw [List.map_map]
    show ((H.order (m'.map (·.1))).map id).Nodup
    rw [List.map_id]
    exact (H.perm _).nodup_iff.mpr h2.nodup
  · intro x hx
    obtain ⟨k, hk, rfl⟩ := List.mem_map.mp hx
    have hk := (H.perm _).mem_iff.mp hk
    have hn := (h2.mem_keys k).mp hk
    obtain ⟨v, hv⟩ := Option.ne_none_iff_exists'.mp hn
    obtain ⟨e, he, rfl⟩ := List.mem_map.mp hk
    refine ⟨h2.keys e he, ?_, ?_⟩
    · simp only [hv, Option.getD_some]
      simpa using (s2 _ v hv).1
    · simp only [hv, Option.getD_some, List.mem_reverse]
      exact (s2 _ v hv).2

/-! ### The invariant -/

/-- Whatever a loss of power leaves of these trees comes from the writes `w`. -/
def TreesOk (w : Inserts) (v : Volatile) : Prop := v.Leaves v.now ∧ ∃ c h, h <+ w ∧ ∀ s, v.Leaves s → ∃ ser, SlSound c ser h s

/-- The current chunk. -/
def CurOk (w : Inserts) (st : Chunk Unit × Volatile) : Prop :=
  (∀ t, st.2.now.tree t ∈ st.2.held t) ∧ ∃ lo hi c ser h, h <+ w ∧ PlRep lo hi c ser h st

/-- An older chunk. -/
def OldOk (w : Inserts) (st : Chunk Unit × SledStores) : Prop := st.1.poisoned = false ∧ ∃ c ser h, h <+ w ∧ SlSound c ser h st.2

/-- A database. -/
def PlOk (w : Inserts) : PlNode → Prop
  | .up db => CurOk w db.cur ∧ (∀ s ∈ db.old, TreesOk w s.trees) ∧ ∀ st ∈ db.secondary, OldOk w st
  | .down ss => ∀ s ∈ ss, TreesOk w s.trees

theorem TreesOk.mono {w w' : Inserts} {v : Volatile} (h : TreesOk w v) (hw : w <+ w') : TreesOk w' v := by
  obtain ⟨h1, c, x, h2, h3⟩ := h
  exact ⟨h1, c, x, h2.trans hw, h3⟩

theorem CurOk.mono {w w' : Inserts} {st : Chunk Unit × Volatile} (h : CurOk w st) (hw : w <+ w') : CurOk w' st := by
  obtain ⟨h1, lo, hi, c, ser, x, h2, h3⟩ := h
  exact ⟨h1, lo, hi, c, ser, x, h2.trans hw, h3⟩

theorem OldOk.mono {w w' : Inserts} {st : Chunk Unit × SledStores} (h : OldOk w st) (hw : w <+ w') : OldOk w' st := by
  obtain ⟨h1, c, ser, x, h2, h3⟩ := h
  exact ⟨h1, c, ser, x, h2.trans hw, h3⟩

theorem leaves_current {v : Volatile} (h : ∀ t, v.now.tree t ∈ v.held t) : v.Leaves v.now := fun t _ => ⟨_, h t, rfl⟩

theorem CurOk.trees {w : Inserts} {st : Chunk Unit × Volatile} (h : CurOk w st) : TreesOk w st.2 := by
  obtain ⟨h1, lo, hi, c, ser, x, h2, R⟩ := h
  refine ⟨leaves_current h1, c, x, h2, fun s hs => ?_⟩
  obtain ⟨ser', S, -⟩ := R.leaves hs
  exact ⟨ser', S⟩

theorem CurOk.old {w : Inserts} {st : Chunk Unit × Volatile} (h : CurOk w st) : OldOk w (st.1, st.2.now) := by
  obtain ⟨h1, lo, hi, c, ser, x, h2, R⟩ := h
  exact ⟨R.base.fine, c, ser, x, h2, R.base.sound'⟩

theorem TreesOk.old {w : Inserts} {v : Volatile} (h : TreesOk w v) {c : Chunk Unit} (hc : c.poisoned = false) : OldOk w (c, v.now) := by
  obtain ⟨h1, c, x, h2, h3⟩ := h
  obtain ⟨ser, S⟩ := h3 _ h1
  exact ⟨hc, c, ser, x, h2, S⟩

theorem TreesOk.rests {w : Inserts} {v v' : Volatile} (h : TreesOk w v) (hr : v.Rests v') : TreesOk w v' := by
  obtain ⟨-, c, x, h2, h3⟩ := h
  exact ⟨hr.1, c, x, h2, fun s hs => h3 s (hr.2 s hs)⟩

theorem treesOk_empty (w : Inserts) : TreesOk w (.settled noStores) := by
  have R := PlRep.new 0#64 0#64
  refine CurOk.trees (st := plNew 0#64 0#64) ⟨?_, _, _, _, _, _, List.nil_sublist w, R⟩
  intro t
  simp [plNew, Volatile.settled]

theorem curOk_new (w : Inserts) (lo hi : U64) : CurOk w (plNew lo hi) :=
  ⟨fun t => by simp [plNew, Volatile.settled], _, _, _, _, _, List.nil_sublist w, PlRep.new lo hi⟩

theorem execV_now_held {α : Type} (p : TreeProg α) (os : List OpOutcome) (v : Volatile) (t : TreeName) (h : v.now.tree t ∈ v.held t) :
    (p.execV os v).2.now.tree t ∈ (p.execV os v).2.held t := by
  have hset : ∀ (v : Volatile) (u : TreeName) (k x : Str), v.now.tree t ∈ v.held t → (v.set u k x).now.tree t ∈ (v.set u k x).held t := by
    intro v u k x h
    unfold Volatile.set
    simp only
    by_cases e : t = u
    · rw [if_pos e]; simp
    · rw [if_neg e, tree_set_other _ (Ne.symm e)]; exact h
  induction p generalizing os v with
  | ret a => exact h
  | get u k next ih => simp only [TreeProg.execV]; split <;> exact ih _ _ _ h
  | set u k x next ih =>
    simp only [TreeProg.execV]
    split
    · exact ih _ _ _ (hset _ _ _ _ h)
    · exact ih _ _ _ h
    · exact ih _ _ _ (hset _ _ _ _ h)
  | flush u next ih =>
    simp only [TreeProg.execV]
    split
    · refine ih _ _ _ ?_
      unfold Volatile.flush
      simp only
      split
      · simp
      · exact h
    · exact ih _ _ _ h

/-- One insert. -/
theorem CurOk.insert {w : Inserts} {st : Chunk Unit × Volatile} (h : CurOk w st) (hlen : w.length + 1 < 2 ^ 64 - 1) {ls : Labels} (hls : WFSet ls)
    (p : TimePoint) (os : List OpOutcome) : (plInsert st ⟨ls, p, os⟩).1 ≠ .panic ∧ CurOk (w ++ [(ls, p)]) (plInsert st ⟨ls, p, os⟩).2 := by
  have h1 : ∀ t, (plInsert st ⟨ls, p, os⟩).2.2.now.tree t ∈ (plInsert st ⟨ls, p, os⟩).2.2.held t := fun t => execV_now_held _ _ _ _ (h.1 t)
  obtain ⟨-, lo, hi, c, ser, x, h2, R⟩ := h
  obtain ⟨g1, g2⟩ := R.insert (by have := h2.length_le; omega) hls p os
  rcases hin : inside lo hi p with _ | _
  · have e := g1 hin
    rw [e] at h1 ⊢
    exact ⟨by simp, h1, lo, hi, c, ser, x, h2.trans (List.sublist_append_left _ _), R⟩
  · obtain ⟨g3, c', ser', R'⟩ := g2 hin
    refine ⟨?_, h1, lo, hi, c', ser', _, h2.append (List.Sublist.refl _), R'⟩
    rcases g3 with g3 | g3 <;> rw [g3] <;> simp

theorem CurOk.insertEach {w : Inserts} {st : Chunk Unit × Volatile} (h : CurOk w st) {ls : Labels} (hls : WFSet ls)
    (ps : List (TimePoint × List OpOutcome)) (hlen : w.length + ps.length < 2 ^ 64 - 1) :
    (plInsertEach st ls ps).1 ≠ .panic ∧ CurOk (w ++ ps.map fun p => (ls, p.1)) (plInsertEach st ls ps).2 := by
  induction ps generalizing w st with
  | nil => exact ⟨by simp [plInsertEach], by simpa [plInsertEach] using h⟩
  | cons p ps ih =>
    rw [List.length_cons] at hlen
    obtain ⟨h1, h2⟩ := h.insert (by omega) hls p.1 p.2
    have ih := ih h2 (by rw [List.length_append, List.length_singleton]; omega)
    rw [List.append_assoc] at ih
    rw [plInsertEach]
    rcases hr : plInsert st ⟨ls, p.1, p.2⟩ with ⟨r, st'⟩
    rw [hr] at h1 h2 ih
    rcases r with u | e | _
    · exact ih
    · simp only
      rcases hr' : plInsertEach st' ls ps with ⟨r', st''⟩
      rw [hr'] at ih
      rcases r' with n | e | _
      · exact ⟨by simp, ih.2⟩
      · exact ih
      · exact absurd rfl ih.1
    · exact absurd rfl h1

theorem plWrite_state (st : Chunk Unit × Volatile) (ls : Labels) (ps : List (TimePoint × List OpOutcome)) :
    (plWrite st ls ps).2 = (plInsertEach st ls (plKept st ps)).2 ∧
    ((plInsertEach st ls (plKept st ps)).1 ≠ .panic → (plWrite st ls ps).1 ≠ .panic) := by
  unfold plWrite
  rcases plInsertEach st ls (plKept st ps) with ⟨(_ | n) | e | _, st'⟩ <;> simp

theorem PlOk.slots {w : Inserts} {db : PlDb} (h : PlOk w (.up db)) : ∀ s ∈ db.slots, TreesOk w s.trees := by
  intro s hs
  rcases List.mem_append.mp hs with hs | hs
  · exact h.2.1 s hs
  · rw [List.mem_singleton] at hs
    rw [hs]; exact h.1.trees

theorem makeChunk_slot (f : DirFaults) (lo hi : U64) : ∀ s ∈ (makeChunk f lo hi).2, s.stores = noStores := by
  intro s hs
  rcases f with ⟨_ | _, _ | _, _ | _, _ | _, _ | _⟩ <;> simp [makeChunk, writeConfig] at hs <;> rw [← hs]

theorem makeChunk_chunk (f : DirFaults) (lo hi : U64) {c : Chunk SledStores} (h : (makeChunk f lo hi).1 = .ok c) : c = Chunk.new noStores lo hi := by
  rcases f with ⟨_ | _, _ | _, _ | _, _ | _, _ | _⟩ <;> simp [makeChunk, writeConfig] at h <;> exact h.symm

theorem leftovers_ok (w : Inserts) (f : DirFaults) (lo hi : U64) : ∀ s ∈ (makeChunk f lo hi).2.toList.map Slot.settled, TreesOk w s.trees := by
  intro s hs
  obtain ⟨x, hx, rfl⟩ := List.mem_map.mp hs
  have := makeChunk_slot f lo hi x (by simpa using hx)
  show TreesOk w (.settled x.stores)
  rw [this]; exact treesOk_empty w

theorem PlOk.swap {w : Inserts} {db : PlDb} (h : PlOk w (.up db)) (size start_ : U64) (f : DirFaults) : PlOk w (.up (db.swap size start_ f).2) := by
  have hl := leftovers_ok w f start_ (start_ + size)
  have hc := fun {c} => makeChunk_chunk f start_ (start_ + size) (c := c)
  unfold PlDb.swap
  rcases hm : makeChunk f start_ (start_ + size) with ⟨c | e | _, s⟩
  · have hc := hc (by rw [hm])
    subst hc
    rcases s with _ | s
    · exact h
    · refine ⟨curOk_new w start_ (start_ + size), h.slots, fun st hst => ?_⟩
      rcases List.mem_append.mp hst with hst | hst
      · exact h.2.2 st hst
      · rw [List.mem_singleton] at hst
        subst hst
        obtain ⟨h1, h2⟩ := h.1.old
        refine ⟨?_, h2⟩
        have h1 : db.cur.1.poisoned = false := h1
        show db.cur.1.close.2.poisoned = false
        unfold Chunk.close
        simp [h1]
  all_goals
    refine ⟨h.1, fun x hx => ?_, h.2.2⟩
    rw [hm] at hl
    rcases List.mem_append.mp hx with hx | hx
    · exact h.2.1 x hx
    · exact hl x hx

theorem readChunks_from (base : Str) (clock : Str → U64) (ss : List Slot) {cs : List (Chunk SledStores)} (h : readChunks base clock ss = some cs) :
    ∀ c ∈ cs, c.poisoned = false ∧ ∃ s ∈ ss, c.store = s.stores := by
  induction ss generalizing cs with
  | nil => simp only [readChunks, Option.some.injEq] at h; subst h; simp
  | cons s ss ih =>
    rw [readChunks] at h
    rcases hr : s.reopen base clock with _ | _ | c
    · rw [hr] at h; cases h
    · rw [hr] at h
      intro x hx
      obtain ⟨h1, y, hy, h2⟩ := ih h x hx
      exact ⟨h1, y, by simp [hy], h2⟩
    · rw [hr] at h
      simp only [Option.map_eq_some_iff] at h
      obtain ⟨cs', h1, rfl⟩ := h
      intro x hx
      rcases List.mem_cons.mp hx with rfl | hx
      · unfold Slot.reopen at hr
        split at hr
        · cases hr
        · cases hr
        · cases hr
          exact ⟨rfl, s, by simp, rfl⟩
      · obtain ⟨h1, y, hy, h2⟩ := ih h1 x hx
        exact ⟨h1, y, by simp [hy], h2⟩

theorem PlOk.open {w : Inserts} {ss : List PlSlot} (h : ∀ s ∈ ss, TreesOk w s.trees) (base : Str) (size : U64) (clock : Str → U64) (now : U64)
    (f : DirFaults) : PlOk w (.open base size clock now f ss) := by
  have hl := leftovers_ok w f now (now + size)
  have hc := fun {c} => makeChunk_chunk f now (now + size) (c := c)
  have hdown : ∀ s, (makeChunk f now (now + size)).2 = s → PlOk w (.down (ss ++ s.toList.map Slot.settled)) := by
    rintro s rfl x hx
    rcases List.mem_append.mp hx with hx | hx
    · exact h x hx
    · exact hl x hx
  unfold PlNode.open
  rcases hr : readExistingChunks base clock (ss.map PlSlot.seen) with _ | cs
  · exact h
  · simp only
    have hcs : ∀ c ∈ cs, OldOk w c.split := by
      unfold readExistingChunks at hr
      simp only [Option.map_eq_some_iff] at hr
      obtain ⟨cs', h1, rfl⟩ := hr
      intro c hc
      obtain ⟨g1, s, hs, g2⟩ := readChunks_from base clock _ h1 c ((stableSort_perm _ _).mem_iff.mp hc)
      obtain ⟨y, hy, rfl⟩ := List.mem_map.mp hs
      have := (h y hy).old (c := c.split.1) g1
      have e : c.split = (c.split.1, y.trees.now) := Prod.ext rfl g2
      rw [e]; exact this
    rcases hm : makeChunk f now (now + size) with ⟨c | e | _, s⟩
    · have hc := hc (by rw [hm])
      subst hc
      rcases s with _ | s
      · exact hdown _ (by rw [hm])
      · refine ⟨curOk_new w now (now + size), h, fun st hst => ?_⟩
        obtain ⟨c, hc, rfl⟩ := List.mem_map.mp hst
        exact hcs c hc
    · exact hdown _ (by rw [hm])
    · exact hdown _ (by rw [hm])

/-- The invariant holds throughout. -/
theorem lived_ok {base : Str} {size : U64} {w : Inserts} {n : PlNode} (h : Lived base size w n) (hwf : ∀ x ∈ w, WFSet x.1) (hlen : w.length < 2 ^ 64 - 1) :
    PlOk w n := by
  induction h with
  | empty => intro s hs; cases hs
  | start before order clock now f unused ih => exact PlOk.open (fun s hs => ih hwf hlen s (order.mem_iff.mp hs)) _ _ _ _ _
  | @write w db before ls ps ih =>
    have hsub := List.sublist_append_left w ((plKept db.cur ps).map fun p => (ls, p.1))
    rw [List.length_append, List.length_map] at hlen
    have ih := ih (fun x hx => hwf x (by simp [hx])) (by omega)
    refine ⟨?_, fun s hs => (ih.2.1 s hs).mono hsub, fun st hst => (ih.2.2 st hst).mono hsub⟩
    show CurOk _ (plWrite db.cur ls ps).2
    rw [(plWrite_state _ _ _).1]
    rcases hk : plKept db.cur ps with _ | ⟨p, rest⟩
    · simpa [plInsertEach] using ih.1
    · have hls : WFSet ls := hwf (ls, p.1) (by rw [hk]; simp)
      rw [← hk]
      exact (ih.1.insertEach hls _ (by omega)).2
  | tick before reading f unused ih => exact (ih hwf hlen).swap _ _ _
  | stop before ih => exact (ih hwf hlen).slots
  | @stopWithin w db before ls ps p os n kept ih =>
    have hsub := List.sublist_append_left w ((ps ++ [(p, os)]).map fun p => (ls, p.1))
    rw [List.length_append, List.length_map, List.length_append, List.length_singleton] at hlen
    have ih := ih (fun x hx => hwf x (by simp [hx])) (by omega)
    have hls : WFSet ls := hwf (ls, p) (by simp)
    intro s hs
    rcases List.mem_append.mp hs with hs | hs
    · exact (ih.2.1 s hs).mono hsub
    · rw [List.mem_singleton] at hs
      subst hs
      obtain ⟨-, h1⟩ := ih.1.insertEach hls ps (by omega)
      obtain ⟨os', e⟩ := (slInsertP (plInsertEach db.cur ls ps).2.1 ls p).cut_execV n os (plInsertEach db.cur ls ps).2.2
      have h2 := (h1.insert (by rw [List.length_append, List.length_map]; omega) hls p os').2.trees
      rw [List.append_assoc] at h2
      show TreesOk _ (plWriteCut db.cur ls ps p os n)
      unfold plWriteCut
      simp only
      rw [← e]
      simpa [plInsert] using h2
  | lose before rest ih =>
    intro s hs
    obtain ⟨s0, h0, -, h1⟩ := rest s hs
    exact (ih hwf hlen s0 h0).rests h1

end Verif
