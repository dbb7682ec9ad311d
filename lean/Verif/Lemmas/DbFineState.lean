import Verif.Lemmas.DbFineQuery
/-! A query followed from its call to its result, step by step. -/
namespace Verif
open List

section
variable {B : Kit} {H : Hash} {progs : Nat → List DbOp} {n : Nat} {c c1 : FConf}

theorem NewSeries.mono {lo hi : U64} {before b1 b2 : Inserts} {q : Labels} (h : NewSeries lo hi before b1 q) (hb : b1 <+: b2) : NewSeries lo hi before b2 q := by
  obtain ⟨g, w, h1, h2, h3⟩ := h
  exact ⟨g, w, h1, h2.trans hb, h3⟩

/-- The query of chunk `i` is under way, `p` is left. -/
def Reading (B : Kit) (c1 c : FConf) (q : Labels) (a b : U64) (i : Nat) (p : Proc SChunk (Res (List Series))) : Prop :=
  ∃ S : FChunk, c.chunks[i]? = some S ∧ ∃ before, (∀ S1 : FChunk, c1.chunks[i]? = some S1 → S1.started <+: before) ∧
    Seen Moment.le (At B S.store.start_ S.store.end_) (FairAnswer S.store.start_ S.store.end_ before q a b) S.moment p

theorem Reading.mono {c' : FConf} (hg : FGrow c c') {q : Labels} {a b : U64} {i : Nat} {p : Proc SChunk (Res (List Series))}
    (h : Reading B c1 c q a b i p) : Reading B c1 c' q a b i p := by
  obtain ⟨S, hS, before, h1, h2⟩ := h
  obtain ⟨S', hS', hm, e1, e2⟩ := hg.chunk i S hS
  exact ⟨S', hS', before, h1, by rw [e1, e2]; exact Seen.mono (le := Moment.le) (w := S.moment) (w' := S'.moment) (fun h h' => Moment.le_trans h h') h2 hm⟩

theorem Reading.begin (h : FInv [] B progs n c) (hb : n + 1 < 2 ^ 64 - 1) (hg : FGrow c1 c) {q : Labels} (hq : ∀ l ∈ q, WFLabel l)
    {a b : U64} (hab : a.toNat ≤ b.toNat) {i : Nat} {S : FChunk} (hS : c.chunks[i]? = some S) {p : Proc SChunk (Res (List Series))}
    (hp : FChunk.beginQuery B S q a b = some p) : Reading B c1 c q a b i p := by
  obtain ⟨todo0, hs⟩ := h.sys i S hS (Nat.zero_le _)
  have hfine := h.fine hb i
  rw [← h.started i S hS] at hfine
  unfold FChunk.beginQuery at hp
  rcases hl : S.lock with _ | x
  · rw [hl] at hp
    simp only [(hs.win hfine).2.2 hl, Bool.false_eq_true, if_false, Option.some.injEq] at hp
    subst hp
    refine ⟨S, hS, S.started, ?_, ?_⟩
    · intro S1 hS1
      obtain ⟨S', hS', hm, -⟩ := hg.chunk i S1 hS1
      rw [hS] at hS'
      cases hS'
      exact hm.2
    · have : S.moment = ⟨S.started, S.started⟩ := by
        unfold Sys.moment Sys.settled Sys.started
        rw [hl]
      rw [this]
      exact kitQuery_seen B hq hab
  · rw [hl] at hp; cases hp

theorem Reading.act (h : FInv [] B progs n c) (hs : SingleWriter progs) (hb : n + 1 < 2 ^ 64 - 1) {q : Labels} {a b : U64} {i : Nat} {S : FChunk}
    (hS : c.chunks[i]? = some S) {u : SChunk → SChunk} {k : SChunk → Proc SChunk (Res (List Series))}
    (hr : Reading B c1 c q a b i (.act u k)) : Reading B c1 c q a b i (k S.store) := by
  obtain ⟨S', hS', before, h1, h2⟩ := hr
  rw [hS] at hS'
  cases hS'
  refine ⟨S, hS, before, h1, ?_⟩
  cases h2 with
  | act hu hk => exact hk _ _ (Moment.le_refl _) (h.at hs hb hS)

theorem Reading.ret (h : FInv [] B progs n c) (hs : SingleWriter progs) (hb : n + 1 < 2 ^ 64 - 1) (hg : FGrow c1 c) {q : Labels} (hq0 : q ≠ [])
    {a b : U64} {i : Nat} {r : Res (List Series)} (hr : Reading B c1 c q a b i (.ret r)) : Gives progs c1 c q a b i r := by
  obtain ⟨S, hS, before, h1, h2⟩ := hr
  cases h2 with
  | ret hq => exact fair_gives h hs hb hg hq0 hS h1 (hq _ (Moment.le_refl _))

/-- What the query has to report of chunk `i` is in the map. -/
def FCovered (c1 c : FConf) (q : Labels) (a b : U64) (P : Labels → TimePoint → Prop) (i : Nat) : Prop :=
  ∀ S1 : FChunk, c1.chunks[i]? = some S1 →
    (∃ S : FChunk, c.chunks[i]? = some S ∧ NewSeries S1.store.start_ S1.store.end_ S1.started S.started q) ∨ Has S1 q a b P

theorem FCovered.mono {c' : FConf} (hg : FGrow c c') {q : Labels} {a b : U64} {P P' : Labels → TimePoint → Prop} {i : Nat} (hP : ∀ k p, P k p → P' k p)
    (h : FCovered c1 c q a b P i) : FCovered c1 c' q a b P' i := by
  intro S1 hS1
  rcases h S1 hS1 with ⟨S, hS, hn⟩ | hh
  · obtain ⟨S', hS', hm, -⟩ := hg.chunk i S hS
    exact Or.inl ⟨S', hS', hn.mono hm.2⟩
  · exact Or.inr fun w hw h1 h2 h3 h4 => hP _ _ (hh w hw h1 h2 h3 h4)

/-- Progress of a query that was the next call of an idle thread in state `c1`. -/
inductive FQState (B : Kit) (progs : Nat → List DbOp) (c1 : FConf) (q : Labels) (a b : U64) (k0 : Nat) (c : FConf) (th : FThread) : Prop
  | idle (rest : List DbOp) (h1 : th.done.length = k0) (h2 : th.now = none) (h3 : th.todo = .query q a b :: rest)
  | first (h1 : th.done.length = k0) (h2 : th.now = some (.q1 q a b))
  | current (p : Proc SChunk (Res (List Series))) (h1 : th.done.length = k0) (h2 : th.now = some (.reading1 q a b p))
      (h3 : Reading B c1 c q a b c.current p)
  | between (m : HMap) (f : Labels → Option (List TimePoint)) (h1 : th.done.length = k0) (h2 : th.now = some (.q2 q a b m))
      (h3 : Holds (Written progs) f m) (h4 : ∀ k p, HasF f k p → FromDone c a b k p)
      (h5 : ∀ i ≤ c1.current, FCovered c1 c q a b (HasF f) i ∨ i < c.current)
  | second (ids : List Nat) (m : HMap) (f : Labels → Option (List TimePoint)) (h1 : th.done.length = k0) (h2 : th.now = some (.q3 q a b ids m))
      (h3 : Holds (Written progs) f m) (h4 : ∀ k p, HasF f k p → FromDone c a b k p)
      (h5 : ∀ i ∈ ids, i ≤ c.current) (h6 : ∀ i ≤ c1.current, FCovered c1 c q a b (HasF f) i ∨ i ∈ ids)
  | older (i : Nat) (ids : List Nat) (m : HMap) (f : Labels → Option (List TimePoint)) (p : Proc SChunk (Res (List Series))) (h1 : th.done.length = k0)
      (h2 : th.now = some (.reading3 q a b i ids m p)) (h3 : Holds (Written progs) f m) (h4 : ∀ k p, HasF f k p → FromDone c a b k p)
      (h5 : ∀ i ∈ ids, i ≤ c.current) (h6 : ∀ j ≤ c1.current, FCovered c1 c q a b (HasF f) j ∨ j = i ∨ j ∈ ids) (h7 : Reading B c1 c q a b i p)
  | answered (r : List (Labels × List TimePoint)) (h1 : th.done[k0]? = some (.answered q a b (.ok r))) (h2 : (r.map (·.1)).Nodup)
      (h3 : ∀ e ∈ r, ∀ p ∈ e.2, FromDone c a b e.1 p)
      (h4 : ∀ i ≤ c1.current, FCovered c1 c q a b (fun k p => ∃ v, (k, v) ∈ r ∧ p ∈ v) i)

theorem FQState.mono {c' : FConf} {q : Labels} {a b : U64} {k0 : Nat} {th : FThread} (hg : FGrow c c')
    (hc : fHoldsCur th.now = true → c'.current = c.current) (h : FQState B progs c1 q a b k0 c th) : FQState B progs c1 q a b k0 c' th := by
  have hid : ∀ {P : Labels → TimePoint → Prop} {i}, FCovered c1 c q a b P i → FCovered c1 c' q a b P i := fun h => h.mono hg fun _ _ x => x
  rcases h with ⟨rest, h1, h2, h3⟩ | ⟨h1, h2⟩ | ⟨p, h1, h2, h3⟩ | ⟨m, f, h1, h2, h3, h4, h5⟩ | ⟨ids, m, f, h1, h2, h3, h4, h5, h6⟩ |
    ⟨i, ids, m, f, p, h1, h2, h3, h4, h5, h6, h7⟩ | ⟨r, h1, h2, h3, h4⟩
  · exact .idle rest h1 h2 h3
  · exact .first h1 h2
  · exact .current p h1 h2 (by rw [hc (by rw [h2]; rfl)]; exact h3.mono hg)
  · exact .between m f h1 h2 h3 (fun k p hp => (h4 k p hp).mono hg) (fun i hi => (h5 i hi).imp hid fun x => lt_of_lt_of_le x hg.cur)
  · exact .second ids m f h1 h2 h3 (fun k p hp => (h4 k p hp).mono hg) (fun i hi => (h5 i hi).trans hg.cur) (fun i hi => (h6 i hi).imp hid id)
  · exact .older i ids m f p h1 h2 h3 (fun k p hp => (h4 k p hp).mono hg) (fun i hi => (h5 i hi).trans hg.cur) (fun i hi => (h6 i hi).imp hid id) (h7.mono hg)
  · exact .answered r h1 h2 (fun e he p hp => (h3 e he p hp).mono hg) (fun i hi => hid (h4 i hi))

/-- What the answer of the current chunk makes of the map. -/
theorem gives_current (hH : H.Good (Written progs)) {q : Labels} {a b : U64} {i : Nat} {r : Res (List Series)} (g : Gives progs c1 c q a b i r) :
    ∃ m f, queryCurrent H (viewOf r) q a b = some m ∧ Holds (Written progs) f m ∧ (∀ k p, HasF f k p → FromDone c a b k p) ∧ FCovered c1 c q a b (HasF f) i := by
  rcases r with ss | e | _
  · obtain ⟨m, e1, e2⟩ := addSeries_insert hH ss g.written g.nodup (holds_empty _) (fun _ _ => rfl)
    refine ⟨m, _, e1, e2, ?_, ?_⟩
    · intro k p hp
      rcases addOlder_only hp with ⟨v, hv, -⟩ | ⟨s, hs, rfl, hps⟩
      · cases hv
      · exact g.from_ s hs p hps
    · intro S1 hS1
      refine (g.has S1 hS1).imp id fun hh w hw h1 h2 h3 h4 => ?_
      obtain ⟨s, hs, e, hp⟩ := hh w hw h1 h2 h3 h4
      rw [← e]
      exact addOlder_new hs hp
  · refine ⟨[], fun _ => none, rfl, holds_empty _, fun k p ⟨v, hv, _⟩ => (by cases hv), ?_⟩
    intro S1 hS1
    refine (g.has S1 hS1).imp id fun hh w hw h1 h2 h3 h4 => ?_
    obtain ⟨s, hs, -⟩ := hh w hw h1 h2 h3 h4
    simp [okSeries] at hs
  · exact absurd rfl g.no_panic

/-- What the answer of an older chunk adds to the map. -/
theorem gives_older (hH : H.Good (Written progs)) {q : Labels} {a b : U64} {i : Nat} {r : Res (List Series)} (g : Gives progs c1 c q a b i r)
    {m : HMap} {f : Labels → Option (List TimePoint)} (h3 : Holds (Written progs) f m) (h4 : ∀ k p, HasF f k p → FromDone c a b k p) :
    ∃ m' f', querySecondary H q a b [viewOf r] m = some m' ∧ Holds (Written progs) f' m' ∧ (∀ k p, HasF f' k p → FromDone c a b k p) ∧
      (∀ k p, HasF f k p → HasF f' k p) ∧ FCovered c1 c q a b (HasF f') i := by
  obtain ⟨m', e1, e2⟩ := querySecondary_spec (q := q) (a := a) (b := b) hH [viewOf r] (by
      intro v hv _; rw [List.mem_singleton.mp hv]; exact g.no_panic) (by
      intro v hv s hs'; rw [List.mem_singleton.mp hv] at hs'; exact g.written s hs') h3
  simp only [List.map_cons, List.map_nil, stacked, viewOf, if_true] at e2
  refine ⟨m', _, e1, e2, ?_, fun k p hp => addOlder_keep hp _, ?_⟩
  · intro k p hp
    rcases addOlder_only hp with h' | ⟨s, hs, rfl, hps⟩
    · exact h4 k p h'
    · exact g.from_ s hs p hps
  · intro S1 hS1
    refine (g.has S1 hS1).imp id fun hh w hw h1 h2 h3 h4 => ?_
    obtain ⟨s, hs, e, hp⟩ := hh w hw h1 h2 h3 h4
    rw [← e]
    exact addOlder_new hs hp

theorem fqstate_step (hs : SingleWriter progs) (hH : H.Good (Written progs)) (hb : n + 1 < 2 ^ 64 - 1) (h : FInv [] B progs n c) (hg : FGrow c1 c)
    {q : Labels} (hq0 : q ≠ []) (hq : ∀ l ∈ q, WFLabel l) {a b : U64} (hab : a.toNat ≤ b.toNat) {k0 t : Nat}
    (hst : FQState B progs c1 q a b k0 c (c.threads t)) (t' : Nat) : FQState B progs c1 q a b k0 (c.step B H t') ((c.step B H t').threads t) := by
  have hgs := step_fgrow (H := H) hb h t'
  by_cases ht : t = t'
  · subst ht
    obtain ⟨S, hS⟩ := h.getCur
    rcases hst with ⟨rest, h1, h2, h3⟩ | ⟨h1, h2⟩ | ⟨p, h1, h2, h3⟩ | ⟨m, f, h1, h2, h3, h4, h5⟩ | ⟨ids, m, f, h1, h2, h3, h4, h5, h6⟩ |
      ⟨i, ids, m, f, p, h1, h2, h3, h4, h5, h6, h7⟩ | ⟨r, h1, h2, h3, h4⟩
    · refine .first ?_ ?_ <;> simp [FConf.step, h2, FConf.begin, h3, hS, FConf.goto, FConf.setThread, h1]
    · have hstep : c.step B H t = c.stepQ1 B t q a b := by simp [FConf.step, h2]
      rw [hstep]
      unfold FConf.stepQ1
      rw [hS]
      simp only []
      rcases hbq : FChunk.beginQuery B S q a b with _ | p
      · exact .first h1 h2
      · refine .current p ?_ ?_ (Reading.begin h hb hg hq hab hS hbq)
        · simp [FConf.goto, FConf.setThread, h1]
        · simp [FConf.goto, FConf.setThread]
    · have hstep : c.step B H t = c.stepReading1 H t q a b p := by simp [FConf.step, h2]
      rw [hstep]
      have hro := (h.thr t).ro p (by rw [h2]; rfl)
      rcases p with r | ⟨u, k⟩
      · obtain ⟨m, f, e1, e2, e3, e4⟩ := gives_current hH (Reading.ret h hs hb hg hq0 h3)
        simp only [FConf.stepReading1, e1]
        refine .between m f ?_ ?_ e2 e3 ?_
        · simp [FConf.goto, FConf.setThread, FConf.dropCur, h1]
        · simp [FConf.goto, FConf.setThread]
        · intro i hi
          have hle := hg.cur
          by_cases hic : i = c.current
          · left; rw [hic]; exact e4
          · right; show i < c.current; omega
      · simp only [FConf.stepReading1, hS]
        cases hro with
        | act hu hk =>
          rw [h.setSame hS hu]
          refine .current (k S.store) ?_ ?_ (Reading.act h hs hb hS h3)
          · simp [FConf.goto, FConf.setThread, h1]
          · simp [FConf.goto, FConf.setThread]
    · have hstep : c.step B H t = ({ c with secR := t :: c.secR } : FConf).goto t (.q3 q a b c.secondary.reverse m) := by simp [FConf.step, h2]
      rw [hstep]
      refine .second c.secondary.reverse m f ?_ ?_ h3 h4 ?_ ?_
      · simp [FConf.goto, FConf.setThread, h1]
      · simp [FConf.goto, FConf.setThread]
      · intro i hi
        rw [List.mem_reverse, h.sec, List.mem_range] at hi
        show i ≤ c.current
        split at hi <;> omega
      · intro i hi
        refine (h5 i hi).imp id fun hlt => ?_
        rw [List.mem_reverse, h.sec, List.mem_range]
        split <;> omega
    · have hstep : c.step B H t = c.stepQ3 B H t q a b ids m := by simp [FConf.step, h2]
      rw [hstep]
      unfold FConf.stepQ3
      rcases ids with _ | ⟨i, ids⟩
      · simp only []
        have hkeys : ∀ ky ∈ H.order (m.map (·.1)), ky ∈ m.map (·.1) := fun ky hky => (H.perm _).mem_iff.mp hky
        rw [collectKeys_good hH h3 _ hkeys]
        have hmemr : ∀ ky v, (ky, v) ∈ (H.order (m.map (·.1))).map (fun ky => (ky, ((f ky).getD []).reverse)) ↔ ∃ u, f ky = some u ∧ v = u.reverse := by
          intro ky v
          rw [List.mem_map]
          constructor
          · rintro ⟨x, hx, e⟩
            obtain ⟨rfl, rfl⟩ := Prod.mk.inj e
            obtain ⟨u, hu⟩ := Option.ne_none_iff_exists'.mp ((h3.mem_keys x).mp (hkeys x hx))
            exact ⟨u, hu, by rw [hu]; rfl⟩
          · rintro ⟨u, hu, rfl⟩
            refine ⟨ky, (H.perm _).mem_iff.mpr ((h3.mem_keys ky).mpr (by rw [hu]; simp)), by rw [hu]; rfl⟩
        refine .answered ((H.order (m.map (·.1))).map fun ky => (ky, ((f ky).getD []).reverse)) ?_ ?_ ?_ ?_
        · simp [FConf.finish, FConf.setThread, FConf.dropSec, ← h1, Res.ofPanic]
        · rw [List.map_map]
          have : ((fun x : Labels × List TimePoint => x.1) ∘ fun ky => (ky, ((f ky).getD []).reverse)) = id := rfl
          rw [this, List.map_id]
          exact (H.perm _).nodup_iff.mpr h3.nodup
        · rintro ⟨ky, v⟩ he p hp
          obtain ⟨u, hu, rfl⟩ := (hmemr ky v).mp he
          exact h4 ky p ⟨u, hu, List.mem_reverse.mp hp⟩
        · intro i hi
          refine ((h6 i hi).resolve_right (by simp)).mono (FGrow.same rfl rfl rfl) ?_
          intro k p ⟨u, hu, hp⟩
          exact ⟨u.reverse, (hmemr k _).mpr ⟨u, hu, rfl⟩, List.mem_reverse.mpr hp⟩
      · simp only []
        have hi : i ≤ c.current := h5 i (by simp)
        have hlt : i < c.chunks.length := by rw [h.len]; omega
        obtain ⟨X, hX⟩ : ∃ X, c.chunks[i]? = some X := ⟨c.chunks[i], List.getElem?_eq_getElem hlt⟩
        rw [hX]
        simp only []
        by_cases hw : X.store.isWithRange a b = true
        · rw [if_pos hw]
          rcases hbq : FChunk.beginQuery B X q a b with _ | p
          · exact .second (i :: ids) m f h1 h2 h3 h4 h5 h6
          · refine .older i ids m f p ?_ ?_ h3 h4 (fun j hj => h5 j (by simp [hj])) ?_ (Reading.begin h hb hg hq hab hX hbq)
            · simp [FConf.goto, FConf.setThread, h1]
            · simp [FConf.goto, FConf.setThread]
            · intro j hj
              exact (h6 j hj).imp id List.mem_cons.mp
        · rw [if_neg hw]
          refine .second ids m f ?_ ?_ h3 h4 (fun j hj => h5 j (by simp [hj])) ?_
          · simp [FConf.goto, FConf.setThread, h1]
          · simp [FConf.goto, FConf.setThread]
          · intro j hj
            rcases h6 j hj with hc | hm
            · exact Or.inl hc
            · rcases List.mem_cons.mp hm with rfl | hm
              · left
                intro S1 hS1
                right
                intro w hw' hin hqw ha hb'
                exfalso
                obtain ⟨S', hS', -, e1, e2⟩ := hg.chunk j S1 hS1
                rw [hX] at hS'
                cases hS'
                apply hw
                simp only [inside, Bool.and_eq_true, decide_eq_true_eq] at hin
                simp only [Chunk.isWithRange, isDurationOverlap, e1, e2, Bool.not_eq_true', Bool.or_eq_false_iff, decide_eq_false_iff_not]
                omega
              · exact Or.inr hm
    · have hstep : c.step B H t = c.stepReading3 H t q a b i ids m p := by simp [FConf.step, h2]
      rw [hstep]
      have hro := (h.thr t).ro p (by rw [h2]; rfl)
      rcases p with r | ⟨u, k⟩
      · obtain ⟨m', f', e1, e2, e3, e4, e5⟩ := gives_older hH (Reading.ret h hs hb hg hq0 h7) h3 h4
        simp only [FConf.stepReading3, e1]
        refine .second ids m' f' ?_ ?_ e2 e3 h5 ?_
        · simp [FConf.goto, FConf.setThread, h1]
        · simp [FConf.goto, FConf.setThread]
        · intro j hj
          rcases h6 j hj with hc | rfl | hm
          · exact Or.inl (hc.mono (FGrow.same rfl rfl rfl) e4)
          · exact Or.inl e5
          · exact Or.inr hm
      · obtain ⟨X, hX, -⟩ := id h7
        simp only [FConf.stepReading3, hX]
        cases hro with
        | act hu hk =>
          rw [h.setSame hX hu]
          refine .older i ids m f (k X.store) ?_ ?_ h3 h4 h5 h6 (Reading.act h hs hb hX h7)
          · simp [FConf.goto, FConf.setThread, h1]
          · simp [FConf.goto, FConf.setThread]
    · refine .answered r ?_ h2 (fun e he p hp => (h3 e he p hp).mono hgs) (fun i hi => (h4 i hi).mono hgs fun _ _ x => x)
      have hlt : k0 < (c.threads t).done.length := by
        by_contra hge
        rw [List.getElem?_eq_none (by omega)] at h1; cases h1
      have key : (c.threads t).done <+: ((c.step B H t).threads t).done := step_fdone t
      obtain ⟨x, hx⟩ := key
      rw [← hx, List.getElem?_append_left hlt]; exact h1
  · rw [step_fother t' t ht]
    exact hst.mono hgs fun hh => step_fcurrent h hh

theorem fqstate_run (hf : FineProgs progs) (hs : SingleWriter progs) (hH : H.Good (Written progs)) {q : Labels} (hq0 : q ≠ []) (hq : ∀ l ∈ q, WFLabel l)
    {a b : U64} (hab : a.toNat ≤ b.toNat) {k0 t : Nat} (sched : List Nat) : ∀ {n : Nat} {c : FConf}, n + sched.length < 2 ^ 64 - 1 → FInv [] B progs n c → FGrow c1 c →
    FQState B progs c1 q a b k0 c (c.threads t) →
    FQState B progs c1 q a b k0 (c.run B H sched) ((c.run B H sched).threads t) ∧ FGrow c1 (c.run B H sched) := by
  induction sched with
  | nil => intro n c _ _ hg hst; exact ⟨hst, hg⟩
  | cons t' ts ih =>
    intro n c hl h hg hst
    simp only [List.length_cons] at hl
    exact ih (n := n + 1) (by omega) (h.step hf (by omega) t') (hg.trans (step_fgrow (by omega) h t'))
      (fqstate_step hs hH (by omega) h hg hq0 hq hab hst t')

end
end Verif
