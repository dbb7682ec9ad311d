import Verif.Lemmas.DbFineStep
import Verif.Spec.DbFine
namespace Verif
open List

/-! ### Growth -/

/-- The second state is later. -/
structure FGrow (c c' : FConf) : Prop where
  log : c.log <+: c'.log
  cur : c.current ≤ c'.current
  chunk : ∀ (i : Nat) (S : FChunk), c.chunks[i]? = some S → ∃ S' : FChunk, c'.chunks[i]? = some S' ∧ S.moment.le S'.moment ∧
    S'.store.start_ = S.store.start_ ∧ S'.store.end_ = S.store.end_

theorem FGrow.refl (c : FConf) : FGrow c c := ⟨List.prefix_refl _, le_refl _, fun _ S hS => ⟨S, hS, Moment.le_refl _, rfl, rfl⟩⟩
theorem FGrow.trans {a b c : FConf} (h1 : FGrow a b) (h2 : FGrow b c) : FGrow a c := by
  refine ⟨h1.log.trans h2.log, h1.cur.trans h2.cur, fun i S hS => ?_⟩
  obtain ⟨S', h3, h4, h5, h6⟩ := h1.chunk i S hS
  obtain ⟨S'', h7, h8, h9, h10⟩ := h2.chunk i S' h3
  exact ⟨S'', h7, Moment.le_trans h4 h8, h9.trans h5, h10.trans h6⟩
theorem FGrow.same {c c' : FConf} (h1 : c'.chunks = c.chunks) (h2 : c'.current = c.current) (h3 : c'.log = c.log) : FGrow c c' :=
  ⟨by rw [h3]; exact List.prefix_refl _, by rw [h2], fun i S hS => ⟨S, by rw [h1]; exact hS, Moment.le_refl _, rfl, rfl⟩⟩

theorem FGrow.set {c c' : FConf} {S S' : FChunk} (hS : c.chunks[c.current]? = some S) (h1 : c'.chunks = c.chunks.set c.current S')
    (h2 : c'.current = c.current) (h3 : c.log <+: c'.log) (hm : S.moment.le S'.moment) (hw1 : S'.store.start_ = S.store.start_)
    (hw2 : S'.store.end_ = S.store.end_) : FGrow c c' := by
  refine ⟨h3, by rw [h2], fun i X hX => ?_⟩
  rw [h1, List.getElem?_set]
  by_cases hi : c.current = i
  · subst hi
    rw [hS] at hX
    cases hX
    have hlt : c.current < c.chunks.length := by
      by_contra hge
      rw [List.getElem?_eq_none (by omega)] at hS; cases hS
    exact ⟨S', by simp [hlt], hm, hw1, hw2⟩
  · exact ⟨X, by simp [hi, hX], Moment.le_refl _, rfl, rfl⟩

section
variable {F : List SChunk} {B : Kit} {H : Hash} {progs : Nat → List DbOp} {n : Nat} {c : FConf}

theorem step_fgrow (hb : n + 1 < 2 ^ 64 - 1) (h : FInv F B progs n c) (t : Nat) : FGrow c (c.step B H t) := by
  obtain ⟨S, hS⟩ := h.getCur
  unfold FConf.step
  rcases hn : (c.threads t).now with _ | ph
  · show FGrow c (c.begin t)
    unfold FConf.begin
    rw [hS]
    rcases (c.threads t).todo with _ | ⟨op, todo⟩
    · exact FGrow.refl c
    · rcases op <;> exact FGrow.same rfl rfl rfl
  · rcases ph with ⟨ls, ps, rest, f⟩ | ⟨ls, ps, p, rest, f⟩ | ⟨q, a, b⟩ | ⟨q, a, b, p⟩ | ⟨q, a, b, m⟩ | ⟨q, a, b, ids, m⟩ | ⟨q, a, b, i, ids, m, p⟩ | ⟨lo, hi⟩ | ⟨lo, hi⟩
    · show FGrow c (c.stepWriting B t ls ps rest f)
      unfold FConf.stepWriting
      rw [hS]
      rcases rest with _ | ⟨p, rest⟩
      · exact FGrow.same rfl rfl rfl
      · simp only []
        rcases hl : S.lock with _ | x
        · refine FGrow.set (S' := { S with lock := some (t, (ls, p), (kitInsert B) (ls, p)) }) hS rfl rfl (List.prefix_append _ _) ⟨?_, ?_⟩ rfl rfl
          · simp only [Sys.moment, Sys.settled, hl, kitInsert, Proc.get]; exact List.prefix_refl _
          · simp only [Sys.moment, Sys.started, hl, List.append_nil]; exact List.prefix_append _ _
        · exact FGrow.refl c
    · show FGrow c (c.stepInserting t ls ps rest f)
      obtain ⟨pr, hl⟩ := (h.lock _ _ hS t (ls, p)).mpr ⟨rfl, by rw [hn]; rfl⟩
      have hle := S.moment_le B t
      obtain ⟨todo0, hs⟩ := h.sys _ _ hS h.base
      have hfine := h.fine hb c.current
      rw [← h.started _ _ hS] at hfine
      unfold FConf.stepInserting
      rw [hS]
      simp only [hl, if_true]
      rcases pr with r | ⟨u, k⟩
      · have e : S.step (kitInsert B) t = { S with lock := none, finished := S.finished ++ [(t, (ls, p), r)] } := by simp only [Sys.step, hl, if_true]
        rw [e] at hle
        rcases r with x | x | _ <;> exact FGrow.set (S' := { S with lock := none, finished := S.finished ++ [(t, (ls, p), _)] }) hS rfl rfl (List.prefix_refl _) hle rfl rfl
      · have e : S.step (kitInsert B) t = { S with store := u S.store, lock := some (t, (ls, p), k S.store) } := by simp only [Sys.step, hl, if_true]
        have hstep := hs.step t
        rw [e] at hle hstep
        have hst' : ({ S with store := u S.store, lock := some (t, (ls, p), k S.store) } : FChunk).started = S.started := by
          simp [Sys.started, hl]
        have hwin := hstep.win (by rw [hst']; exact hfine)
        exact FGrow.set (S' := { S with store := u S.store, lock := some (t, (ls, p), k S.store) }) hS rfl rfl (List.prefix_refl _) hle hwin.1 hwin.2.1
    · show FGrow c (c.stepQ1 B t q a b)
      unfold FConf.stepQ1
      rw [hS]
      simp only []
      split
      · exact FGrow.refl c
      · exact FGrow.same rfl rfl rfl
    · show FGrow c (c.stepReading1 H t q a b p)
      have hro := (h.thr t).ro p (by rw [hn]; rfl)
      rcases p with r | ⟨u, k⟩
      · simp only [FConf.stepReading1]
        split <;> exact FGrow.same rfl rfl rfl
      · simp only [FConf.stepReading1, hS]
        cases hro with
        | act hu hk => rw [h.setSame hS hu]; exact FGrow.same rfl rfl rfl
    · exact FGrow.same rfl rfl rfl
    · show FGrow c (c.stepQ3 B H t q a b ids m)
      unfold FConf.stepQ3
      rcases ids with _ | ⟨i, ids⟩
      · exact FGrow.same rfl rfl rfl
      · simp only []
        split
        · exact FGrow.refl c
        · split
          · split
            · exact FGrow.refl c
            · exact FGrow.same rfl rfl rfl
          · exact FGrow.same rfl rfl rfl
    · show FGrow c (c.stepReading3 H t q a b i ids m p)
      have hro := (h.thr t).ro p (by rw [hn]; rfl)
      rcases p with r | ⟨u, k⟩
      · simp only [FConf.stepReading3]
        split <;> exact FGrow.same rfl rfl rfl
      · simp only [FConf.stepReading3]
        rcases hi : c.chunks[i]? with _ | X
        · exact FGrow.refl c
        · simp only []
          cases hro with
          | act hu hk => rw [h.setSame hi hu]; exact FGrow.same rfl rfl rfl
    · simp only []
      split
      · exact FGrow.refl c
      · exact FGrow.same rfl rfl rfl
    · show FGrow c (c.stepS2 t lo hi)
      unfold FConf.stepS2
      split
      · exact FGrow.refl c
      · rw [hS]
        simp only []
        split
        · exact FGrow.refl c
        · refine ⟨List.prefix_refl _, by show c.current ≤ c.chunks.length; rw [h.len]; omega, fun i X hX => ⟨X, ?_, Moment.le_refl _, rfl, rfl⟩⟩
          show (c.chunks ++ _)[i]? = _
          rw [List.getElem?_append_left]
          · exact hX
          · by_contra hge
            rw [List.getElem?_eq_none (by omega)] at hX; cases hX

theorem step_fother (t u : Nat) (hu : u ≠ t) : (c.step B H t).threads u = c.threads u := by
  have e1 : ∀ (c : FConf) th, (c.setThread t th).threads u = c.threads u := by intro c th; simp [FConf.setThread, hu]
  have e2 : ∀ (c : FConf) ph, (c.goto t ph).threads u = c.threads u := fun c ph => e1 c _
  have e3 : ∀ (c : FConf) o, (c.finish t o).threads u = c.threads u := fun c o => e1 c _
  unfold FConf.step
  split
  · unfold FConf.begin
    split
    · rename_i op todo k _ _
      rcases op <;> simp only [e2] <;> exact e1 c _
    · rfl
  · unfold FConf.stepWriting
    split
    · rfl
    · split
      · simp only [e3]; rfl
      · split
        · rfl
        · simp only [e2]; rfl
  · unfold FConf.stepInserting
    split
    · rfl
    · split
      · rfl
      · split
        · split
          · rfl
          · split
            · simp only [e2]; rfl
            · simp only [e2]; rfl
            · simp only [e3]; rfl
        · rfl
  · unfold FConf.stepQ1
    split
    · rfl
    · split
      · rfl
      · simp only [e2]
  · rename_i p _
    rcases p with r | ⟨v, k⟩
    · simp only [FConf.stepReading1]
      split
      · simp only [e3]; rfl
      · simp only [e2]; rfl
    · simp only [FConf.stepReading1]
      split
      · rfl
      · simp only [e2]; rfl
  · simp only [e2]
  · unfold FConf.stepQ3
    split
    · simp only [e3]; rfl
    · split
      · rfl
      · split
        · split
          · rfl
          · simp only [e2]
        · simp only [e2]
  · rename_i p _
    rcases p with r | ⟨v, k⟩
    · simp only [FConf.stepReading3]
      split
      · simp only [e3]; rfl
      · simp only [e2]
    · simp only [FConf.stepReading3]
      split
      · rfl
      · simp only [e2]; rfl
  · split
    · rfl
    · simp only [e2]; rfl
  · unfold FConf.stepS2
    split
    · rfl
    · split
      · rfl
      · split
        · rfl
        · simp only [e3]

theorem step_fdone (t : Nat) : (c.threads t).done <+: ((c.step B H t).threads t).done := by
  have e1 : ∀ (c : FConf) th, (c.setThread t th).threads t = th := by intro c th; simp [FConf.setThread]
  have e2 : ∀ (c : FConf) ph, ((c.goto t ph).threads t).done = (c.threads t).done := by intro c ph; simp [FConf.goto, e1]
  have e3 : ∀ (c : FConf) o, ((c.finish t o).threads t).done = (c.threads t).done ++ [o] := by intro c o; simp [FConf.finish, e1]
  have refl : ∀ l : List Out, l <+: l := List.prefix_refl
  unfold FConf.step
  split
  · unfold FConf.begin
    split
    · rename_i op todo k _ _
      rcases op <;> simp only [e2, e1] <;> exact refl _
    · exact refl _
  · unfold FConf.stepWriting
    split
    · exact refl _
    · split
      · simp only [e3]; exact List.prefix_append _ _
      · split
        · exact refl _
        · simp only [e2]; exact refl _
  · unfold FConf.stepInserting
    split
    · exact refl _
    · split
      · exact refl _
      · split
        · split
          · exact refl _
          · split
            · simp only [e2]; exact refl _
            · simp only [e2]; exact refl _
            · simp only [e3]; exact List.prefix_append _ _
        · exact refl _
  · unfold FConf.stepQ1
    split
    · exact refl _
    · split
      · exact refl _
      · simp only [e2]; exact refl _
  · rename_i p _
    rcases p with r | ⟨v, k⟩
    · simp only [FConf.stepReading1]
      split
      · simp only [e3]; exact List.prefix_append _ _
      · simp only [e2]; exact refl _
    · simp only [FConf.stepReading1]
      split
      · exact refl _
      · simp only [e2]; exact refl _
  · simp only [e2]; exact refl _
  · unfold FConf.stepQ3
    split
    · simp only [e3]; exact List.prefix_append _ _
    · split
      · exact refl _
      · split
        · split
          · exact refl _
          · simp only [e2]; exact refl _
        · simp only [e2]; exact refl _
  · rename_i p _
    rcases p with r | ⟨v, k⟩
    · simp only [FConf.stepReading3]
      split
      · simp only [e3]; exact List.prefix_append _ _
      · simp only [e2]; exact refl _
    · simp only [FConf.stepReading3]
      split
      · exact refl _
      · simp only [e2]; exact refl _
  · split
    · exact refl _
    · simp only [e2]; exact refl _
  · unfold FConf.stepS2
    split
    · exact refl _
    · split
      · exact refl _
      · split
        · exact refl _
        · simp only [e3]; exact List.prefix_append _ _

/-- While a thread holds the read lock of the current chunk, no other thread replaces it. -/
theorem step_fcurrent (h : FInv F B progs n c) {t t' : Nat} (ht : fHoldsCur (c.threads t).now = true) : (c.step B H t').current = c.current := by
  have hmem := (h.curR t).mpr ht
  have hne : c.curR ≠ [] := List.ne_nil_of_mem hmem
  unfold FConf.step
  split
  · unfold FConf.begin
    split
    · rename_i op todo k _ _
      rcases op <;> rfl
    · rfl
  · unfold FConf.stepWriting
    split
    · rfl
    · split
      · rfl
      · split <;> rfl
  · unfold FConf.stepInserting
    split
    · rfl
    · split
      · rfl
      · split
        · split
          · rfl
          · split <;> rfl
        · rfl
  · unfold FConf.stepQ1
    split
    · rfl
    · split <;> rfl
  · rename_i p _
    rcases p with r | ⟨v, k⟩
    · simp only [FConf.stepReading1]
      split <;> rfl
    · simp only [FConf.stepReading1]
      split <;> rfl
  · rfl
  · unfold FConf.stepQ3
    split
    · rfl
    · split
      · rfl
      · split
        · split <;> rfl
        · rfl
  · rename_i p _
    rcases p with r | ⟨v, k⟩
    · simp only [FConf.stepReading3]
      split <;> rfl
    · simp only [FConf.stepReading3]
      split <;> rfl
  · split <;> rfl
  · unfold FConf.stepS2
    rw [if_pos hne]

/-! ### Logs -/

theorem FInv.incr (h : FInv F B progs n c) (hs : SingleWriter progs) (i : Nat) (ls : Labels) : SIncr (pointsFor (histOf c.log i) ls) := by
  obtain ⟨u, h1, h2⟩ := hs ls
  refine List.Pairwise.sublist ?_ h2
  have e1 : pointsFor (histOf c.log i) ls = (c.log.filter fun e => decide (e.chunk = i) && decide (e.labels.Perm ls)).map (·.point) := by
    unfold pointsFor histOf
    rw [List.filter_map, List.map_map, List.filter_filter]
    congr 1
    apply List.filter_congr
    intro e _
    exact Bool.and_comm _ _
  have e2 : pointsFor (byThread c.log u) ls = (c.log.filter fun e => decide (e.thread = u) && decide (e.labels.Perm ls)).map (·.point) := by
    unfold pointsFor byThread
    rw [List.filter_map, List.map_map, List.filter_filter]
    congr 1
    apply List.filter_congr
    intro e _
    exact Bool.and_comm _ _
  have e3 : pointsFor (histOf c.log i) ls <+ pointsFor (byThread c.log u) ls := by
    rw [e1, e2]
    have : (c.log.filter fun e => decide (e.chunk = i) && decide (e.labels.Perm ls)) =
        (c.log.filter fun e => decide (e.thread = u) && decide (e.labels.Perm ls)).filter fun e => decide (e.chunk = i) := by
      rw [List.filter_filter]
      apply List.filter_congr
      intro e he
      by_cases hp : e.labels.Perm ls
      · obtain ⟨ps, hm, -⟩ := h.own e he
        have := h1 e.thread e.labels ps hm hp
        simp [this, hp]
      · simp [hp]
    rw [this]
    exact List.filter_sublist.map _
  refine e3.trans ?_
  have h3 : byThread c.log u <+ progPoints (progs u) := (List.sublist_append_left _ _).trans (h.thr u).sub
  exact (h3.filter _).map _

theorem FInv.logOk (h : FInv F B progs n c) (hs : SingleWriter progs) (hb : n + 1 < 2 ^ 64 - 1) (lo hi : U64) {i : Nat} {S : FChunk}
    (hS : c.chunks[i]? = some S) : LogOk lo hi S.started := by
  rw [h.started i S hS]
  refine ⟨h.fine hb i, fun ls => (h.incr hs i ls).sublist ?_⟩
  unfold pointsFor insideOnly
  exact (List.filter_sublist.filter _).map _

theorem FInv.at (h : FInv [] B progs n c) (hs : SingleWriter progs) (hb : n + 1 < 2 ^ 64 - 1) {i : Nat} {S : FChunk}
    (hS : c.chunks[i]? = some S) : At B S.store.start_ S.store.end_ S.moment S.store := by
  obtain ⟨todo0, h0⟩ := h.sys i S hS (Nat.zero_le _)
  exact h0.at (h.logOk hs hb _ _ hS)

/-! ### The answer of one chunk -/

/-- The point of a complete insert into some chunk, inside its window and in the range. -/
def FromDone (c : FConf) (a b : U64) (k : Labels) (p : TimePoint) : Prop :=
  (a.toNat ≤ p.ts.toNat ∧ p.ts.toNat ≤ b.toNat) ∧ ∃ (i : Nat) (S : FChunk), c.chunks[i]? = some S ∧
    ∃ w ∈ S.settled, w.2 = p ∧ sortLabels w.1 = k ∧ inside S.store.start_ S.store.end_ p = true

theorem FromDone.mono {c c' : FConf} (hg : FGrow c c') {a b : U64} {k : Labels} {p : TimePoint} (h : FromDone c a b k p) : FromDone c' a b k p := by
  obtain ⟨h0, i, S, hS, w, hw, h1, h2, h3⟩ := h
  obtain ⟨S', hS', hm, e1, e2⟩ := hg.chunk i S hS
  exact ⟨h0, i, S', hS', w, hm.1.subset hw, h1, h2, by rw [e1, e2]; exact h3⟩

/-- What the answer of a chunk has to contain, for a query that was called in a state in which the chunk was `S1`. -/
def Has (S1 : FChunk) (q : Labels) (a b : U64) (P : Labels → TimePoint → Prop) : Prop :=
  ∀ w ∈ S1.settled, inside S1.store.start_ S1.store.end_ w.2 = true → (∀ l ∈ q, l ∈ w.1) → a.toNat ≤ S1.store.start_.toNat → S1.store.end_.toNat ≤ b.toNat →
    P (sortLabels w.1) w.2

/-- What the answer `r` of chunk `i` gives. -/
structure Gives (progs : Nat → List DbOp) (c1 c : FConf) (q : Labels) (a b : U64) (i : Nat) (r : Res (List Series)) : Prop where
  no_panic : r ≠ .panic
  nodup : ((okSeries r).map (·.labels)).Nodup
  written : ∀ s ∈ okSeries r, Written progs s.labels
  from_ : ∀ s ∈ okSeries r, ∀ p ∈ s.points, FromDone c a b s.labels p
  has : ∀ S1 : FChunk, c1.chunks[i]? = some S1 → (∃ S : FChunk, c.chunks[i]? = some S ∧ NewSeries S1.store.start_ S1.store.end_ S1.started S.started q) ∨
    Has S1 q a b fun k p => ∃ s ∈ okSeries r, s.labels = k ∧ p ∈ s.points

theorem settled_log (h : FInv F B progs n c) {i : Nat} {S : FChunk} (hS : c.chunks[i]? = some S) {w : Labels × TimePoint} (hw : w ∈ S.settled) :
    ∃ e ∈ c.log, e.chunk = i ∧ e.labels = w.1 ∧ e.point = w.2 := by
  have := S.settled_started.subset hw
  rw [h.started i S hS] at this
  obtain ⟨e, he, hew⟩ := List.mem_map.mp this
  obtain ⟨he1, he2⟩ := List.mem_filter.mp he
  exact ⟨e, he1, by simpa using he2, by rw [← hew], by rw [← hew]⟩

theorem pointsFor_mem {h : Inserts} {ls : Labels} {p : TimePoint} : p ∈ pointsFor h ls ↔ ∃ w ∈ h, w.1.Perm ls ∧ w.2 = p := by
  unfold pointsFor
  rw [List.mem_map]
  constructor
  · rintro ⟨w, hw, rfl⟩
    obtain ⟨h1, h2⟩ := List.mem_filter.mp hw
    exact ⟨w, h1, by simpa using h2, rfl⟩
  · rintro ⟨w, hw, hp, rfl⟩
    exact ⟨w, List.mem_filter.mpr ⟨hw, by simpa using hp⟩, rfl⟩

theorem fair_gives (h : FInv F B progs n c) (hs : SingleWriter progs) (hb : n + 1 < 2 ^ 64 - 1) {c1 : FConf} (hg : FGrow c1 c) {q : Labels} (hq0 : q ≠ [])
    {a b : U64} {i : Nat} {S : FChunk} (hS : c.chunks[i]? = some S) {before : Inserts} (hbefore : ∀ S1 : FChunk, c1.chunks[i]? = some S1 → S1.started <+: before)
    {r : Res (List Series)} (hr : FairAnswer S.store.start_ S.store.end_ before q a b S.moment r) : Gives progs c1 c q a b i r := by
  obtain ⟨h1, h2, h3⟩ := hr S.settled_started (h.logOk hs hb _ _ hS)
  have hwf : ∀ w ∈ S.settled, WFSet w.1 := by
    intro w hw
    obtain ⟨e, he, -, e1, -⟩ := settled_log h hS hw
    rw [← e1]; exact (h.ev e he).1
  have hmono : ∀ S1 : FChunk, c1.chunks[i]? = some S1 → S1.settled <+: before ∧ S1.store.start_ = S.store.start_ ∧ S1.store.end_ = S.store.end_ := by
    intro S1 hS1
    obtain ⟨S', hS', -, e1, e2⟩ := hg.chunk i S1 hS1
    rw [hS] at hS'
    cases hS'
    exact ⟨S1.settled_started.trans (hbefore S1 hS1), e1.symm, e2.symm⟩
  rcases r with ss | e | _
  · have hsn := h2 ss rfl
    have hname : ∀ x ∈ ss, ∃ w ∈ S.settled, WFSet w.1 ∧ x.labels = sortLabels w.1 := by
      intro x hx
      obtain ⟨w, hw, e⟩ := hsn.named x hx
      exact ⟨w, List.mem_of_mem_filter hw, hwf w (List.mem_of_mem_filter hw), e⟩
    refine ⟨h1, ?_, ?_, ?_, ?_⟩
    · show (ss.map _).Nodup
      rw [List.Nodup, List.pairwise_map]
      exact hsn.once.imp fun hp e => hp (by rw [e])
    · intro x hx
      obtain ⟨w, hw, -, e⟩ := hname x hx
      obtain ⟨ev, hev, -, e1, -⟩ := settled_log h hS hw
      obtain ⟨ps, hps, -⟩ := h.own ev hev
      exact ⟨ev.thread, ev.labels, ps, hps, by rw [e1]; exact e⟩
    · intro x hx p hp
      obtain ⟨g, g1, g2, -, g4, -⟩ := hsn.moment x hx
      rw [g4] at hp
      obtain ⟨hp1, hp2⟩ := List.mem_filter.mp hp
      obtain ⟨w, hw, hperm, rfl⟩ := pointsFor_mem.mp hp1
      obtain ⟨hw1, hw2⟩ := List.mem_filter.mp hw
      obtain ⟨w', hw', hwf', e⟩ := hname x hx
      refine ⟨by simpa using hp2, i, S, hS, w, g2.subset hw1, rfl, ?_, hw2⟩
      rw [e]
      have : w.1.Perm w'.1 := by rw [e] at hperm; exact hperm.trans (sortLabels_perm w'.1)
      exact (sortLabels_perm_eq hwf'.distinct this.symm).symm
    · intro S1 hS1
      right
      obtain ⟨m1, m2, m3⟩ := hmono S1 hS1
      intro w hw hin hqw ha hb'
      rw [m2, m3] at hin
      rw [m2] at ha
      rw [m3] at hb'
      have hwb : w ∈ insideOnly S.store.start_ S.store.end_ before := List.mem_filter.mpr ⟨m1.subset hw, hin⟩
      have hin' := hin
      simp only [inside, Bool.and_eq_true, decide_eq_true_eq] at hin'
      have hrng : (decide (a.toNat ≤ w.2.ts.toNat) && decide (w.2.ts.toNat ≤ b.toNat)) = true := by
        simp only [Bool.and_eq_true, decide_eq_true_eq]; omega
      have hpin : w.2 ∈ inRange (pointsFor (insideOnly S.store.start_ S.store.end_ before) w.1) a b :=
        List.mem_filter.mpr ⟨pointsFor_mem.mpr ⟨w, hwb, List.Perm.refl _, rfl⟩, hrng⟩
      obtain ⟨x, hx, hxp⟩ := hsn.complete w.1 hqw (List.ne_nil_of_mem hpin) hq0
      obtain ⟨g, g1, g2, -, g4, -⟩ := hsn.moment x hx
      obtain ⟨w', hw', hwf', e⟩ := hname x hx
      refine ⟨x, hx, ?_, ?_⟩
      · rw [e]
        have : w'.1.Perm w.1 := by rw [e] at hxp; exact (sortLabels_perm w'.1).symm.trans hxp
        exact sortLabels_perm_eq hwf'.distinct this
      · rw [g4]
        refine List.mem_filter.mpr ⟨pointsFor_mem.mpr ⟨w, (insideOnly_prefix g1).subset hwb, hxp.symm, rfl⟩, hrng⟩
  · refine ⟨h1, by simp [okSeries], by simp [okSeries], by simp [okSeries], ?_⟩
    intro S1 hS1
    obtain ⟨m1, m2, m3⟩ := hmono S1 hS1
    rcases h3 e rfl with ⟨hov, -⟩ | ⟨g, g1, g2, w, hw, -, f, l, hf, hl, hout, -⟩ | ⟨-, g, w, g1, g2, g3, g4, g5⟩
    · right
      intro w hw hin hqw ha hb'
      exfalso
      rw [m2, m3] at hin
      rw [m2] at ha
      rw [m3] at hb'
      simp only [inside, Bool.and_eq_true, decide_eq_true_eq] at hin
      simp only [overlaps, Bool.not_eq_false', Bool.or_eq_true, decide_eq_true_eq] at hov
      omega
    · right
      intro w' hw' hin hqw ha hb'
      exfalso
      rw [m2] at ha
      rw [m3] at hb'
      have key : ∀ p ∈ pointsFor (insideOnly S.store.start_ S.store.end_ g) w.1, a.toNat ≤ p.ts.toNat ∧ p.ts.toNat ≤ b.toNat := by
        intro p hp
        obtain ⟨v, hv, -, rfl⟩ := pointsFor_mem.mp hp
        have := (List.mem_filter.mp hv).2
        simp only [inside, Bool.and_eq_true, decide_eq_true_eq] at this
        omega
      have k1 := key f (List.mem_of_mem_head? hf)
      have k2 := key l (List.mem_of_getLast? hl)
      omega
    · left
      exact ⟨S, hS, g, w, (hbefore S1 hS1).trans g1, g2, by rw [m2, m3]; exact g3, g4, by rw [m2, m3]; exact g5⟩
  · exact absurd rfl h1

end
end Verif
