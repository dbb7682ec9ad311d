import Verif.Lemmas.Sessions
import Verif.Lemmas.Worn
import Verif.Lemmas.DbFineQuery
import Verif.Model.PowerLives
/-! Lives of a server on one directory, ended by losses of power. -/
namespace Verif
open List

/-! ### A running server only adds -/

theorem begin_same (c : FConf) (t : Nat) : (c.begin t).chunks = c.chunks ∧ (c.begin t).current = c.current ∧ (c.begin t).log = c.log := by
  unfold FConf.begin
  split
  · rename_i op todo S _ _
    cases op <;> exact ⟨rfl, rfl, rfl⟩
  · exact ⟨rfl, rfl, rfl⟩

/-- An insert begins only in a call of `write_time_points`. -/
theorem step_log (B : Kit) (H : Hash) (c : FConf) (t : Nat) : (c.step B H t).log = c.log ∨
    ∃ ls ps rest f i p, (c.threads t).now = some (.writing ls ps rest f) ∧ (c.step B H t).log = c.log ++ [⟨t, i, ls, p⟩] := by
  unfold FConf.step
  rcases hn : (c.threads t).now with _ | ph
  · exact Or.inl (begin_same c t).2.2
  · rcases ph with ⟨ls, ps, rest, f⟩ | ⟨ls, ps, p, rest, f⟩ | ⟨q, a, b⟩ | ⟨q, a, b, p⟩ | ⟨q, a, b, m⟩ | ⟨q, a, b, ids, m⟩ | ⟨q, a, b, i, ids, m, p⟩ | ⟨lo, hi⟩ | ⟨lo, hi⟩
    · simp only []
      unfold FConf.stepWriting
      split
      · exact Or.inl rfl
      · rcases rest with _ | ⟨p, rest⟩
        · exact Or.inl rfl
        · simp only []
          split
          · exact Or.inl rfl
          · exact Or.inr ⟨ls, ps, _, f, _, p, rfl, rfl⟩
    · left
      simp only []
      unfold FConf.stepInserting
      split
      · rfl
      · split
        · rfl
        · split
          · split
            · rfl
            · simp only []
              split <;> rfl
          · rfl
    · left
      simp only []
      unfold FConf.stepQ1
      split
      · rfl
      · split <;> rfl
    · left
      simp only []
      cases p with
      | ret r => simp only [FConf.stepReading1]; split <;> rfl
      | act u k => simp only [FConf.stepReading1]; split <;> rfl
    · exact Or.inl rfl
    · left
      simp only []
      unfold FConf.stepQ3
      split
      · rfl
      · split
        · rfl
        · split
          · split <;> rfl
          · rfl
    · left
      simp only []
      cases p with
      | ret r => simp only [FConf.stepReading3]; split <;> rfl
      | act u k => simp only [FConf.stepReading3]; split <;> rfl
    · left
      simp only []
      split <;> rfl
    · left
      simp only []
      unfold FConf.stepS2
      split
      · rfl
      · split
        · rfl
        · split <;> rfl

/-- The series of write requests with a number not below `k`. -/
def FromRequest (calls : List Call) (k : Nat) (ls : Labels) : Prop := ∃ (j : Nat) (m : List PSeries) (ser : PSeries), k ≤ j ∧ calls[j]? = some (.write m) ∧ ser ∈ m ∧ ser.labels = ls

variable {B : Kit} {H : Hash} {A : List SChunk} {past : Past} {lo hi : U64} {ticks : List (U64 × U64)} {calls : List Call} {n : Nat} {c : SrvConf} {L : List DbOp}

theorem srv_step_grows (h : SrvState B H A past lo hi ticks calls n c L) (hb : n + 1 < 2 ^ 64 - 1) (F : Formats) (P : Paths) (t : Nat) :
    FGrow c.db (c.step B H F P t).db ∧ ∃ g, (c.step B H F P t).db.log = c.db.log ++ g ∧ ∀ e ∈ g, FromRequest calls c.sent.length e.labels := by
  have hsame : FGrow c.db c.db ∧ ∃ g, c.db.log = c.db.log ++ g ∧ ∀ e ∈ g, FromRequest calls c.sent.length e.labels :=
    ⟨FGrow.refl _, [], by simp, by simp⟩
  obtain ⟨n', hn', hI⟩ := h.inv
  have hstep : ∀ u, (u = 0 ∨ u = 1) → FGrow c.db (c.db.step B H u) ∧ ∃ g, (c.db.step B H u).log = c.db.log ++ g ∧ ∀ e ∈ g, FromRequest calls c.sent.length e.labels := by
    intro u hu
    refine ⟨step_fgrow (by omega) hI u, ?_⟩
    rcases step_log B H c.db u with e | ⟨ls, ps, rest, f, i, p, h1, h2⟩
    · exact ⟨[], by rw [e]; simp, by simp⟩
    · refine ⟨_, h2, ?_⟩
      simp only [List.mem_singleton, forall_eq]
      rcases hu with rfl | rfl
      · rcases h.dep.t0 with e | e <;> rw [h1] at e <;> cases e
      · obtain ⟨hn, k, a2, a3⟩ := handling_mem (h.now _ h1)
        obtain ⟨m, rfl, ser, b1, b2, -⟩ := write_ops a3
        exact ⟨_, m, ser, le_refl _, a2, b1, b2⟩
  unfold SrvConf.step
  split
  · exact hsame
  · match t with
    | 0 => exact hstep 0 (Or.inl rfl)
    | 1 =>
      simp only []
      unfold SrvConf.work
      split
      · have hd : ∀ c' : SrvConf, c'.resume.db = c'.db := by
          intro c'; unfold SrvConf.resume; split <;> rfl
        rw [hd]
        exact hstep 1 (Or.inr rfl)
      · rename_i hnow
        split
        · rename_i op k _
          have e : (c.db.withTodo [op]).step B H 1 = (c.db.withTodo [op]).begin 1 := by
            unfold FConf.step
            rw [show ((c.db.withTodo [op]).threads 1).now = none from hnow]
          show FGrow c.db ((c.db.withTodo [op]).step B H 1) ∧ ∃ g, ((c.db.withTodo [op]).step B H 1).log = _ ∧ _
          rw [e]
          obtain ⟨e1, e2, e3⟩ := begin_same (c.db.withTodo [op]) 1
          exact ⟨FGrow.same (e1.trans rfl) (e2.trans rfl) (e3.trans rfl), [], by rw [e3]; simp [FConf.withTodo, FConf.setThread], by simp⟩
        · exact hsame
        · split <;> exact hsame
    | _ + 2 => exact hsame

theorem srv_run_grows (F : Formats) (P : Paths) {reqs : List Request} (Ls : List Nat → List DbOp) (bound : Nat)
    (hS : ∀ sched, sched.length ≤ bound → SrvState B H A past lo hi ticks calls sched.length ((SrvConf.startOn A lo hi ticks reqs).run B H F P sched) (Ls sched))
    (hb : bound + 1 < 2 ^ 64 - 1) (s s' : List Nat) (hlen : (s ++ s').length ≤ bound) :
    FGrow ((SrvConf.startOn A lo hi ticks reqs).run B H F P s).db ((SrvConf.startOn A lo hi ticks reqs).run B H F P (s ++ s')).db ∧
    ∃ g, ((SrvConf.startOn A lo hi ticks reqs).run B H F P (s ++ s')).db.log = ((SrvConf.startOn A lo hi ticks reqs).run B H F P s).db.log ++ g ∧
      ∀ e ∈ g, FromRequest calls ((SrvConf.startOn A lo hi ticks reqs).run B H F P s).sent.length e.labels := by
  induction s' using List.reverseRecOn with
  | nil => rw [List.append_nil]; exact ⟨FGrow.refl _, [], by simp, by simp⟩
  | append_singleton s' t ih =>
    rw [← List.append_assoc] at hlen ⊢
    rw [List.length_append, List.length_singleton] at hlen
    obtain ⟨h1, g, h2, h3⟩ := ih (by omega)
    have h4 := srv_step_grows (hS (s ++ s') (by omega)) (by omega) F P t
    have hsent := (srv_run_sent B H F P s' ((SrvConf.startOn A lo hi ticks reqs).run B H F P s)).length_le
    rw [← srv_run_append] at hsent
    have e : (SrvConf.startOn A lo hi ticks reqs).run B H F P (s ++ s' ++ [t]) = ((SrvConf.startOn A lo hi ticks reqs).run B H F P (s ++ s')).step B H F P t := by
      rw [srv_run_append]; rfl
    rw [e]
    obtain ⟨h5, g', h6, h7⟩ := h4
    refine ⟨h1.trans h5, g ++ g', by rw [h6, h2, List.append_assoc], fun e he => ?_⟩
    rcases List.mem_append.mp he with he | he
    · exact h3 e he
    · obtain ⟨j, m, ser, k1, k2⟩ := h7 e he
      exact ⟨j, m, ser, by omega, k2⟩

/-! ### What is left of the directories of a life -/

theorem at_eq {Bs : BinSearch} {F : Formats} {P : Paths} {base : Str} {slots : List Slot} {s : Session} {sched : List Nat} {c : SrvConf}
    (h : s.at Bs H F P base slots sched = some c) :
    3 ≤ s.born ∧ ∃ A, readExistingChunks base s.clock (s.order slots) = some A ∧
      c = (SrvConf.startOn A s.now (s.now + s.size) s.ticks s.reqs).run (Kit.sled Bs) H F P sched := by
  unfold Session.at at h
  rcases hA : readExistingChunks base s.clock (s.order slots) with _ | A
  · rw [hA] at h; cases h
  · rw [hA] at h
    simp only [] at h
    split at h
    · cases h
    · rename_i hb
      exact ⟨by omega, A, rfl, (Option.some.inj h).symm⟩

theorem at_some {Bs : BinSearch} {F : Formats} {P : Paths} {base : Str} {slots : List Slot} {s : Session} (hb : 3 ≤ s.born) {A : List SChunk}
    (hA : readExistingChunks base s.clock (s.order slots) = some A) (sched : List Nat) :
    s.at Bs H F P base slots sched = some ((SrvConf.startOn A s.now (s.now + s.size) s.ticks s.reqs).run (Kit.sled Bs) H F P sched) := by
  unfold Session.at
  rw [hA]
  simp only []
  rw [if_neg (by omega)]

theorem dirs_get {c : SrvConf} {k i : Nat} {y : Slot} (h : (c.dirs k)[i]? = some y) : ∃ S : FChunk, c.db.chunks[k + i]? = some S ∧
    y = ⟨encodeChunkDir S.store.start_ S.store.end_, .complete, S.store.store⟩ := by
  unfold SrvConf.dirs at h
  rw [List.getElem?_map, List.getElem?_drop] at h
  obtain ⟨S, h1, h2⟩ := Option.map_eq_some_iff.mp h
  exact ⟨S, h1, h2.symm⟩

theorem wears_worn {Bs : BinSearch} {F : Formats} {P : Paths} {base : Str} {slots : List Slot} {s : Session} {cs : List Call} (Ls : List Nat → List DbOp)
    (hA : readExistingChunks base s.clock (s.order slots) = some A)
    (hS : ∀ sched, sched.length ≤ s.sched.length → SrvState (Kit.sled Bs) H A past s.now (s.now + s.size) s.ticks cs sched.length
      ((SrvConf.startOn A s.now (s.now + s.size) s.ticks s.reqs).run (Kit.sled Bs) H F P sched) (Ls sched))
    (hst : s.sched.length + 1 < 2 ^ 64 - 1) {f i : Nat} {x : Slot} (hw : s.Wears Bs H F P base slots f i x) :
    3 ≤ s.born ∧ ∃ S : FChunk, ((SrvConf.startOn A s.now (s.now + s.size) s.ticks s.reqs).run (Kit.sled Bs) H F P s.sched).db.chunks[A.length + i]? = some S ∧
      x.name = encodeChunkDir S.store.start_ S.store.end_ ∧ Worn Bs S.store.start_ S.store.end_ [] S.started x.stores ∧
      ∀ S0 : FChunk, f ≤ s.sched.length →
        ((SrvConf.startOn A s.now (s.now + s.size) s.ticks s.reqs).run (Kit.sled Bs) H F P (s.sched.take f)).db.chunks[A.length + i]? = some S0 →
        Worn Bs S.store.start_ S.store.end_ S0.settled S.started x.stores ∧ S0.store.start_ = S.store.start_ ∧ S0.store.end_ = S.store.end_ := by
  obtain ⟨A', c, y, e1, e2, e3, e4, e5⟩ := hw
  rw [hA] at e1
  cases e1
  obtain ⟨hborn, A', e1, rfl⟩ := at_eq e2
  rw [hA] at e1
  cases e1
  obtain ⟨S, h1, rfl⟩ := dirs_get e3
  refine ⟨hborn, S, h1, e4, ?_⟩
  have hK := (hS s.sched (le_refl _)).keeping hst h1 (by omega)
  -- the moments in between
  have hgrow : ∀ m, m ≤ s.sched.length → ∀ m', m' ≤ m → FGrow ((SrvConf.startOn A s.now (s.now + s.size) s.ticks s.reqs).run (Kit.sled Bs) H F P (s.sched.take m')).db
      ((SrvConf.startOn A s.now (s.now + s.size) s.ticks s.reqs).run (Kit.sled Bs) H F P (s.sched.take m)).db := by
    intro m hm m' hm'
    have e : s.sched.take m = s.sched.take m' ++ (s.sched.take m).drop m' := by
      conv_lhs => rw [← List.take_append_drop m' (s.sched.take m), List.take_take, Nat.min_eq_left hm']
    have := (srv_run_grows F P Ls s.sched.length hS hst (s.sched.take m') ((s.sched.take m).drop m') (by rw [← e]; simp)).1
    rw [← e] at this
    exact this
  have key : ∀ g0 : Inserts, (∀ m, f ≤ m → m ≤ s.sched.length → ∀ S' : FChunk,
      ((SrvConf.startOn A s.now (s.now + s.size) s.ticks s.reqs).run (Kit.sled Bs) H F P (s.sched.take m)).db.chunks[A.length + i]? = some S' → g0 <+: S'.settled) →
      g0 <+: S.started → Worn Bs S.store.start_ S.store.end_ g0 S.started x.stores := by
    intro g0 hg0 hpre
    refine ⟨hK.ok, hpre, fun t k => ?_⟩
    obtain ⟨m, c', z, m1, m2, m3, m4, m5⟩ := e5 t k
    obtain ⟨-, A', e1, rfl⟩ := at_eq m3
    rw [hA] at e1
    cases e1
    obtain ⟨S', h2, rfl⟩ := dirs_get m4
    have hg := hgrow s.sched.length (le_refl _) m m2
    rw [List.take_length] at hg
    obtain ⟨S'', h3, h4, h5, h6⟩ := hg.chunk _ _ h2
    rw [h1] at h3
    cases h3
    have hlm : (s.sched.take m).length ≤ s.sched.length := by simp
    have hK' := (hS (s.sched.take m) hlm).keeping (by omega) h2 (by omega)
    rw [← h5, ← h6] at hK'
    have h7 := hg0 m m1 m2 S' h2
    rcases t with _ | _
    · rcases hK'.idx k with e | e
      · exact ⟨S'.settled, h7, hK'.pre.trans h4.2, by rw [m5]; exact e⟩
      · exact ⟨S'.started, h7.trans hK'.pre, h4.2, by rw [m5]; exact e⟩
    · refine ⟨S'.settled, h7, hK'.pre.trans h4.2, ?_⟩
      rw [m5]
      exact congrFun hK'.ser k
  refine ⟨key [] (fun _ _ _ _ _ => List.nil_prefix) List.nil_prefix, fun S0 hf h0 => ?_⟩
  have hg := hgrow s.sched.length (le_refl _) f hf
  rw [List.take_length] at hg
  obtain ⟨S'', h3, h4, h5, h6⟩ := hg.chunk _ _ h0
  rw [h1] at h3
  cases h3
  have hl0 : (s.sched.take f).length ≤ s.sched.length := by simp
  have hK0 := (hS (s.sched.take f) hl0).keeping (by omega) h0 (by omega)
  refine ⟨key S0.settled (fun m hm1 hm2 S' hS' => ?_) (hK0.pre.trans h4.2), h5.symm, h6.symm⟩
  obtain ⟨S3, g1, g2, -⟩ := (hgrow m hm2 f hm1).chunk _ _ h0
  rw [hS'] at g1
  cases g1
  exact g2.1

/-! ### What every life finds -/

/-- The chunk directories found at a start: named after windows, and the stores are what is left of inserts of the kind `Src`. -/
def DiskOk (B : BinSearch) (Src : Labels → TimePoint → Prop) (slots : List Slot) : Prop :=
  ∀ s ∈ slots, ∃ lo hi g, s.name = encodeChunkDir lo hi ∧ Worn B lo hi [] g s.stores ∧ ∀ w ∈ g, Src w.1 w.2

theorem DiskOk.frozen {B : BinSearch} {Src : Labels → TimePoint → Prop} {base : Str} (hb : ∀ b ∈ base, isCont b = false) {clock : Str → U64} {ss : List Slot} {A : List SChunk}
    (hs : DiskOk B Src ss) (h : readExistingChunks base clock ss = some A) :
    Forall₂ (Frozen (Kit.sled B) fun k => ∃ ls p, Src ls p ∧ k = sortLabels ls) A (A.map (contribution (Kit.sled B))) ∧
    ∀ f ∈ A.map (contribution (Kit.sled B)), ∀ q : Labels, (∀ l ∈ q, WFLabel l) → ∀ a b : U64, a.toNat ≤ b.toNat → ∀ x ∈ f q a b, ∀ p ∈ x.points,
      ∃ ls, Src ls p ∧ x.labels = sortLabels ls ∧ a.toNat ≤ p.ts.toNat ∧ p.ts.toNat ≤ b.toNat := by
  obtain ⟨-, h1, -⟩ := existing_found hb clock (fun s hm => by obtain ⟨lo, hi, g, e, -⟩ := hs s hm; exact ⟨lo, hi, e⟩) h
  have hall : ∀ c ∈ A, ∃ lo hi shown g st, c = foundAgain st lo shown ∧ Worn B lo hi [] g st ∧ ∀ w ∈ g, Src w.1 w.2 := by
    intro c hc
    obtain ⟨s, hm, h2⟩ := h1 c hc
    obtain ⟨lo, hi, g, e, h3, h4⟩ := hs s hm
    obtain ⟨shown, -, h5⟩ := h2 lo hi e
    exact ⟨lo, hi, shown, g, s.stores, h5, h3, h4⟩
  constructor
  · rw [List.forall₂_map_right_iff, List.forall₂_same]
    intro c hc
    obtain ⟨lo, hi, shown, g, st, rfl, h6, h7⟩ := hall c hc
    exact h6.frozen fun w hw => ⟨w.1, w.2, h7 w hw, rfl⟩
  · intro f hf q hq a b hab x hx p hp
    obtain ⟨c, hc, rfl⟩ := List.mem_map.mp hf
    obtain ⟨lo, hi, shown, g, st, rfl, h6, h7⟩ := hall c hc
    obtain ⟨w, hw, rfl, h8, h9, h10⟩ := h6.honest hq hab hx hp
    exact ⟨w.1, h7 w hw, h8, h9, h10⟩

section
variable (B : BinSearch) (H : Hash) (sn : Snappy) (rt : PbRt) (P : Paths) (base : Str) (ss : List Session) (calls : List (List Call)) (f : Nat → Nat)
  (disks : Nat → List Slot)

/-- Taken up in a life before life number `n`. -/
def SentSooner (n : Nat) (ls : Labels) (p : TimePoint) : Prop :=
  ∃ n' c cs, n' < n ∧ endWith B H (pbFormats sn rt) P base ss disks n' = some c ∧ calls[n']? = some cs ∧ TakenUp cs c ls p

variable {B H sn rt P base ss calls f disks}

variable (hP : P.read ≠ P.write) (hb : ∀ b ∈ base, isCont b = false) (hL : FineLives sn rt P ss calls)
  (hH : H.Good fun k => ∃ cs ∈ calls, ∃ m s, Call.write m ∈ cs ∧ s ∈ m ∧ k = sortLabels s.labels)
  (hD : Survivors B H (pbFormats sn rt) P base ss f disks)

include hP hb hL hH in
/-- The running server of one life, given what it found. -/
theorem power_core {n : Nat} {s : Session} (hs : ss[n]? = some s) {cs : List Call} (hcs : calls[n]? = some cs)
    (hok : DiskOk B (SentSooner B H sn rt P base ss calls disks n) (disks n)) {A : List SChunk}
    (hA : readExistingChunks base s.clock (s.order (disks n)) = some A) (sched : List Nat) (hl : sched.length < 2 ^ 64 - 1) :
    OneOrder sn rt (A.map (contribution (Kit.sled B))) s.now (s.now + s.size) s.ticks cs
      ((SrvConf.startOn A s.now (s.now + s.size) s.ticks s.reqs).run (Kit.sled B) H (pbFormats sn rt) P sched)
      (srvLin (Kit.sled B) H (pbFormats sn rt) P (SrvConf.startOn A s.now (s.now + s.size) s.ticks s.reqs) sched)
      (srvNs (Kit.sled B) H (pbFormats sn rt) P (SrvConf.startOn A s.now (s.now + s.size) s.ticks s.reqs) [] sched) ∧
    SrvState (Kit.sled B) H A (A.map (contribution (Kit.sled B))) s.now (s.now + s.size) s.ticks cs sched.length
      ((SrvConf.startOn A s.now (s.now + s.size) s.ticks s.reqs).run (Kit.sled B) H (pbFormats sn rt) P sched)
      (srvLin (Kit.sled B) H (pbFormats sn rt) P (SrvConf.startOn A s.now (s.now + s.size) s.ticks s.reqs) sched) := by
  have hok' : DiskOk B (SentSooner B H sn rt P base ss calls disks n) (s.order (disks n)) := fun x hx =>
    hok x ((hL.order s (List.mem_of_getElem? hs) _).mem_iff.mp hx)
  refine life_core_of hP hL hH ?_ hs hcs (hok'.frozen hb hA).1 sched hl
  rintro ls p ⟨n', c, cs', -, -, h1, h2⟩
  obtain ⟨m, ser, -, a1, a2, -, a3, -⟩ := takenUp_write h2
  exact ⟨cs', List.mem_of_getElem? h1, m, ser, a1, a2, a3⟩

theorem begins_ok {F : Formats} {slots : List Slot} {s : Session} {x : Slot} (hw : s.Begins B H F P base slots x) :
    ∃ lo hi, x.name = encodeChunkDir lo hi ∧ Worn B lo hi [] [] x.stores := by
  obtain ⟨h1, h2⟩ := hw
  have hname : ∃ lo hi, x.name = encodeChunkDir lo hi := by
    rcases h2 with ⟨A, -, -, y, hy, e⟩ | ⟨c, -, y, hy, e⟩
    · obtain ⟨lo, hi, e', -⟩ := newDir_ok (Kit.sled B) (fun _ _ => True) _ _ _ y hy
      exact ⟨lo, hi, by rw [e, e']⟩
    · obtain ⟨lo, hi, e', -⟩ := nextDir_ok (Kit.sled B) (fun _ _ => True) _ _ y hy
      exact ⟨lo, hi, by rw [e, e']⟩
  obtain ⟨lo, hi, e⟩ := hname
  exact ⟨lo, hi, e, by rw [h1]; exact Worn.empty B lo hi⟩

include hP hb hL hH hD in
/-- The directories found by every life. -/
theorem disks_ok (n : Nat) (hn : n ≤ ss.length) : DiskOk B (SentSooner B H sn rt P base ss calls disks n) (disks n) := by
  induction n using Nat.strongRecOn with
  | _ n ih =>
    rcases n with _ | n
    · intro s hs; rw [hD.first] at hs; cases hs
    · intro x hx
      obtain ⟨n', s, h1, hs, hm⟩ := hD.made n (by omega) x hx
      have ih := ih n' (by omega) (by omega)
      rcases hm with ⟨i, hw⟩ | hw
      · obtain ⟨cs, hcs⟩ : ∃ cs, calls[n']? = some cs := ⟨_, List.getElem?_eq_getElem (by rw [← hL.means.length_eq]; omega)⟩
        have hw0 := hw
        obtain ⟨A, c, y, hA, e2, -⟩ := hw0
        have hst := hL.steps s (List.mem_of_getElem? hs)
        have hS := fun (sched : List Nat) (hl : sched.length ≤ s.sched.length) =>
          (power_core (B := B) (disks := disks) hP hb hL hH hs hcs ih hA sched (by omega)).2
        obtain ⟨hborn, S, h3, h4, h5, -⟩ := wears_worn _ hA hS hst hw
        refine ⟨_, _, _, h4, h5, fun w hw' => ⟨n', _, cs, by omega, ?_, hcs, (hS s.sched (le_refl _)).source h3 w hw'⟩⟩
        unfold endWith
        rw [hs]
        exact at_some hborn hA _
      · obtain ⟨lo, hi, e, h2⟩ := begins_ok hw
        exact ⟨lo, hi, [], e, h2, by simp⟩

theorem serverWith_eq (F : Formats) {n : Nat} {s : Session} (hs : ss[n]? = some s) (sched : List Nat) :
    serverWith B H F P base ss disks n sched = s.at B H F P base (disks n) sched := by
  unfold serverWith
  rw [hs]
  rfl

end

end Verif
