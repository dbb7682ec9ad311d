import Verif.Lemmas.ServerEnd
import Verif.Spec.Sessions
import Verif.Props.Life
/-! Lives of a server on one directory. -/
namespace Verif
open List

/-- The chunk directories found at a start: named after windows, and the complete ones keep inserts of the kind `Src`. -/
def SlotsOk (B : Kit) (Src : Labels → TimePoint → Prop) (slots : List Slot) : Prop :=
  ∀ s ∈ slots, ∃ lo hi, s.name = encodeChunkDir lo hi ∧ (s.config = .complete → ∃ m, Keeping B lo hi m s.stores ∧ ∀ w ∈ m.started, Src w.1 w.2)

theorem SlotsOk.mono {B : Kit} {Src Src' : Labels → TimePoint → Prop} {slots : List Slot} (h : SlotsOk B Src slots) (hs : ∀ ls p, Src ls p → Src' ls p) :
    SlotsOk B Src' slots := by
  intro s hm
  obtain ⟨lo, hi, h1, h2⟩ := h s hm
  exact ⟨lo, hi, h1, fun hc => by obtain ⟨m, h3, h4⟩ := h2 hc; exact ⟨m, h3, fun w hw => hs _ _ (h4 w hw)⟩⟩

theorem SlotsOk.append {B : Kit} {Src : Labels → TimePoint → Prop} {a b : List Slot} (ha : SlotsOk B Src a) (hb : SlotsOk B Src b) : SlotsOk B Src (a ++ b) := by
  intro s hs
  rcases List.mem_append.mp hs with hs | hs
  · exact ha s hs
  · exact hb s hs

theorem SlotsOk.perm {B : Kit} {Src : Labels → TimePoint → Prop} {a b : List Slot} (ha : SlotsOk B Src a) (hp : b.Perm a) : SlotsOk B Src b :=
  fun s hs => ha s (hp.mem_iff.mp hs)

theorem newDir_ok (B : Kit) (Src : Labels → TimePoint → Prop) (lo hi : U64) (n : Nat) : SlotsOk B Src (newDir lo hi n) := by
  unfold newDir
  rw [chunkDir_upTo (by simp)]
  intro s hs
  match n, hs with
  | 0, hs => cases hs
  | 1, hs =>
    simp only [List.nil_append, List.mem_singleton] at hs
    subst hs
    exact ⟨lo, hi, rfl, by intro e; cases e⟩
  | 2, hs =>
    simp only [List.nil_append, List.mem_singleton] at hs
    subst hs
    exact ⟨lo, hi, rfl, by intro e; cases e⟩
  | n + 3, hs =>
    simp only [List.nil_append, List.mem_singleton] at hs
    subst hs
    exact ⟨lo, hi, rfl, fun _ => ⟨⟨[], []⟩, Keeping.empty B lo hi, fun w hw => by cases hw⟩⟩

theorem nextDir_ok (B : Kit) (Src : Labels → TimePoint → Prop) (c : SrvConf) (cut : Nat) : SlotsOk B Src (c.nextDir cut) := by
  have h0 : SlotsOk B Src [] := fun s hs => by cases hs
  have h1 := newDir_ok B Src
  unfold SrvConf.nextDir
  generalize newDir = f at h1 ⊢
  rcases (c.db.threads 0).now with _ | ph
  · rcases (c.db.threads 0).todo with _ | ⟨op, ops⟩
    · exact h0
    · cases op with
      | swap lo hi => exact h1 lo hi cut
      | _ => exact h0
  · cases ph with
    | s1 lo hi => exact h1 lo hi 3
    | s2 lo hi => exact h1 lo hi 3
    | _ => exact h0

/-- The chunks found, from the directories and back. -/
theorem readChunks_found {base : Str} (hb : ∀ b ∈ base, isCont b = false) (clock : Str → U64) {ss : List Slot} {cs : List SChunk}
    (hn : ∀ s ∈ ss, ∃ lo hi, s.name = encodeChunkDir lo hi) (h : readChunks base clock ss = some cs) :
    (∀ s ∈ ss, s.config = .complete) ∧ (∀ c ∈ cs, ∃ s ∈ ss, ∀ lo hi, s.name = encodeChunkDir lo hi → ∃ shown : U64, shown.toNat ≤ hi.toNat ∧ c = foundAgain s.stores lo shown) ∧
    ∀ s ∈ ss, ∀ lo hi, s.name = encodeChunkDir lo hi → ∃ shown : U64, shown.toNat ≤ hi.toNat ∧ foundAgain s.stores lo shown ∈ cs := by
  have hc : ∀ s ∈ ss, s.config = .complete := by
    intro s hs
    by_contra hne
    obtain ⟨lo, hi, e⟩ := hn s hs
    rw [readChunks_incomplete hb clock hs hne e] at h; cases h
  have hre : ∀ s ∈ ss, ∀ lo hi, s.name = encodeChunkDir lo hi → ∃ shown : U64, shown.toNat ≤ hi.toNat ∧ s.reopen base clock = some (some (foundAgain s.stores lo shown)) := by
    intro s hs lo hi e
    have := C11_partial base hb lo hi (clock (encodeChunkDir lo hi))
    refine ⟨if hi.toNat > (clock (encodeChunkDir lo hi)).toNat then clock (encodeChunkDir lo hi) else hi, by split <;> omega, ?_⟩
    unfold Slot.reopen
    rw [hc s hs, e]
    simp only [decide_true]
    rw [this]
    rfl
  refine ⟨hc, ?_⟩
  clear hc
  induction ss generalizing cs with
  | nil =>
    simp only [readChunks, Option.some.injEq] at h
    subst h
    exact ⟨by simp, by simp⟩
  | cons s ss ih =>
    obtain ⟨lo, hi, e⟩ := hn s (by simp)
    obtain ⟨shown, h1, h2⟩ := hre s (by simp) lo hi e
    unfold readChunks at h
    rw [h2] at h
    simp only [] at h
    obtain ⟨cs', h3, rfl⟩ := Option.map_eq_some_iff.mp h
    obtain ⟨a1, a2⟩ := ih (fun x hx => hn x (by simp [hx])) h3 (fun x hx => hre x (by simp [hx]))
    refine ⟨?_, ?_⟩
    · intro c hcm
      rcases List.mem_cons.mp hcm with rfl | hcm
      · refine ⟨s, by simp, fun lo' hi' e' => ?_⟩
        obtain ⟨shown', h1', h2'⟩ := hre s (by simp) lo' hi' e'
        rw [h2] at h2'
        exact ⟨shown', h1', Option.some.inj (Option.some.inj h2')⟩
      · obtain ⟨s', hs', h4⟩ := a1 c hcm
        exact ⟨s', by simp [hs'], h4⟩
    · intro s' hs' lo' hi' e'
      rcases List.mem_cons.mp hs' with rfl | hs'
      · obtain ⟨shown', h1', h2'⟩ := hre s' (by simp) lo' hi' e'
        rw [h2] at h2'
        exact ⟨shown', h1', by rw [← Option.some.inj (Option.some.inj h2')]; simp⟩
      · obtain ⟨shown', h4, h5⟩ := a2 s' hs' lo' hi' e'
        exact ⟨shown', h4, by simp [h5]⟩

theorem existing_found {base : Str} (hb : ∀ b ∈ base, isCont b = false) (clock : Str → U64) {ss : List Slot} {cs : List SChunk}
    (hn : ∀ s ∈ ss, ∃ lo hi, s.name = encodeChunkDir lo hi) (h : readExistingChunks base clock ss = some cs) :
    (∀ s ∈ ss, s.config = .complete) ∧ (∀ c ∈ cs, ∃ s ∈ ss, ∀ lo hi, s.name = encodeChunkDir lo hi → ∃ shown : U64, shown.toNat ≤ hi.toNat ∧ c = foundAgain s.stores lo shown) ∧
    ∀ s ∈ ss, ∀ lo hi, s.name = encodeChunkDir lo hi → ∃ shown : U64, shown.toNat ≤ hi.toNat ∧ foundAgain s.stores lo shown ∈ cs := by
  unfold readExistingChunks at h
  obtain ⟨cs', h1, rfl⟩ := Option.map_eq_some_iff.mp h
  obtain ⟨h0, h2, h3⟩ := readChunks_found hb clock hn h1
  have hp := stableSort_perm (fun a b : SChunk => decide (a.start_.toNat ≤ b.start_.toNat)) cs'
  refine ⟨h0, fun c hc => h2 c (hp.mem_iff.mp hc), fun s hs lo hi e => ?_⟩
  obtain ⟨shown, h4, h5⟩ := h3 s hs lo hi e
  exact ⟨shown, h4, hp.mem_iff.mpr h5⟩

/-- The older chunks contribute what they hold. -/
theorem SlotsOk.frozen {B : Kit} {Src : Labels → TimePoint → Prop} {base : Str} (hb : ∀ b ∈ base, isCont b = false) {clock : Str → U64} {ss : List Slot} {A : List SChunk}
    (hs : SlotsOk B Src ss) (h : readExistingChunks base clock ss = some A) :
    Forall₂ (Frozen B fun k => ∃ ls p, Src ls p ∧ k = sortLabels ls) A (A.map (contribution B)) ∧
    ∀ f ∈ A.map (contribution B), ∀ q : Labels, (∀ l ∈ q, WFLabel l) → ∀ a b : U64, a.toNat ≤ b.toNat → ∀ x ∈ f q a b, ∀ p ∈ x.points,
      ∃ ls, Src ls p ∧ x.labels = sortLabels ls ∧ a.toNat ≤ p.ts.toNat ∧ p.ts.toNat ≤ b.toNat := by
  obtain ⟨h0, h1, -⟩ := existing_found hb clock (fun s hm => by obtain ⟨lo, hi, e, -⟩ := hs s hm; exact ⟨lo, hi, e⟩) h
  have hall : ∀ c ∈ A, ∃ lo hi shown m st, shown.toNat ≤ hi.toNat ∧ c = foundAgain st lo shown ∧ Keeping B lo hi m st ∧ ∀ w ∈ m.started, Src w.1 w.2 := by
    intro c hc
    obtain ⟨s, hm, h2⟩ := h1 c hc
    obtain ⟨lo, hi, e, h3⟩ := hs s hm
    obtain ⟨shown, h4, h5⟩ := h2 lo hi e
    obtain ⟨m, h6, h7⟩ := h3 (h0 s hm)
    exact ⟨lo, hi, shown, m, s.stores, h4, h5, h6, h7⟩
  constructor
  · rw [List.forall₂_map_right_iff, List.forall₂_same]
    intro c hc
    obtain ⟨lo, hi, shown, m, st, h4, rfl, h6, h7⟩ := hall c hc
    exact h6.frozen h4 fun w hw => ⟨w.1, w.2, h7 w (h6.pre.subset hw), rfl⟩
  · intro f hf q hq a b hab x hx p hp
    obtain ⟨c, hc, rfl⟩ := List.mem_map.mp hf
    obtain ⟨lo, hi, shown, m, st, h4, rfl, h6, h7⟩ := hall c hc
    obtain ⟨w, hw, rfl, h8, h9, h10⟩ := h6.honest h4 hq hab hx hp
    exact ⟨w.1, h7 w (h6.pre.subset hw), h8, h9, h10⟩

theorem srv_run_append (B : Kit) (H : Hash) (F : Formats) (P : Paths) (c : SrvConf) (s s' : List Nat) :
    c.run B H F P (s ++ s') = (c.run B H F P s).run B H F P s' := by
  unfold SrvConf.run; rw [List.foldl_append]

/-- Responses stay. -/
theorem srv_step_sent (B : Kit) (H : Hash) (F : Formats) (P : Paths) (c : SrvConf) (t : Nat) : c.sent <+: (c.step B H F P t).sent := by
  unfold SrvConf.step
  split
  · exact List.prefix_refl _
  · split
    · exact List.prefix_refl _
    · unfold SrvConf.work
      have hd : ∀ c' : SrvConf, c'.resume.sent = c'.sent := by
        intro c'; unfold SrvConf.resume; split <;> rfl
      split
      · rw [hd]; exact List.prefix_refl _
      · split
        · exact List.prefix_refl _
        · exact List.prefix_append _ _
        · split <;> exact List.prefix_refl _
    · exact List.prefix_refl _

theorem srv_run_sent (B : Kit) (H : Hash) (F : Formats) (P : Paths) (s : List Nat) : ∀ c : SrvConf, c.sent <+: (c.run B H F P s).sent := by
  induction s with
  | nil => intro c; exact List.prefix_refl _
  | cons t s ih => intro c; exact (srv_step_sent B H F P c t).trans (ih _)

theorem srv_sent_keeps (B : Kit) (H : Hash) (F : Formats) (P : Paths) (c : SrvConf) (s : List Nat) {i : Nat} {x : Option Response} (h : c.sent[i]? = some x) :
    (c.run B H F P s).sent[i]? = some x := by
  obtain ⟨t, ht⟩ := srv_run_sent B H F P s c
  rw [← ht, List.getElem?_append_left (List.getElem?_eq_some_iff.mp h).1, h]

section
variable (B : BinSearch) (H : Hash) (sn : Snappy) (rt : PbRt) (P : Paths) (base : Str) (ss : List Session) (calls : List (List Call))

/-- Taken up in a life before life number `n`. -/
def SentBefore (n : Nat) (ls : Labels) (p : TimePoint) : Prop :=
  ∃ n' c cs, n' < n ∧ serverEnd B H (pbFormats sn rt) P base ss n' = some c ∧ calls[n']? = some cs ∧ TakenUp cs c ls p

variable {B H sn rt P base ss calls}

theorem SentBefore.mono {n n' : Nat} (h : n ≤ n') {ls : Labels} {p : TimePoint} (hs : SentBefore B H sn rt P base ss calls n ls p) :
    SentBefore B H sn rt P base ss calls n' ls p := by
  obtain ⟨k, c, cs, h1, h2⟩ := hs
  exact ⟨k, c, cs, by omega, h2⟩

theorem lives_succ (F : Formats) {n : Nat} {s : Session} (hs : ss[n]? = some s) :
    lives B H F P base (ss.take (n + 1)) = s.leaves B H F P base (lives B H F P base (ss.take n)) := by
  obtain ⟨h, rfl⟩ := List.getElem?_eq_some_iff.mp hs
  unfold lives
  rw [List.take_succ_eq_append_getElem h, List.foldl_append]
  rfl

theorem opened_eq (F : Formats) {n : Nat} {s : Session} (hs : ss[n]? = some s) {sched : List Nat} {c : SrvConf} (h : serverOf B H F P base ss n sched = some c) :
    3 ≤ s.born ∧ ∃ A, readExistingChunks base s.clock (s.order (lives B H F P base (ss.take n))) = some A ∧
      c = (SrvConf.startOn A s.now (s.now + s.size) s.ticks s.reqs).run (Kit.sled B) H F P sched := by
  unfold serverOf Session.at at h
  rw [hs] at h
  simp only [Option.bind_some] at h
  rcases hA : readExistingChunks base s.clock (s.order (lives B H F P base (ss.take n))) with _ | A
  · rw [hA] at h; cases h
  · rw [hA] at h
    simp only [] at h
    split at h
    · cases h
    · rename_i hb
      exact ⟨by omega, A, rfl, (Option.some.inj h).symm⟩

theorem opened_at (F : Formats) {n : Nat} {s : Session} (hs : ss[n]? = some s) (hb : 3 ≤ s.born) {A : List SChunk}
    (hA : readExistingChunks base s.clock (s.order (lives B H F P base (ss.take n))) = some A) (sched : List Nat) :
    serverOf B H F P base ss n sched = some ((SrvConf.startOn A s.now (s.now + s.size) s.ticks s.reqs).run (Kit.sled B) H F P sched) := by
  unfold serverOf Session.at
  rw [hs]
  simp only [Option.bind_some]
  rw [hA]
  simp only []
  rw [if_neg (by omega)]

theorem serverEnd_eq (F : Formats) {n : Nat} {s : Session} (hs : ss[n]? = some s) : serverEnd B H F P base ss n = serverOf B H F P base ss n s.sched := by
  unfold serverEnd serverOf
  rw [hs]
  rfl

theorem takenUp_write {cs : List Call} {c : SrvConf} {ls : Labels} {p : TimePoint} (h : TakenUp cs c ls p) :
    ∃ m ser x, Call.write m ∈ cs ∧ ser ∈ m ∧ x ∈ ser.samples ∧ ser.labels = ls ∧ x.point = p := by
  obtain ⟨j, m, ser, x, -, h1, h2⟩ := h
  exact ⟨m, ser, x, List.mem_of_getElem? h1, h2⟩

variable (hP : P.read ≠ P.write) (hb : ∀ b ∈ base, isCont b = false) (hL : FineLives sn rt P ss calls)
  (hH : H.Good fun k => ∃ cs ∈ calls, ∃ m s, Call.write m ∈ cs ∧ s ∈ m ∧ k = sortLabels s.labels)

include hP hL hH in
/-- The running server of one life, given what the chunks it found contribute. -/
theorem life_core_of {Src : Labels → TimePoint → Prop}
    (hsrc : ∀ {ls p}, Src ls p → ∃ cs ∈ calls, ∃ m ser, Call.write m ∈ cs ∧ ser ∈ m ∧ ser.labels = ls) {n : Nat} {s : Session} (hs : ss[n]? = some s) {cs : List Call} (hcs : calls[n]? = some cs)
    {A : List SChunk} {past : Past}
    (hF : Forall₂ (Frozen (Kit.sled B) fun k => ∃ ls p, Src ls p ∧ k = sortLabels ls) A past) (sched : List Nat) (hl : sched.length < 2 ^ 64 - 1) :
    OneOrder sn rt past s.now (s.now + s.size) s.ticks cs
      ((SrvConf.startOn A s.now (s.now + s.size) s.ticks s.reqs).run (Kit.sled B) H (pbFormats sn rt) P sched)
      (srvLin (Kit.sled B) H (pbFormats sn rt) P (SrvConf.startOn A s.now (s.now + s.size) s.ticks s.reqs) sched)
      (srvNs (Kit.sled B) H (pbFormats sn rt) P (SrvConf.startOn A s.now (s.now + s.size) s.ticks s.reqs) [] sched) ∧
    SrvState (Kit.sled B) H A past s.now (s.now + s.size) s.ticks cs sched.length
      ((SrvConf.startOn A s.now (s.now + s.size) s.ticks s.reqs).run (Kit.sled B) H (pbFormats sn rt) P sched)
      (srvLin (Kit.sled B) H (pbFormats sn rt) P (SrvConf.startOn A s.now (s.now + s.size) s.ticks s.reqs) sched) := by
  have hcm := List.mem_of_getElem? hcs
  have hsay : Forall₂ (Says sn rt.utf8 P) s.reqs cs := by
    obtain ⟨h1, rfl⟩ := List.getElem?_eq_some_iff.mp hs
    obtain ⟨h2, rfl⟩ := List.getElem?_eq_some_iff.mp hcs
    exact (List.forall₂_iff_get.mp hL.means).2 n h1 h2
  refine srv_core (Kit.sled B) H sn rt P hP A _ _ hF ?_ s.now (s.now + s.size) s.ticks s.reqs cs hsay (hL.fine cs hcm) ?_ sched hl
  · rintro k ⟨ls, p, h1, rfl⟩ l hl
    obtain ⟨cs', h2, m, ser, h3, h4, rfl⟩ := hsrc h1
    have hl := (sortLabels_perm ser.labels).mem_iff.mp hl
    obtain ⟨i, hi, rfl⟩ := List.mem_iff_getElem.mp h2
    have hi' : i < ss.length := by rw [hL.means.length_eq]; exact hi
    have h5 := (List.forall₂_iff_get.mp hL.means).2 i hi' hi
    simp only [List.get_eq_getElem] at h5
    obtain ⟨j, hj, hj'⟩ := List.mem_iff_getElem.mp h3
    have h6 := (List.forall₂_iff_get.mp h5).2 j (by rw [h5.length_eq]; exact hj) hj
    simp only [List.get_eq_getElem, hj'] at h6
    obtain ⟨-, body, bytes, -, -, hw'⟩ := h6
    exact isWrite_utf8 rt.utf8nil hw' ser h4 l hl
  · intro x y hx hy
    have hto : ∀ k, ((∃ m s, Call.write m ∈ cs ∧ s ∈ m ∧ k = sortLabels s.labels) ∨ ∃ ls p, Src ls p ∧ k = sortLabels ls) →
        ∃ cs ∈ calls, ∃ m s, Call.write m ∈ cs ∧ s ∈ m ∧ k = sortLabels s.labels := by
      rintro k (h | ⟨ls, p, h1, rfl⟩)
      · exact ⟨cs, hcm, h⟩
      · obtain ⟨cs', h2, m, ser, h3, h4, rfl⟩ := hsrc h1
        exact ⟨cs', h2, m, ser, h3, h4, rfl⟩
    exact hH x y (hto x hx) (hto y hy)

include hP hL hH in
theorem life_core_past {n : Nat} {s : Session} (hs : ss[n]? = some s) {cs : List Call} (hcs : calls[n]? = some cs)
    {A : List SChunk} {past : Past}
    (hF : Forall₂ (Frozen (Kit.sled B) fun k => ∃ ls p, SentBefore B H sn rt P base ss calls n ls p ∧ k = sortLabels ls) A past) (sched : List Nat) (hl : sched.length < 2 ^ 64 - 1) :
    OneOrder sn rt past s.now (s.now + s.size) s.ticks cs
      ((SrvConf.startOn A s.now (s.now + s.size) s.ticks s.reqs).run (Kit.sled B) H (pbFormats sn rt) P sched)
      (srvLin (Kit.sled B) H (pbFormats sn rt) P (SrvConf.startOn A s.now (s.now + s.size) s.ticks s.reqs) sched)
      (srvNs (Kit.sled B) H (pbFormats sn rt) P (SrvConf.startOn A s.now (s.now + s.size) s.ticks s.reqs) [] sched) ∧
    SrvState (Kit.sled B) H A past s.now (s.now + s.size) s.ticks cs sched.length
      ((SrvConf.startOn A s.now (s.now + s.size) s.ticks s.reqs).run (Kit.sled B) H (pbFormats sn rt) P sched)
      (srvLin (Kit.sled B) H (pbFormats sn rt) P (SrvConf.startOn A s.now (s.now + s.size) s.ticks s.reqs) sched) := by
  refine life_core_of hP hL hH ?_ hs hcs hF sched hl
  rintro ls p ⟨n', c, cs', -, -, h1, h2⟩
  obtain ⟨m, ser, -, a1, a2, -, a3, -⟩ := takenUp_write h2
  exact ⟨cs', List.mem_of_getElem? h1, m, ser, a1, a2, a3⟩

include hP hb hL hH in
/-- The running server of one life, given what it found. -/
theorem life_core {n : Nat} {s : Session} (hs : ss[n]? = some s) {cs : List Call} (hcs : calls[n]? = some cs)
    (hok : SlotsOk (Kit.sled B) (SentBefore B H sn rt P base ss calls n) (lives B H (pbFormats sn rt) P base (ss.take n))) {A : List SChunk}
    (hA : readExistingChunks base s.clock (s.order (lives B H (pbFormats sn rt) P base (ss.take n))) = some A) (sched : List Nat) (hl : sched.length < 2 ^ 64 - 1) :
    OneOrder sn rt (A.map (contribution (Kit.sled B))) s.now (s.now + s.size) s.ticks cs
      ((SrvConf.startOn A s.now (s.now + s.size) s.ticks s.reqs).run (Kit.sled B) H (pbFormats sn rt) P sched)
      (srvLin (Kit.sled B) H (pbFormats sn rt) P (SrvConf.startOn A s.now (s.now + s.size) s.ticks s.reqs) sched)
      (srvNs (Kit.sled B) H (pbFormats sn rt) P (SrvConf.startOn A s.now (s.now + s.size) s.ticks s.reqs) [] sched) ∧
    SrvState (Kit.sled B) H A (A.map (contribution (Kit.sled B))) s.now (s.now + s.size) s.ticks cs sched.length
      ((SrvConf.startOn A s.now (s.now + s.size) s.ticks s.reqs).run (Kit.sled B) H (pbFormats sn rt) P sched)
      (srvLin (Kit.sled B) H (pbFormats sn rt) P (SrvConf.startOn A s.now (s.now + s.size) s.ticks s.reqs) sched) := by
  obtain ⟨hF, -⟩ := (hok.perm (hL.order s (List.mem_of_getElem? hs) _)).frozen hb hA
  exact life_core_past hP hL hH hs hcs hF sched hl

include hP hb hL hH in
/-- The directories found by every life. -/
theorem lives_ok (n : Nat) (hn : n ≤ ss.length) :
    SlotsOk (Kit.sled B) (SentBefore B H sn rt P base ss calls n) (lives B H (pbFormats sn rt) P base (ss.take n)) := by
  induction n with
  | zero => intro s hs; simp [lives] at hs
  | succ n ih =>
    have ih := ih (by omega)
    obtain ⟨s, hs⟩ : ∃ s, ss[n]? = some s := ⟨_, List.getElem?_eq_getElem (by omega)⟩
    obtain ⟨cs, hcs⟩ : ∃ cs, calls[n]? = some cs := ⟨_, List.getElem?_eq_getElem (by rw [← hL.means.length_eq]; omega)⟩
    have hsm := List.mem_of_getElem? hs
    have hbase := (ih.perm (hL.order s hsm _)).mono fun ls p h => h.mono (Nat.le_succ n)
    rw [lives_succ _ hs]
    unfold Session.leaves
    rcases hA : readExistingChunks base s.clock (s.order (lives B H (pbFormats sn rt) P base (ss.take n))) with _ | A
    · exact hbase
    · simp only []
      split
      · exact hbase.append (newDir_ok _ _ _ _ _)
      · rename_i hborn
        refine hbase.append (SlotsOk.append ?_ (nextDir_ok _ _ _ _))
        have hst := hL.steps s hsm
        obtain ⟨-, S⟩ := life_core hP hb hL hH hs hcs ih hA s.sched (by omega)
        have hend : serverEnd B H (pbFormats sn rt) P base ss n = some _ := (serverEnd_eq _ hs).trans (opened_at _ hs (by omega) hA s.sched)
        generalize (SrvConf.startOn A s.now (s.now + s.size) s.ticks s.reqs).run (Kit.sled B) H (pbFormats sn rt) P s.sched = c at S hend ⊢
        intro sl hsl
        obtain ⟨C, hC, rfl⟩ := List.mem_map.mp hsl
        obtain ⟨i, hi, rfl⟩ := List.mem_iff_getElem.mp hC
        rw [List.length_drop] at hi
        have hget : c.db.chunks[A.length + i]? = some (c.db.chunks.drop A.length)[i] := by
          rw [List.getElem_drop]; exact List.getElem?_eq_getElem _
        refine ⟨_, _, rfl, fun _ => ⟨_, S.keeping hst hget (by omega), fun w hw => ?_⟩⟩
        exact ⟨n, c, cs, by omega, hend, hcs, S.source hget w hw⟩

theorem leaves_keeps (hord : ∀ s ∈ ss, ∀ l, (s.order l).Perm l) (F : Formats) {n : Nat} (hn : n < ss.length) {sl : Slot}
    (h : sl ∈ lives B H F P base (ss.take n)) : sl ∈ lives B H F P base (ss.take (n + 1)) := by
  have hs : ss[n]? = some ss[n] := List.getElem?_eq_getElem hn
  rw [lives_succ F hs]
  have h' : sl ∈ ss[n].order (lives B H F P base (ss.take n)) := (hord _ (List.getElem_mem hn) _).mem_iff.mpr h
  unfold Session.leaves
  split
  · exact h'
  · exact List.mem_append_left _ h'

theorem lives_keeps (hord : ∀ s ∈ ss, ∀ l, (s.order l).Perm l) (F : Formats) {n n' : Nat} (hle : n ≤ n') (hn : n' ≤ ss.length) {sl : Slot}
    (h : sl ∈ lives B H F P base (ss.take n)) : sl ∈ lives B H F P base (ss.take n') := by
  induction n', hle using Nat.le_induction with
  | base => exact h
  | succ k hk ih => exact leaves_keeps hord F (by omega) (ih (by omega))

end

end Verif
