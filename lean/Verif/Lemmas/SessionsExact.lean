import Verif.Lemmas.Sessions
/-! Lives of a server whose kills do not interrupt a write: exactly what the earlier lives have stored is found. -/
namespace Verif
open List

/-! ### One chunk -/

theorem Keeping.whole {B : Kit} {lo hi : U64} {l : Inserts} {st : SledStores} (h : Keeping B lo hi ⟨l, l⟩ st) : st = (chunkOf B lo hi l).store := by
  obtain ⟨idx, ser⟩ := st
  have h1 := h.ser
  have h2 := h.idx
  simp only [Chunk.new] at h1 h2
  rcases hc : (chunkOf B lo hi l).store with ⟨idx', ser'⟩
  rw [hc] at h1 h2
  simp only at h1 h2
  rw [h1, show idx = idx' from funext fun k => by rcases h2 k with e | e <;> exact e]

/-- A chunk with whole inserts, found again, answers as a new chunk with them, if no point lies after the end of the window shown. -/
theorem whole_answer {B : Kit} {lo hi shown : U64} {l : Inserts} {st : SledStores} (h : Keeping B lo hi ⟨l, l⟩ st)
    (hcut : ∀ w ∈ insideOnly lo hi l, w.2.ts.toNat ≤ shown.toNat) {q : Labels} (hq : ∀ l ∈ q, WFLabel l) {a b : U64} (hab : a.toNat ≤ b.toNat) :
    contribution B (foundAgain st lo shown) q a b = Desc.answer sledAccepts ⟨lo, hi, insideOnly lo hi l⟩ q a b := by
  have hok : LogOk lo hi l := h.ok
  have hrep := hok.rep B
  have hlen := insideOnly_length lo hi l
  have hfl := hok.fine.len
  have hincr : ∀ ls, SIncr (pointsFor (insideOnly lo hi l) ls) := hok.incr
  have hc0 : ChunkRep (kitRefines B) lo shown (insideOnly lo hi l) { chunkOf B lo hi l with end_ := shown } :=
    ⟨hrep.start_, rfl, hrep.ok, hrep.next, hrep.rep⟩
  have hv := view_answer (d := ⟨lo, shown, insideOnly lo hi l⟩) hc0 (by show (insideOnly lo hi l).length < _; omega)
    (fun w hw => hok.fine.wf w (List.mem_filter.mp hw).1) (fun ls => by
      have := hincr ls
      show SIncr (keepBy B.st.accepts (pointsFor (insideOnly lo hi l) ls))
      rw [keepBy_incr _ this]; exact this) hq hab
  have e : (foundAgain st lo shown).query (kitComp B) q a b = ({ chunkOf B lo hi l with end_ := shown } : SChunk).query (kitComp B) q a b := by
    unfold Chunk.query foundAgain Chunk.isWithRange
    simp only [Chunk.close, Chunk.new, Bool.false_eq_true, if_false, hrep.start_, hrep.ok, ← h.whole]
  unfold contribution
  rw [e]
  refine hv.2.1.trans ?_
  rw [answer_incr B.st (d := ⟨lo, shown, insideOnly lo hi l⟩) hincr]
  refine answer_shown hcut (fun w hw => ?_) q a b
  have := (List.mem_filter.mp hw).2
  unfold inside at this
  simp only [Bool.and_eq_true, decide_eq_true_eq] at this
  omega

/-! ### The directories, oldest first -/

/-- A directory with what it holds. -/
def Holding (B : Kit) (Src : Labels → TimePoint → Prop) (sl : Slot) (d : Desc) : Prop :=
  sl.config = .complete ∧ sl.name = encodeChunkDir d.lo d.hi ∧ ∃ l, Keeping B d.lo d.hi ⟨l, l⟩ sl.stores ∧ d.h = insideOnly d.lo d.hi l ∧ ∀ w ∈ l, Src w.1 w.2

theorem Holding.mono {B : Kit} {Src Src' : Labels → TimePoint → Prop} (hs : ∀ ls p, Src ls p → Src' ls p) {sl : Slot} {d : Desc} (h : Holding B Src sl d) :
    Holding B Src' sl d := by
  obtain ⟨h1, h2, l, h3, h4, h5⟩ := h
  exact ⟨h1, h2, l, h3, h4, fun w hw => hs _ _ (h5 w hw)⟩

/-- The chunk opened on a directory. -/
def opensAs (base : Str) (clock : Str → U64) (s : Slot) : SChunk := ((s.reopen base clock).join).getD (foundAgain s.stores 0#64 0#64)

theorem opensAs_eq {base : Str} (hb : ∀ b ∈ base, isCont b = false) (clock : Str → U64) {s : Slot} (hc : s.config = .complete) {lo hi : U64}
    (e : s.name = encodeChunkDir lo hi) : ∃ shown : U64, (shown = hi ∨ shown = clock s.name) ∧ shown.toNat ≤ hi.toNat ∧
      s.reopen base clock = some (some (foundAgain s.stores lo shown)) ∧ opensAs base clock s = foundAgain s.stores lo shown := by
  have := C11_partial base hb lo hi (clock (encodeChunkDir lo hi))
  have h : s.reopen base clock = some (some (foundAgain s.stores lo
      (if hi.toNat > (clock (encodeChunkDir lo hi)).toNat then clock (encodeChunkDir lo hi) else hi))) := by
    unfold Slot.reopen
    rw [hc, e]
    simp only [decide_true]
    rw [this]
    rfl
  refine ⟨if hi.toNat > (clock (encodeChunkDir lo hi)).toNat then clock (encodeChunkDir lo hi) else hi, ?_, by split <;> omega, h, by unfold opensAs; rw [h]; rfl⟩
  rw [e]
  split
  · exact Or.inr rfl
  · exact Or.inl rfl

theorem readChunks_map {base : Str} (hb : ∀ b ∈ base, isCont b = false) (clock : Str → U64) {ss : List Slot}
    (h : ∀ s ∈ ss, s.config = .complete ∧ ∃ lo hi, s.name = encodeChunkDir lo hi) : readChunks base clock ss = some (ss.map (opensAs base clock)) := by
  induction ss with
  | nil => rfl
  | cons s ss ih =>
    obtain ⟨h1, lo, hi, h2⟩ := h s (by simp)
    obtain ⟨shown, -, -, h3, h4⟩ := opensAs_eq hb clock h1 h2
    unfold readChunks
    rw [h3]
    simp only []
    rw [ih fun x hx => h x (by simp [hx]), List.map_cons, h4]
    rfl

/-- Directories with increasing starts, listed in any order, are read as they are. -/
theorem existing_sorted {base : Str} (hb : ∀ b ∈ base, isCont b = false) (clock : Str → U64) {B : Kit} {Src : Labels → TimePoint → Prop} {slots T : List Slot} {ds : List Desc}
    (hp : slots.Perm T) (hT : Forall₂ (Holding B Src) T ds) (hs : ds.Pairwise fun d e => d.lo.toNat < e.lo.toNat) :
    readExistingChunks base clock slots = some (T.map (opensAs base clock)) := by
  have hall : ∀ s ∈ T, s.config = .complete ∧ ∃ lo hi, s.name = encodeChunkDir lo hi := by
    intro s hs
    obtain ⟨d, -, h1, h2, -⟩ := forall₂_get hT.flip s hs
    exact ⟨h1, _, _, h2⟩
  unfold readExistingChunks
  rw [readChunks_map hb clock fun s hs => hall s (hp.mem_iff.mp hs)]
  simp only [Option.map_some, Option.some.injEq]
  have hstart : Forall₂ (fun s d => (opensAs base clock s).start_ = d.lo) T ds := by
    refine hT.imp fun s d h => ?_
    obtain ⟨shown, -, -, -, h4⟩ := opensAs_eq hb clock h.1 h.2.1
    rw [h4]; rfl
  have hTs : (T.map (opensAs base clock)).Pairwise fun a b => a.start_.toNat < b.start_.toNat := by
    rw [List.pairwise_map]
    clear hT hp hall
    induction hstart with
    | nil => exact .nil
    | cons h1 h2 ih =>
      rw [List.pairwise_cons] at hs ⊢
      refine ⟨fun s hs' => ?_, ih hs.2⟩
      obtain ⟨d, hd, e⟩ := forall₂_get h2.flip s hs'
      rw [h1, e]
      exact hs.1 d hd
  have hperm := (stableSort_perm (fun a b : SChunk => decide (a.start_.toNat ≤ b.start_.toNat)) (slots.map (opensAs base clock))).trans (hp.map _)
  refine hperm.eq_of_pairwise (le := fun a b : SChunk => a.start_.toNat ≤ b.start_.toNat) ?_ ?_ ?_
  · intro a b ha hb' h1 h2
    have ha := hperm.mem_iff.mp ha
    obtain ⟨i, hi, rfl⟩ := List.mem_iff_getElem.mp ha
    obtain ⟨j, hj, rfl⟩ := List.mem_iff_getElem.mp hb'
    rw [List.pairwise_iff_getElem] at hTs
    rcases Nat.lt_trichotomy i j with h | h | h
    · have := hTs i j hi hj h; omega
    · subst h; rfl
    · have := hTs j i hj hi h; omega
  · exact (stableSort_sorted (le := fun a b : SChunk => decide (a.start_.toNat ≤ b.start_.toNat)) (fun a b => by simp; omega) (fun a b c => by simp; omega) _).imp fun h => by simpa using h
  · exact hTs.imp fun h => Nat.le_of_lt h

/-! ### What a life leaves -/

/-- The windows of the chunks of the sequential database. -/
theorem SeqDb.run_windows (lo hi : U64) (ops : List DbOp) : ((SeqDb.fresh lo hi).run ops).all.map (fun d => (d.lo, d.hi)) =
    (lo, hi) :: (ops.filter DbOp.isSwap).map fun | .swap a b => (a, b) | _ => (0#64, 0#64) := by
  induction ops using List.reverseRecOn with
  | nil => rfl
  | append_singleton ops op ih =>
    rw [SeqDb.run_snoc, List.filter_append, List.map_append, ← List.cons_append, ← ih]
    cases op with
    | write ls ps => simp [SeqDb.after, SeqDb.all, DbOp.isSwap]
    | query q a b => simp [SeqDb.after, DbOp.isSwap]
    | swap a b => simp [SeqDb.after, SeqDb.all, DbOp.isSwap]; rfl

theorem srv_ticks (B : Kit) (H : Hash) (F : Formats) (P : Paths) (A : List SChunk) (lo hi : U64) (ticks : List (U64 × U64)) (reqs : List Request) (sched : List Nat) :
    (((SrvConf.startOn A lo hi ticks reqs).run B H F P sched).db.threads 0).calls = ticks.map fun w => .swap w.1 w.2 := by
  have hinv := SrvInv.run (B := B) (H := H) (F := F) (P := P) (A := A) (lo := lo) (hi := hi) (ticks := ticks) (reqs := reqs) sched SrvInv.start
  obtain ⟨s', -, h⟩ := hinv.sim
  have h1 := runOn_calls B H A lo hi (deployed ((((SrvConf.startOn A lo hi ticks reqs).run B H F P sched).db.threads 1).calls ++ []) ticks) s' 0
  rw [(h []).1] at h1
  exact h1

section
variable {B : Kit} {H : Hash} {A : List SChunk} {past : Past} {lo hi : U64} {ticks : List (U64 × U64)} {calls : List Call} {n : Nat} {c : SrvConf} {L : List DbOp}

/-- A server that is not handling a write: its chunks hold whole inserts, those of the sequential database. -/
theorem SrvState.whole (h : SrvState B H A past lo hi ticks calls n c L) (hb : n + 1 < 2 ^ 64 - 1)
    (hclean : c.now.isSome = true → ∀ m, calls[c.sent.length]? ≠ some (.write m)) :
    Forall₂ (Holding B (TakenUp calls c)) (c.dirs A.length) ((SeqDb.fresh lo hi).run L).all := by
  obtain ⟨n', hn, hI⟩ := h.inv
  obtain ⟨pre, hl, hc⟩ := h.dep.cont
  have hg := h.dep.glen
  rw [SeqDb.behind_run] at hg hc
  simp only [List.length_append, List.length_replicate] at hg
  have hnw : notWriting (c.db.threads 1).now = true := by
    rcases hnow : (c.db.threads 1).now with _ | ph
    · rfl
    · have hm := h.now ph hnow
      cases ph with
      | writing ls ps rest f =>
        obtain ⟨h1, k, h2, h3⟩ := handling_mem hm
        obtain ⟨m, rfl, -⟩ := write_ops h3
        exact absurd h2 (hclean h1 m)
      | inserting ls ps p rest f =>
        obtain ⟨h1, k, h2, h3⟩ := handling_mem hm
        obtain ⟨m, rfl, -⟩ := write_ops h3
        exact absurd h2 (hclean h1 m)
      | _ => rfl
  have hins : insOf (c.db.threads 1).now = none := by
    revert hnw
    rcases (c.db.threads 1).now with _ | ph
    · intro _; rfl
    · cases ph <;> simp [notWriting, insOf]
  have hpre : pre = [] := by
    have hlt : c.db.current < c.db.chunks.length := by rw [hI.len]; omega
    exact (hl _ _ (by rw [fWin, List.getElem?_eq_getElem hlt]; rfl)).nil hnw
  subst hpre
  have hlen : (c.db.chunks.drop A.length).length = ((SeqDb.fresh lo hi).run L).all.length := by
    rw [List.length_drop, hI.len, SeqDb.len_all]; omega
  unfold SrvConf.dirs
  rw [List.forall₂_map_left_iff, List.forall₂_iff_get]
  refine ⟨hlen, fun i h1 h2 => ?_⟩
  simp only [List.get_eq_getElem]
  have hi1 : A.length + i < c.db.chunks.length := by rw [List.length_drop] at h1; omega
  have hget : c.db.chunks[A.length + i]? = some (c.db.chunks.drop A.length)[i] := by
    rw [List.getElem_drop]; exact List.getElem?_eq_getElem _
  generalize (c.db.chunks.drop A.length)[i] = S at hget
  obtain ⟨d, e1, e2, e3, e4⟩ := hc (A.length + i) S.store.start_ S.store.end_ (by omega) (by rw [fWin, hget]; rfl)
  have hd : d = ((SeqDb.fresh lo hi).run L).all[i] := by
    simp only [SeqDb.all] at e1 h2 ⊢
    rw [List.append_assoc, List.getElem?_append_right (by simp), List.length_replicate, Nat.add_sub_cancel_left, List.getElem?_eq_getElem h2] at e1
    exact (Option.some.inj e1).symm
  subst hd
  have hlock := h.dep.unlocked hI hins hget
  have hmom : S.moment = ⟨S.started, S.started⟩ := by
    unfold Sys.moment Sys.started Sys.settled
    rw [hlock]
  have hk := h.keeping hb hget (by omega)
  rw [hmom] at hk
  refine ⟨rfl, by rw [e2, e3], S.started, by rw [e2, e3]; exact hk, ?_, fun w hw => h.source hget w hw⟩
  rw [hI.started _ _ hget, e2, e3, e4]
  split <;> simp [insideOnly]

end

theorem newDir_holding (B : Kit) (Src : Labels → TimePoint → Prop) (lo hi : U64) {k : Nat} (hc : ∀ sl ∈ newDir lo hi k, sl.config = .complete) :
    newDir lo hi k = [] ∨ Forall₂ (Holding B Src) (newDir lo hi k) [⟨lo, hi, []⟩] := by
  unfold newDir at hc ⊢
  rw [chunkDir_upTo (by simp)] at hc ⊢
  match k, hc with
  | 0, _ => exact Or.inl rfl
  | 1, hc => exact absurd (hc _ (List.mem_append_right _ (List.mem_singleton_self _))) (by simp)
  | 2, hc => exact absurd (hc _ (List.mem_append_right _ (List.mem_singleton_self _))) (by simp)
  | k + 3, _ => exact Or.inr (.cons ⟨rfl, rfl, [], Keeping.empty B lo hi, rfl, by simp⟩ .nil)

/-- The directory of the chunk that is not yet current is empty; its window is that of the next swap. -/
theorem nextDir_holding (B : Kit) (Src : Labels → TimePoint → Prop) {c : SrvConf} {cut : Nat} (hc : ∀ sl ∈ c.nextDir cut, sl.config = .complete)
    {ticks : List (U64 × U64)} (ht : (c.db.threads 0).calls = ticks.map fun w => .swap w.1 w.2) :
    ∃ es : List Desc, Forall₂ (Holding B Src) (c.nextDir cut) es ∧ (∀ d ∈ es, d.h = []) ∧
      (c.db.threads 0).done.map Out.call ++ es.map (fun d => DbOp.swap d.lo d.hi) <+: ticks.map fun w => .swap w.1 w.2 := by
  rw [← ht]
  have none_ : c.nextDir cut = [] → ∃ es : List Desc, Forall₂ (Holding B Src) (c.nextDir cut) es ∧ (∀ d ∈ es, d.h = []) ∧
      (c.db.threads 0).done.map Out.call ++ es.map (fun d => DbOp.swap d.lo d.hi) <+: (c.db.threads 0).calls := by
    intro e
    refine ⟨[], by rw [e]; exact .nil, by simp, ?_⟩
    unfold FThread.calls
    rw [List.append_assoc, List.map_nil, List.append_nil]
    exact List.prefix_append _ _
  have one : ∀ lo hi k, c.nextDir cut = newDir lo hi k → (c.db.threads 0).done.map Out.call ++ [DbOp.swap lo hi] <+: (c.db.threads 0).calls →
      ∃ es : List Desc, Forall₂ (Holding B Src) (c.nextDir cut) es ∧ (∀ d ∈ es, d.h = []) ∧
      (c.db.threads 0).done.map Out.call ++ es.map (fun d => DbOp.swap d.lo d.hi) <+: (c.db.threads 0).calls := by
    intro lo hi k e hp
    rcases newDir_holding B Src lo hi (k := k) (by rw [← e]; exact hc) with h | h
    · exact none_ (e.trans h)
    · exact ⟨[⟨lo, hi, []⟩], by rw [e]; exact h, by simp, hp⟩
  clear hc ht
  rcases hn : (c.db.threads 0).now with _ | ph
  · rcases hto : (c.db.threads 0).todo with _ | ⟨op, ops⟩
    · exact none_ (by unfold SrvConf.nextDir; rw [hn, hto])
    · cases op with
      | swap lo hi =>
        refine one lo hi cut (by unfold SrvConf.nextDir; rw [hn, hto]) ?_
        unfold FThread.calls
        rw [hn, hto]
        simp
      | _ => exact none_ (by unfold SrvConf.nextDir; rw [hn, hto])
  · cases ph with
    | s1 lo hi =>
      refine one lo hi 3 (by unfold SrvConf.nextDir; rw [hn]) ?_
      unfold FThread.calls
      rw [hn]
      simp [FPhase.call]
    | s2 lo hi =>
      refine one lo hi 3 (by unfold SrvConf.nextDir; rw [hn]) ?_
      unfold FThread.calls
      rw [hn]
      simp [FPhase.call]
    | _ => exact none_ (by unfold SrvConf.nextDir; rw [hn])

section
variable (B : BinSearch) (H : Hash) (sn : Snappy) (rt : PbRt) (P : Paths) (base : Str) (ss : List Session) (calls : List (List Call))

/-- The chunks found at the start of life number `n`. -/
def foundBy (n : Nat) : List SChunk := ((ss[n]?).bind fun s => readExistingChunks base s.clock (s.order (lives B H (pbFormats sn rt) P base (ss.take n)))).getD []

/-- The start of life number `n`. -/
def startOf (n : Nat) : SrvConf :=
  match ss[n]? with
  | some s => SrvConf.startOn (foundBy B H sn rt P base ss n) s.now (s.now + s.size) s.ticks s.reqs
  | none => SrvConf.startOn [] 0#64 0#64 [] []

/-- The order of the calls of life number `n`. -/
def lifeOrder (n : Nat) (sched : List Nat) : List DbOp := srvLin (Kit.sled B) H (pbFormats sn rt) P (startOf B H sn rt P base ss n) sched
/-- The number of calls per answered request of life number `n`. -/
def lifeCounts (n : Nat) (sched : List Nat) : List Nat := srvNs (Kit.sled B) H (pbFormats sn rt) P (startOf B H sn rt P base ss n) [] sched

variable {B H sn rt P base ss calls}

theorem startOf_eq {n : Nat} {s : Session} (hs : ss[n]? = some s) {A : List SChunk}
    (hA : readExistingChunks base s.clock (s.order (lives B H (pbFormats sn rt) P base (ss.take n))) = some A) :
    startOf B H sn rt P base ss n = SrvConf.startOn A s.now (s.now + s.size) s.ticks s.reqs := by
  unfold startOf foundBy
  rw [hs]
  simp only [Option.bind_some]
  rw [hA]
  rfl

variable (hP : P.read ≠ P.write) (hb : ∀ b ∈ base, isCont b = false) (hL : FineLives sn rt P ss calls)
  (hH : H.Good fun k => ∃ cs ∈ calls, ∃ m s, Call.write m ∈ cs ∧ s ∈ m ∧ k = sortLabels s.labels)

include hP hb hL hH in
theorem lives_chron (n : Nat) (hn : n ≤ ss.length) (hclean : NotTorn (serverEnd B H (pbFormats sn rt) P base ss) calls n)
    (hall : ∀ sl ∈ lives B H (pbFormats sn rt) P base (ss.take n), sl.config = .complete) :
    ∃ (T : List Slot) (ds : List Desc), (lives B H (pbFormats sn rt) P base (ss.take n)).Perm T ∧
      Forall₂ (Holding (Kit.sled B) (SentBefore B H sn rt P base ss calls n)) T ds ∧
      (ds.map fun d => (d.lo, d.hi)).Sublist ((ss.take n).flatMap fun s => (s.now, s.now + s.size) :: s.ticks) ∧
      ∀ (q : Labels) (a b : U64) (ls : Labels), seriesWith (ds.map fun d => d.answer sledAccepts q a b) ls =
        seriesWith ((storedBefore (serverEnd B H (pbFormats sn rt) P base ss) ss
          (fun i => lifeOrder B H sn rt P base ss i ((ss[i]?).map Session.sched |>.getD [])) n).map fun d => d.answer sledAccepts q a b) ls := by
  induction n with
  | zero => exact ⟨[], [], List.Perm.refl _, .nil, by simp, fun _ _ _ _ => rfl⟩
  | succ n ih =>
    obtain ⟨s, hs⟩ : ∃ s, ss[n]? = some s := ⟨_, List.getElem?_eq_getElem (by omega)⟩
    obtain ⟨cs, hcs⟩ : ∃ cs, calls[n]? = some cs := ⟨_, List.getElem?_eq_getElem (by rw [← hL.means.length_eq]; omega)⟩
    have hsm := List.mem_of_getElem? hs
    obtain ⟨T, ds, h1, h2, h3, h4⟩ := ih (by omega) (fun n' hn' => hclean n' (by omega))
      (fun sl hsl => hall sl (leaves_keeps hL.order _ (by omega) hsl))
    have h2 := h2.imp fun _ _ h => h.mono fun ls p h => SentBefore.mono (Nat.le_succ n) h
    have htake : ss.take (n + 1) = ss.take n ++ [s] := by rw [List.take_add_one, hs]; rfl
    have hperm := (hL.order s hsm (lives B H (pbFormats sn rt) P base (ss.take n))).trans h1
    have h3' : (ds.map fun d => (d.lo, d.hi)).Sublist ((ss.take (n + 1)).flatMap fun s => (s.now, s.now + s.size) :: s.ticks) := by
      rw [htake, List.flatMap_append]
      exact h3.trans (List.sublist_append_left _ _)
    rw [lives_succ _ hs] at hall ⊢
    -- a life that did not come up
    have down : serverEnd B H (pbFormats sn rt) P base ss n = none → ∀ q a b ls, seriesWith (ds.map fun d => d.answer sledAccepts q a b) ls =
        seriesWith ((storedBefore (serverEnd B H (pbFormats sn rt) P base ss) ss
          (fun i => lifeOrder B H sn rt P base ss i ((ss[i]?).map Session.sched |>.getD [])) (n + 1)).map fun d => d.answer sledAccepts q a b) ls := by
      intro e q a b ls
      rw [storedBefore, e]
      simp only [List.append_nil]
      exact h4 q a b ls
    unfold Session.leaves at hall ⊢
    rcases hA : readExistingChunks base s.clock (s.order (lives B H (pbFormats sn rt) P base (ss.take n))) with _ | A
    · refine ⟨T, ds, hperm, h2, h3', down ?_⟩
      unfold serverEnd Session.at
      rw [hs]
      simp only [Option.bind_some]
      rw [hA]
    · rw [hA] at hall
      simp only [] at hall ⊢
      by_cases hborn : s.born < 3
      · rw [if_pos hborn] at hall ⊢
        have e : newDir s.now (s.now + s.size) s.born = [] := by
          rcases newDir_holding (Kit.sled B) (fun _ _ => True) s.now (s.now + s.size) (k := s.born) (fun sl hsl => hall sl (List.mem_append_right _ hsl)) with e | e
          · exact e
          · exfalso
            have := hall
            unfold newDir at this e
            rw [chunkDir_upTo (by simp)] at this e
            match hk : s.born, hborn with
            | 0, _ => rw [hk] at e; cases e
            | 1, _ =>
              rw [hk] at this
              exact absurd (this _ (List.mem_append_right _ (List.mem_append_right _ (List.mem_singleton_self _)))) (by simp)
            | 2, _ =>
              rw [hk] at this
              exact absurd (this _ (List.mem_append_right _ (List.mem_append_right _ (List.mem_singleton_self _)))) (by simp)
        rw [e, List.append_nil]
        refine ⟨T, ds, hperm, h2, h3', down ?_⟩
        unfold serverEnd Session.at
        rw [hs]
        simp only [Option.bind_some]
        rw [hA]
        simp only []
        rw [if_pos hborn]
      · rw [if_neg hborn] at hall ⊢
        have hend : serverEnd B H (pbFormats sn rt) P base ss n = some _ := (serverEnd_eq _ hs).trans (opened_at _ hs (by omega) hA s.sched)
        have hst := hL.steps s hsm
        obtain ⟨D, S⟩ := life_core hP hb hL hH hs hcs (lives_ok hP hb hL hH n (by omega)) hA s.sched (by omega)
        have htick := srv_ticks (Kit.sled B) H (pbFormats sn rt) P A s.now (s.now + s.size) s.ticks s.reqs s.sched
        have hord : lifeOrder B H sn rt P base ss n s.sched = srvLin (Kit.sled B) H (pbFormats sn rt) P (SrvConf.startOn A s.now (s.now + s.size) s.ticks s.reqs) s.sched := by
          unfold lifeOrder
          rw [startOf_eq hs hA]
        rw [← hord] at D S
        generalize (SrvConf.startOn A s.now (s.now + s.size) s.ticks s.reqs).run (Kit.sled B) H (pbFormats sn rt) P s.sched = c at D S hend hall htick ⊢
        have hw := S.whole hst (hclean n (by omega) c cs hend hcs)
        obtain ⟨es, e1, e2, e3⟩ := nextDir_holding (Kit.sled B) (SentBefore B H sn rt P base ss calls (n + 1)) (cut := s.cut)
          (fun sl hsl => hall sl (List.mem_append_right _ (List.mem_append_right _ hsl))) htick
        refine ⟨T ++ (c.dirs A.length ++ c.nextDir s.cut), ds ++ (((SeqDb.fresh s.now (s.now + s.size)).run (lifeOrder B H sn rt P base ss n s.sched)).all ++ es),
          hperm.append_right _, ?_, ?_, ?_⟩
        · refine List.rel_append h2 (List.rel_append (hw.imp fun sl d h => h.mono fun ls p h => ?_) e1)
          exact ⟨n, c, cs, by omega, hend, hcs, h⟩
        · rw [htake, List.flatMap_append, List.map_append]
          refine h3.append ?_
          rw [List.map_append, SeqDb.run_windows, D.1, List.flatMap_singleton]
          refine List.Sublist.cons_cons _ (List.IsPrefix.sublist ?_)
          have e3' := e3.map (f := fun | .swap a b => (a, b) | _ => (0#64, 0#64))
          rw [List.map_append, List.map_map, List.map_map] at e3'
          rw [List.map_map]
          simpa [Function.comp_def] using e3'
        · intro q a b ls
          rw [storedBefore, hend, hs]
          simp only [Option.map_some, Option.getD_some]
          rw [List.map_append, List.map_append, List.map_append, seriesWith_append, seriesWith_append, seriesWith_append, h4 q a b ls]
          have : seriesWith (es.map fun d => d.answer sledAccepts q a b) ls = [] := by
            unfold seriesWith
            rw [List.flatMap_eq_nil_iff]
            intro x hx
            obtain ⟨d, hd, rfl⟩ := List.mem_map.mp hx
            rw [empty_answer (e2 d hd)]; rfl
          rw [this, List.append_nil]

theorem Frozen.congr {B : Kit} {K : Labels → Prop} {s : SChunk} {f g : Labels → U64 → U64 → List Series} (h : Frozen B K s f)
    (he : ∀ q : Labels, (∀ l ∈ q, WFLabel l) → ∀ a b : U64, a.toNat ≤ b.toNat → f q a b = g q a b) : Frozen B K s g :=
  ⟨h.quiet, h.safe, fun q hq a b hab => by rw [← he q hq a b hab]; exact h.gives q hq a b hab, fun q hq a b hab => by rw [← he q hq a b hab]; exact h.out q hq a b hab,
    fun q hq a b hab => by rw [← he q hq a b hab]; exact h.once q hq a b hab, fun q hq a b hab => by rw [← he q hq a b hab]; exact h.known q hq a b hab⟩

theorem IsMerge.past {past past' : Past} {q : Labels} {a b : U64} {rest : ChunkResults} {es : List (Labels × List TimePoint)}
    (he : ∀ ls, seriesWith (past.map fun f => f q a b) ls = seriesWith (past'.map fun f => f q a b) ls) (h : IsMerge ((past.map fun f => f q a b) ++ rest) es) :
    IsMerge ((past'.map fun f => f q a b) ++ rest) es :=
  h.congr fun ls => by rw [seriesWith_append, seriesWith_append, he]

theorem HandledOn.past {sn : Snappy} {rt : PbRt} {past past' : Past} (he : ∀ q a b ls, seriesWith (past.map fun f => f q a b) ls = seriesWith (past'.map fun f => f q a b) ls)
    {begun : Nat} {Gs : List SeqDb} {k : Call} {x : Option Response} (h : HandledOn sn rt past begun Gs k x) : HandledOn sn rt past' begun Gs k x := by
  cases k with
  | read qs =>
    intro hq
    obtain ⟨body, out, h1, h2, rs, h3, h4, h5, h6⟩ := h hq
    refine ⟨body, out, h1, h2, rs, h3, h4, fun i G q r a1 a2 a3 => ?_, h6⟩
    obtain ⟨es, b1, b2⟩ := h5 i G q r a1 a2 a3
    refine ⟨es, ?_, b2⟩
    rcases b1 with b1 | ⟨b0, b1⟩
    · exact Or.inl (b1.past fun ls => he _ _ _ ls)
    · exact Or.inr ⟨b0, b1.past fun ls => he _ _ _ ls⟩
  | _ => exact h

variable (hC : FineClocks ss calls)

include hP hb hL hH hC in
/-- A life that comes up after lives whose kills did not interrupt a write. -/
theorem life_exact {n : Nat} {s : Session} (hs : ss[n]? = some s) {cs : List Call} (hcs : calls[n]? = some cs)
    (hclean : NotTorn (serverEnd B H (pbFormats sn rt) P base ss) calls n) {sched : List Nat} (hl : sched.length < 2 ^ 64 - 1) {c : SrvConf}
    (hc : serverOf B H (pbFormats sn rt) P base ss n sched = some c) :
    OneOrder sn rt ((storedBefore (serverEnd B H (pbFormats sn rt) P base ss) ss
          (fun i => lifeOrder B H sn rt P base ss i ((ss[i]?).map Session.sched |>.getD [])) n).map fun d => d.answer sledAccepts) s.now (s.now + s.size) s.ticks cs c
      (lifeOrder B H sn rt P base ss n sched) (lifeCounts B H sn rt P base ss n sched) := by
  obtain ⟨hn, -⟩ := List.getElem?_eq_some_iff.mp hs
  obtain ⟨-, A, hA, rfl⟩ := opened_eq _ hs hc
  have hok := lives_ok (B := B) hP hb hL hH n (by omega)
  have hord := hL.order s (List.mem_of_getElem? hs) (lives B H (pbFormats sn rt) P base (ss.take n))
  obtain ⟨hcomp, -⟩ := existing_found hb _ (fun sl hm => by obtain ⟨lo, hi, e, -⟩ := hok.perm hord sl hm; exact ⟨lo, hi, e⟩) hA
  obtain ⟨T, ds, h1, h2, h3, h4⟩ := lives_chron hP hb hL hH n (by omega) hclean fun sl hsl => hcomp sl (hord.mem_iff.mpr hsl)
  have hlo : ds.Pairwise fun d e => d.lo.toNat < e.lo.toNat := by
    have h0 : ((ss.take n).flatMap fun s => (s.now, s.now + s.size) :: s.ticks).Sublist (ss.flatMap fun s => (s.now, s.now + s.size) :: s.ticks) := by
      conv => rhs; rw [← List.take_append_drop n ss, List.flatMap_append]
      exact List.sublist_append_left _ _
    have h5 := (h3.trans h0).map Prod.fst
    rw [List.map_map, List.map_flatMap] at h5
    have h6 := hC.starts.sublist (l₁ := ds.map Desc.lo) (by simpa [Function.comp_def] using h5)
    rwa [List.pairwise_map] at h6
  have hA0 := hA
  rw [existing_sorted hb s.clock (hord.trans h1) h2 hlo] at hA
  have hF : Forall₂ (Frozen (Kit.sled B) fun k => ∃ ls p, SentBefore B H sn rt P base ss calls n ls p ∧ k = sortLabels ls) A (ds.map fun d => d.answer sledAccepts) := by
    rw [← Option.some.inj hA, List.forall₂_map_left_iff, List.forall₂_map_right_iff]
    refine h2.imp fun sl d h => ?_
    obtain ⟨g1, g2, l, g3, g4, g5⟩ := h
    obtain ⟨shown, k1, k2, -, k3⟩ := opensAs_eq hb s.clock g1 g2
    rw [k3]
    refine (g3.frozen k2 fun w hw => ⟨w.1, w.2, g5 w hw, rfl⟩).congr fun q hq a b hab => ?_
    rw [whole_answer g3 ?_ hq hab, ← g4]
    intro w hw
    rcases k1 with rfl | rfl
    · have := (List.mem_filter.mp hw).2
      unfold inside at this
      simp only [Bool.and_eq_true, decide_eq_true_eq] at this
      omega
    · obtain ⟨n', c', cs', u1, -, u2, u3⟩ := g5 w (List.mem_of_mem_filter hw)
      obtain ⟨m, ser, x, v1, v2, v3, -, v4⟩ := takenUp_write u3
      rw [← v4]
      exact hC.samples n' n s cs' u1 hs u2 m v1 ser v2 x v3 _
  obtain ⟨D, -⟩ := life_core_past hP hL hH hs hcs hF sched hl
  unfold lifeOrder lifeCounts
  rw [startOf_eq hs hA0]
  obtain ⟨d1, d2, d3, d4, d5, d6, d7⟩ := D
  refine ⟨d1, d2, d3, d4, d5, d6, fun i n' k x a1 a2 a3 => ?_⟩
  obtain ⟨ps, b1, b2, b3⟩ := d7 i n' k x a1 a2 a3
  refine ⟨ps, b1, b2, b3.past fun q a b ls => ?_⟩
  have := h4 q a b ls
  rw [List.map_map, List.map_map]
  exact this

end

end Verif
