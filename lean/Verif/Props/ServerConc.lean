import Verif.Lemmas.ServerConcOn
import Verif.Lemmas.ServerConcProgress
/-! Property C85: requests, as bytes, to the running server while the timer swaps chunks. -/
namespace Verif
open List

/-- As `C85_requests`, for a server started on older chunks `A` of earlier runs, whatever they hold: what they contribute to queries is `past`. -/
theorem C85_reopened (B : Kit) (H : Hash) (sn : Snappy) (rt : PbRt) (P : Paths) (hP : P.read ≠ P.write) (A : List SChunk) (past : Past) (K : Labels → Prop)
    (hA : Forall₂ (Frozen B K) A past) (hK : ∀ k, K k → ∀ l ∈ k, LabelOk rt.utf8 l) (lo hi : U64) (ticks : List (U64 × U64))
    (reqs : List Request) (calls : List Call) (hsays : Forall₂ (Says sn rt.utf8 P) reqs calls) (hf : FineCalls rt calls)
    (hH : H.Good fun k => (∃ m s, Call.write m ∈ calls ∧ s ∈ m ∧ k = sortLabels s.labels) ∨ K k) :
    ∃ (L : List Nat → List DbOp) (N : List Nat → List Nat), ∀ sched : List Nat, sched.length < 2 ^ 64 - 1 →
      let c := (SrvConf.startOn A lo hi ticks reqs).run B H (pbFormats sn rt) P sched
      (∀ later, L sched <+: L (sched ++ later) ∧ N sched <+: N (sched ++ later)) ∧
      (L sched).filter DbOp.isSwap = (c.db.threads 0).done.map Out.call ∧ (L sched).filter DbOp.isSwap <+: ticks.map (fun w => .swap w.1 w.2) ∧
      ((L sched).filter fun x => !x.isSwap).Sublist (calls.flatMap Call.ops) ∧
      (N sched).length = c.sent.length ∧ (N sched).sum ≤ ((L sched).filter fun x => !x.isSwap).length ∧
      ((L sched).filter fun x => !x.isSwap).drop (N sched).sum <+: c.handling calls ∧
      ∀ (i n : Nat) (k : Call) (x : Option Response), calls[i]? = some k → (N sched)[i]? = some n → c.sent[i]? = some x →
        ∃ ps : List (List DbOp), ps.length = n ∧
          (∀ (j : Nat) (p : List DbOp), ps[j]? = some p → (p.filter fun x => !x.isSwap).length = ((N sched).take i).sum + j ∧
            ∃ op, k.ops[j]? = some op ∧ p ++ [op] <+: L sched) ∧
          HandledOn sn rt past c.db.begun (ps.map fun p => (SeqDb.fresh lo hi).run p) k x :=
  ⟨srvLin B H (pbFormats sn rt) P (SrvConf.startOn A lo hi ticks reqs), srvNs B H (pbFormats sn rt) P (SrvConf.startOn A lo hi ticks reqs) [], fun sched hb =>
    ⟨fun later => srv_grow B H sn rt P A lo hi ticks reqs sched later, (srv_core B H sn rt P hP A past K hA hK lo hi ticks reqs calls hsays hf hH sched hb).1⟩⟩

/-- C85: a server started in an empty directory gets any requests, as bytes in any valid encoding, or not valid; the timer swaps chunks at any moments,
also in the middle of a request. At any time the requests' calls and the swaps have taken effect in one order `L`; the answered requests have made `N` calls
each; both only grow. The swaps in `L` are those of the timer that have returned; the calls in it are those of the answered requests, in their order, and some first calls
of the request being handled. Every answered request is `Handled` on the databases that result from what is before its calls in `L`. -/
theorem C85_requests (B : Kit) (H : Hash) (sn : Snappy) (rt : PbRt) (P : Paths) (hP : P.read ≠ P.write) (lo hi : U64) (ticks : List (U64 × U64))
    (reqs : List Request) (calls : List Call) (hsays : Forall₂ (Says sn rt.utf8 P) reqs calls) (hf : FineCalls rt calls)
    (hH : H.Good fun k => ∃ m s, Call.write m ∈ calls ∧ s ∈ m ∧ k = sortLabels s.labels) :
    ∃ (L : List Nat → List DbOp) (N : List Nat → List Nat), ∀ sched : List Nat, sched.length < 2 ^ 64 - 1 →
      let c := (SrvConf.start lo hi ticks reqs).run B H (pbFormats sn rt) P sched
      (∀ later, L sched <+: L (sched ++ later) ∧ N sched <+: N (sched ++ later)) ∧
      (L sched).filter DbOp.isSwap = (c.db.threads 0).done.map Out.call ∧ (L sched).filter DbOp.isSwap <+: ticks.map (fun w => .swap w.1 w.2) ∧
      ((L sched).filter fun x => !x.isSwap).Sublist (calls.flatMap Call.ops) ∧
      (N sched).length = c.sent.length ∧ (N sched).sum ≤ ((L sched).filter fun x => !x.isSwap).length ∧
      ((L sched).filter fun x => !x.isSwap).drop (N sched).sum <+: c.handling calls ∧
      ∀ (i n : Nat) (k : Call) (x : Option Response), calls[i]? = some k → (N sched)[i]? = some n → c.sent[i]? = some x →
        ∃ ps : List (List DbOp), ps.length = n ∧
          (∀ (j : Nat) (p : List DbOp), ps[j]? = some p → (p.filter fun x => !x.isSwap).length = ((N sched).take i).sum + j ∧
            ∃ op, k.ops[j]? = some op ∧ p ++ [op] <+: L sched) ∧
          Handled sn rt c.db.begun (ps.map fun p => (SeqDb.fresh lo hi).run p) k x := by
  obtain ⟨L, N, hLN⟩ := C85_reopened B H sn rt P hP [] [] (fun _ => False) .nil (fun _ h => h.elim) lo hi ticks reqs calls hsays hf
    (by intro x y hx hy; exact hH x y (by simpa using hx) (by simpa using hy))
  refine ⟨L, N, fun sched hb => ?_⟩
  obtain ⟨h1, h2, h3, h4, h5, h6, h7, h8⟩ := hLN sched hb
  refine ⟨h1, h2, h3, h4, h5, h6, h7, fun i n k x hk hn hx => ?_⟩
  obtain ⟨ps, e1, e2, e3⟩ := h8 i n k x hk hn hx
  exact ⟨ps, e1, e2, by cases k <;> exact e3⟩

/-! ### Consequences -/

/-- C85, durability: let request `i` be a write that is taken up after `s1` and answered by 200 during `s2`. A sample of it that lies strictly inside the
window that is current then (inside all windows, if swaps return in the meantime) is in every later answer to a query from time 0 to a time not before anything
sent, by some of the labels of its series, whatever the timer does. -/
theorem C85_durable (B : Kit) (H : Hash) (sn : Snappy) (rt : PbRt) (P : Paths) (hP : P.read ≠ P.write) (lo hi : U64) (ticks : List (U64 × U64))
    (reqs : List Request) (calls : List Call) (hsays : Forall₂ (Says sn rt.utf8 P) reqs calls) (hf : FineCalls rt calls)
    (hH : H.Good fun k => ∃ m s, Call.write m ∈ calls ∧ s ∈ m ∧ k = sortLabels s.labels)
    (s1 s2 s3 : List Nat) (hb : (s1 ++ s2 ++ s3).length < 2 ^ 64 - 1) (c1 c2 c3 : SrvConf)
    (hc1 : c1 = (SrvConf.start lo hi ticks reqs).run B H (pbFormats sn rt) P s1)
    (hc2 : c2 = (SrvConf.start lo hi ticks reqs).run B H (pbFormats sn rt) P (s1 ++ s2))
    (hc3 : c3 = (SrvConf.start lo hi ticks reqs).run B H (pbFormats sn rt) P (s1 ++ s2 ++ s3))
    (i j : Nat) (hij : i < j) (m : List PSeries) (hi' : calls[i]? = some (.write m)) (h1 : c1.now.isNone = true) (h1' : c1.sent.length = i)
    (h2 : i < c2.sent.length) (hack : c3.sent[i]? = some (some ⟨200, []⟩))
    (ser : PSeries) (hser : ser ∈ m) (x : Sample) (hx : x ∈ ser.samples)
    (hin : ∀ (n : Nat) (w : U64 × U64), (c1.db.threads 0).done.length ≤ n → n ≤ (c2.db.threads 0).done.length → ((lo, hi) :: ticks)[n]? = some w →
      inside w.1 w.2 x.point = true)
    (qs : List PQuery) (hj : calls[j]? = some (.read qs)) (body : Str) (hres : c3.sent[j]? = some (some ⟨200, body⟩))
    (hqs : ∀ q ∈ qs, (∀ y ∈ q.matchers, WFLabel ⟨y.name, y.value⟩) ∧ (asU64 q.start_).toNat ≤ (asU64 q.end_).toNat)
    (k : Nat) (hk : k < qs.length) (hne : qs[k].matchers ≠ []) (hsub : ∀ y ∈ qs[k].matchers, (⟨y.name, y.value⟩ : Label) ∈ ser.labels)
    (h0 : qs[k].start_ = 0) (hcov : ∀ m, Call.write m ∈ calls → ∀ s ∈ m, ∀ x ∈ s.samples, x.point.ts.toNat ≤ (asU64 qs[k].end_).toNat) :
    ∃ out, sn.decompress body = some out ∧ (out.length < 2 ^ 32 → ∃ rs r, (∀ m, IsResponse rt.utf8 m out ↔ m = rs) ∧ rs[k]? = some r ∧
      ∃ y ∈ r, y.labels = sortLabels ser.labels ∧ asReported x.point ∈ y.samples) := by
  have hH' : H.Good fun k => (∃ m s, Call.write m ∈ calls ∧ s ∈ m ∧ k = sortLabels s.labels) ∨ False := fun x y hx hy => hH x y (by simpa using hx) (by simpa using hy)
  have core := srv_core B H sn rt P hP [] [] (fun _ => False) .nil (fun _ h => h.elim) lo hi ticks reqs calls hsays hf hH'
  have hg1 := srv_grow B H sn rt P [] lo hi ticks reqs s1 (s2 ++ s3)
  have hg2 := srv_grow B H sn rt P [] lo hi ticks reqs (s1 ++ s2) s3
  rw [← List.append_assoc] at hg1
  have D1 := (core s1 (by simp at hb; omega)).1
  have D2 := (core (s1 ++ s2) (by simp at hb ⊢; omega)).1
  have D3 := (core _ hb).1
  have e : SrvConf.startOn [] lo hi ticks reqs = SrvConf.start lo hi ticks reqs := rfl
  rw [e] at D1 D2 D3 hg1 hg2
  rw [← hc1] at D1
  rw [← hc2] at D2
  rw [← hc3] at D3
  obtain ⟨p, p1, p2, p3⟩ := acked_stored D1 D2 D3 hg1.1 hg2.1 hg1.2 hg2.2 hi' h1 h1' h2 hack hser hx hin
  exact stored_shown hf D3 hij p1 p2 p3 hj hres hqs k hk hne hsub h0 hcov

/-- C85, honesty: every sample in an answer was sent, as a sample of a series with these labels, in an earlier write request, and lies in the range asked for;
no label set comes twice. -/
theorem C85_honest (B : Kit) (H : Hash) (sn : Snappy) (rt : PbRt) (P : Paths) (hP : P.read ≠ P.write) (lo hi : U64) (ticks : List (U64 × U64))
    (reqs : List Request) (calls : List Call) (hsays : Forall₂ (Says sn rt.utf8 P) reqs calls) (hf : FineCalls rt calls)
    (hH : H.Good fun k => ∃ m s, Call.write m ∈ calls ∧ s ∈ m ∧ k = sortLabels s.labels)
    (sched : List Nat) (hb : sched.length < 2 ^ 64 - 1) (j : Nat) (qs : List PQuery) (hj : calls[j]? = some (.read qs)) (body : Str)
    (hres : ((SrvConf.start lo hi ticks reqs).run B H (pbFormats sn rt) P sched).sent[j]? = some (some ⟨200, body⟩))
    (hqs : ∀ q ∈ qs, (∀ y ∈ q.matchers, WFLabel ⟨y.name, y.value⟩) ∧ (asU64 q.start_).toNat ≤ (asU64 q.end_).toNat) :
    ∃ out, sn.decompress body = some out ∧ (out.length < 2 ^ 32 → ∃ rs, (∀ m, IsResponse rt.utf8 m out ↔ m = rs) ∧ rs.length = qs.length ∧
      ∀ (k : Nat) (hk : k < qs.length) (r : List PSeries), rs[k]? = some r → (r.map (·.labels)).Nodup ∧ ∀ y ∈ r, ∀ z ∈ y.samples,
        ∃ i m ser x, i < j ∧ calls[i]? = some (.write m) ∧ ser ∈ m ∧ x ∈ ser.samples ∧ y.labels = sortLabels ser.labels ∧ z = asReported x.point ∧
          (asU64 qs[k].start_).toNat ≤ x.point.ts.toNat ∧ x.point.ts.toNat ≤ (asU64 qs[k].end_).toNat) := by
  have hH' : H.Good fun k => (∃ m s, Call.write m ∈ calls ∧ s ∈ m ∧ k = sortLabels s.labels) ∨ False := fun x y hx hy => hH x y (by simpa using hx) (by simpa using hy)
  have D := (srv_core B H sn rt P hP [] [] (fun _ => False) .nil (fun _ h => h.elim) lo hi ticks reqs calls hsays hf hH' sched hb).1
  obtain ⟨out, g1, g2⟩ := shown_sent hf D hj hres hqs
  refine ⟨out, g1, fun hl => ?_⟩
  obtain ⟨rs, g3, g4, g5⟩ := g2 hl
  refine ⟨rs, g3, g4, fun k hk r hr => ?_⟩
  obtain ⟨g6, -, g7⟩ := g5 k hk r hr
  refine ⟨g6, fun y hy z hz => ?_⟩
  rcases g7 y hy z hz with g | ⟨f, hf', -⟩
  · exact g
  · cases hf'

/-! ### One at a time -/

/-- A request handled alone: its calls are made on the database `db`, one after the other. -/
def Calls.exec {α δ : Type} (D : DbApi δ) : Calls (Option α) → δ → Option α × δ
  | .done x, db => (x, db)
  | .call (.write ls ps) k, db => (k (.wrote ls ps (D.write db ls ps).1 0#64 0#64)).exec D (D.write db ls ps).2
  | .call (.query q a b) k, db => (k (.answered q a b (D.query db q a b))).exec D db
  | .call (.swap _ _) _, db => (none, db)

theorem readCalls_exec {δ : Type} (D : DbApi δ) (F : Formats) (db : δ) : ∀ (qs : List PQuery) (acc : List (List PSeries)),
    (readCalls F acc qs).exec D db = match serverQuery D db qs with
      | .ok r => (some ⟨200, F.respond (acc ++ r)⟩, db)
      | .err _ => (some ⟨500, []⟩, db)
      | .panic => (none, db) := by
  intro qs
  induction qs with
  | nil => intro acc; simp [readCalls, Calls.exec, serverQuery, Res.mapM]
  | cons q qs ih =>
    intro acc
    unfold serverQuery at ih ⊢
    rw [readCalls, Calls.exec, Res.mapM, answerQuery]
    rcases D.query db (q.matchers.map ofMatcher) (asU64 q.start_) (asU64 q.end_) with r | e | _
    · simp only []
      rw [ih]
      rcases Res.mapM (answerQuery D db) qs with r' | e | _ <;> simp
    · simp only []
      rw [ih]
      rcases Res.mapM (answerQuery D db) qs with r' | e | _ <;> simp
    · simp [Calls.exec]

theorem writeCalls_exec {δ : Type} (D : DbApi δ) : ∀ (ss : List PSeries) (db : δ),
    (writeCalls ss).exec D db = match serverWrite D db ss with
      | (.ok (), db') => (some ⟨200, []⟩, db')
      | (.err _, db') => (some ⟨500, []⟩, db')
      | (.panic, db') => (none, db') := by
  intro ss
  induction ss with
  | nil => intro db; simp [writeCalls, Calls.exec, serverWrite]
  | cons s ss ih =>
    intro db
    rw [writeCalls, Calls.exec, serverWrite]
    rcases D.write db (ofSeries s).1 (ofSeries s).2 with ⟨r | e | _, db'⟩
    · simp only []
      exact ih db'
    · simp [Calls.exec]
    · simp [Calls.exec]

/-- The calls of a request, made one after the other, are `_process` of C47-C50 and C75: for every database, request and paths. -/
theorem C85_alone {δ : Type} (D : DbApi δ) (F : Formats) (P : Paths) (db : δ) (r : Request) : (requestCalls F P r).exec D db = process D F P db r := by
  unfold requestCalls process
  rcases r.body with _ | body
  · rfl
  · simp only []
    rcases F.decompress body with _ | content
    · rfl
    · simp only []
      split
      · rcases F.parseRead content with _ | req
        · rfl
        · simp only []
          split
          · rfl
          · rw [readCalls_exec]
            rcases serverQuery D db req.queries with r | e | _ <;> rfl
      · split
        · rw [writeCalls_exec]
          rcases serverWrite D db (F.parseWrite content) with ⟨_ | e | _, db'⟩ <;> rfl
        · rfl

/-! ### Every request is answered -/

theorem srvUnder_snoc (W : FPolicy) (B : Kit) (H : Hash) (F : Formats) (P : Paths) (c : SrvConf) (s : List Nat) (t : Nat) :
    c.runUnder W B H F P (s ++ [t]) = (c.runUnder W B H F P s).stepUnder W B H F P t := by
  unfold SrvConf.runUnder; rw [List.foldl_append]; rfl

theorem srvUnder_run (W : FPolicy) (B : Kit) (H : Hash) (F : Formats) (P : Paths) (s : List Nat) : ∀ c : SrvConf,
    ∃ s', s'.Sublist s ∧ c.runUnder W B H F P s = c.run B H F P s' := by
  induction s with
  | nil => intro c; exact ⟨[], .slnil, rfl⟩
  | cons t s ih =>
    intro c
    obtain ⟨s', h1, h2⟩ := ih (c.stepUnder W B H F P t)
    have e : c.runUnder W B H F P (t :: s) = (c.stepUnder W B H F P t).runUnder W B H F P s := rfl
    by_cases hw : W c.db t = true
    · exact ⟨s', h1.cons _, by rw [e, h2]; simp [SrvConf.stepUnder, hw]⟩
    · refine ⟨t :: s', h1.cons_cons _, ?_⟩
      rw [e, h2]
      simp only [SrvConf.stepUnder, if_neg hw]
      rfl

/-- C85, progress, whatever the older chunks: under every infinite schedule that runs the timer and the requests' thread again and again, and every policy about readers and waiting
writers, there is a moment at which every request has been answered and every swap has returned, or a request has ended the process. (What was done
until then was done by a schedule as in the other theorems.) -/
theorem C85_answered_on (W : FPolicy) (hW : W.fine) (B : Kit) (H : Hash) (F : Formats) (P : Paths) (A : List SChunk) (lo hi : U64) (ticks : List (U64 × U64)) (reqs : List Request)
    (sch : Nat → Nat) (hfair : ∀ u k, u ≤ 1 → ∃ k', k ≤ k' ∧ sch k' = u) :
    ∃ k, ∃ s, s.Sublist ((List.range k).map sch) ∧
      (SrvConf.startOn A lo hi ticks reqs).runUnder W B H F P ((List.range k).map sch) = (SrvConf.startOn A lo hi ticks reqs).run B H F P s ∧
      (none ∈ ((SrvConf.startOn A lo hi ticks reqs).run B H F P s).sent ∨
        ((SrvConf.startOn A lo hi ticks reqs).run B H F P s).sent.length = reqs.length ∧
        (((SrvConf.startOn A lo hi ticks reqs).run B H F P s).db.threads 0).done.map Out.call = ticks.map fun w => .swap w.1 w.2) := by
  set c : Nat → SrvConf := fun k => (SrvConf.startOn A lo hi ticks reqs).runUnder W B H F P ((List.range k).map sch) with hc
  have hsucc : ∀ k, c (k + 1) = (c k).stepUnder W B H F P (sch k) := by
    intro k
    simp only [hc]
    rw [List.range_succ, List.map_append, List.map_singleton, srvUnder_snoc]
  have hinv : ∀ k, PInv (A.length + swapsTodo (ticks.map fun w => DbOp.swap w.1 w.2)) reqs.length (c k) := by
    intro k
    induction k with
    | zero =>
      have hlk : LK (A.length + swapsTodo (ticks.map fun w => DbOp.swap w.1 w.2)) (c 0).db := by
        refine LK.startOn A lo hi (progs := fun u => if u = 0 then ticks.map fun w => .swap w.1 w.2 else []) ?_
        intro u lo hi hm
        by_contra hu
        rw [if_neg hu] at hm
        cases hm
      refine ⟨hlk, rfl, fun t h0 _ => ⟨rfl, by simp [c, SrvConf.runUnder, SrvConf.startOn, FConf.startOn, h0]⟩, fun p hp => (by cases hp),
        fun h => absurd rfl h, by simp [c, SrvConf.runUnder, SrvConf.startOn]⟩
    | succ k ih =>
      rw [hsucc]
      unfold SrvConf.stepUnder
      split
      · exact ih
      · exact (ih.step _).1
  obtain ⟨K, hK⟩ := eventually_constant SrvLess.wf (fun k => (c k).left (A.length + swapsTodo (ticks.map fun w => DbOp.swap w.1 w.2))) fun k => by
    simp only [hsucc]
    unfold SrvConf.stepUnder
    split
    · exact Or.inl rfl
    · rcases ((hinv k).step (B := B) (H := H) (F := F) (P := P) (sch k)).2 with e | e
      · left; rw [e]
      · exact Or.inr e
  have hstep : ∀ k, K ≤ k → c (k + 1) = c k := by
    intro k hk
    have e := (hK (k + 1) (by omega)).trans (hK k hk).symm
    simp only [hsucc] at e ⊢
    unfold SrvConf.stepUnder at e ⊢
    split
    · rfl
    · rename_i hw
      rw [if_neg hw] at e
      rcases ((hinv k).step (B := B) (H := H) (F := F) (P := P) (sch k)).2 with e' | e'
      · exact e'
      · rw [e] at e'
        exact absurd e' (SrvLess.wf.irrefl.irrefl _)
  have hsame : ∀ k, K ≤ k → c k = c K := by
    intro k hk
    obtain ⟨d, rfl⟩ := Nat.exists_eq_add_of_le hk
    clear hk
    induction d with
    | zero => rfl
    | succ d ih => rw [← Nat.add_assoc, hstep _ (by omega), ih]
  have hstill : ∀ u, u ≤ 1 → (c K).stepUnder W B H F P u = c K := by
    intro u hu
    obtain ⟨k, hk, e⟩ := hfair u K hu
    have := hstep k hk
    rw [hsucc, e, hsame k hk] at this
    exact this
  obtain ⟨s, h1, h2⟩ := srvUnder_run W B H F P ((List.range K).map sch) (SrvConf.startOn A lo hi ticks reqs)
  refine ⟨K, s, h1, h2, ?_⟩
  rw [← h2]
  change none ∈ (c K).sent ∨ (c K).sent.length = reqs.length ∧ ((c K).db.threads 0).done.map Out.call = ticks.map fun w => DbOp.swap w.1 w.2
  by_cases hs : none ∈ (c K).sent
  · exact Or.inl hs
  · obtain ⟨e1, e2⟩ := (hinv K).end_ hW hs (hstill 0 (by decide)) (hstill 1 (by decide))
    refine Or.inr ⟨e1, ?_⟩
    have hcalls : ((c K).db.threads 0).calls = ticks.map fun w => DbOp.swap w.1 w.2 := by
      have hall : ∀ k, ((c k).db.threads 0).calls = ticks.map fun w => DbOp.swap w.1 w.2 := by
        intro k
        induction k with
        | zero => simp [c, SrvConf.runUnder, SrvConf.startOn, FConf.startOn, FThread.calls]
        | succ k ih =>
          rw [hsucc, ← ih]
          unfold SrvConf.stepUnder
          split
          · rfl
          · unfold SrvConf.step
            split
            · rfl
            · split
              · exact step_fcalls _ 0
              · unfold SrvConf.work
                have hd : ∀ c' : SrvConf, c'.resume.db = c'.db := by
                  intro c'; unfold SrvConf.resume; split <;> rfl
                split
                · rw [hd]; simp only []; rw [step_fother 1 0 (by decide)]
                · split
                  · simp only []; rw [step_fother 1 0 (by decide), withTodo_other _ (by decide)]
                  · rfl
                  · split <;> rfl
              · rfl
      exact hall K
    unfold FThread.calls at hcalls
    rw [e2.1, e2.2] at hcalls
    simpa using hcalls

/-- C85, progress: under every infinite schedule that runs the timer and the requests' thread again and again, and every policy about readers and waiting
writers, there is a moment at which every request has been answered and every swap has returned, or a request has ended the process. (What was done
until then was done by a schedule as in the other theorems.) -/
theorem C85_answered (W : FPolicy) (hW : W.fine) (B : Kit) (H : Hash) (F : Formats) (P : Paths) (lo hi : U64) (ticks : List (U64 × U64)) (reqs : List Request)
    (sch : Nat → Nat) (hfair : ∀ u k, u ≤ 1 → ∃ k', k ≤ k' ∧ sch k' = u) :
    ∃ k, ∃ s, s.Sublist ((List.range k).map sch) ∧
      (SrvConf.start lo hi ticks reqs).runUnder W B H F P ((List.range k).map sch) = (SrvConf.start lo hi ticks reqs).run B H F P s ∧
      (none ∈ ((SrvConf.start lo hi ticks reqs).run B H F P s).sent ∨
        ((SrvConf.start lo hi ticks reqs).run B H F P s).sent.length = reqs.length ∧
        (((SrvConf.start lo hi ticks reqs).run B H F P s).db.threads 0).done.map Out.call = ticks.map fun w => .swap w.1 w.2) := 
  C85_answered_on W hW B H F P [] lo hi ticks reqs sch hfair

/-! ### A crash is the end -/

theorem srv_step_ends {B : Kit} {H : Hash} {F : Formats} {P : Paths} {c : SrvConf} (h : ∀ i : Nat, c.sent[i]? = some none → i + 1 = c.sent.length) (t : Nat) (i : Nat)
    (hi : (c.step B H F P t).sent[i]? = some none) : i + 1 = (c.step B H F P t).sent.length := by
  unfold SrvConf.step at hi ⊢
  split
  · rename_i hn
    rw [if_pos hn] at hi
    exact h i hi
  · rename_i hn
    rw [if_neg hn] at hi
    rcases t with _ | _ | t
    · exact h i hi
    · simp only [] at hi ⊢
      have hkeep : c.sent[i]? ≠ some none := fun h => hn (List.mem_of_getElem? h)
      unfold SrvConf.work at hi ⊢
      rcases hnow : (c.db.threads 1).now with _ | ph
      · simp only [hnow] at hi ⊢
        rcases hc : c.now with _ | (x | ⟨op, k⟩)
        · simp only [hc] at hi ⊢
          rcases hq : c.queue with _ | ⟨r, rs⟩
          · simp only [hq] at hi ⊢; exact absurd hi hkeep
          · simp only [hq] at hi ⊢; exact absurd hi hkeep
        · simp only [hc] at hi ⊢
          rw [List.length_append, List.length_singleton]
          by_cases hl : i < c.sent.length
          · rw [List.getElem?_append_left hl] at hi; exact absurd hi hkeep
          · have := (List.getElem?_eq_some_iff.mp hi).1
            rw [List.length_append, List.length_singleton] at this
            omega
        · simp only [hc] at hi ⊢; exact absurd hi hkeep
      · simp only [hnow] at hi ⊢
        have e : ∀ d : SrvConf, d.resume.sent = d.sent := by
          intro d; unfold SrvConf.resume; split <;> rfl
        rw [e] at hi
        exact absurd hi hkeep
    · exact h i hi

/-- C85: a request whose handling panics is the last one: no response is sent after it, and nothing changes any more, however long one waits. -/
theorem C85_ends (B : Kit) (H : Hash) (F : Formats) (P : Paths) (lo hi : U64) (ticks : List (U64 × U64)) (reqs : List Request) (sched later : List Nat) (i : Nat)
    (h : ((SrvConf.start lo hi ticks reqs).run B H F P sched).sent[i]? = some none) :
    i + 1 = ((SrvConf.start lo hi ticks reqs).run B H F P sched).sent.length ∧
    (SrvConf.start lo hi ticks reqs).run B H F P (sched ++ later) = (SrvConf.start lo hi ticks reqs).run B H F P sched := by
  constructor
  · revert i
    induction sched using List.reverseRecOn with
    | nil => intro i h; simp [SrvConf.run, SrvConf.start] at h
    | append_singleton s t ih =>
      intro i h
      have e : (SrvConf.start lo hi ticks reqs).run B H F P (s ++ [t]) = ((SrvConf.start lo hi ticks reqs).run B H F P s).step B H F P t := by simp [SrvConf.run]
      rw [e] at h ⊢
      exact srv_step_ends ih t i h
  · have hn := List.mem_of_getElem? h
    have e : (SrvConf.start lo hi ticks reqs).run B H F P (sched ++ later) = ((SrvConf.start lo hi ticks reqs).run B H F P sched).run B H F P later := by simp [SrvConf.run]
    rw [e]
    clear e h
    generalize (SrvConf.start lo hi ticks reqs).run B H F P sched = c at hn
    induction later with
    | nil => rfl
    | cons t ts ih =>
      have : c.step B H F P t = c := by unfold SrvConf.step; rw [if_pos hn]
      have e2 : c.run B H F P (t :: ts) = (c.step B H F P t).run B H F P ts := rfl
      rw [e2, this]
      exact ih

/-- A request whose body cannot be read ends the process, after two steps. -/
example (B : Kit) (H : Hash) (F : Formats) (P : Paths) : ((SrvConf.start 0 100 [] [⟨[], none⟩]).run B H F P [1, 1]).sent[0]? = some none := rfl

/-! ### An execution -/

def scSer : PSeries := ⟨[lbl "b" "2", lbl "a" "1"], [⟨0x3ff0000000000000#64, 200⟩]⟩
def scSer2 : PSeries := ⟨[lbl "a" "1"], [⟨0x4000000000000000#64, 1500⟩]⟩
/-- Its second sample is on the edge of the window after the first swap. -/
def scSer3 : PSeries := ⟨[lbl "a" "1"], [⟨0x4000000000000000#64, 1600⟩, ⟨0x4000000000000000#64, 2000⟩]⟩
def scSer4 : PSeries := ⟨[lbl "a" "1"], [⟨0x4000000000000000#64, 2100⟩]⟩
def scSer5 : PSeries := ⟨[lbl "a" "1"], [⟨0x4000000000000000#64, 2200⟩]⟩
def scAsk : PQuery := ⟨0, 10000, [⟨.eq, (lbl "a" "1").key, (lbl "a" "1").value⟩]⟩
def scReqs : List Request :=
  [⟨[119#8], some (encWrite [scSer])⟩, ⟨[114#8], some (encRead [scAsk])⟩, ⟨[119#8], some (encWrite [scSer2, scSer3, scSer4])⟩, ⟨[114#8], some (encRead [scAsk, scAsk])⟩,
   ⟨[120#8], some []⟩, ⟨[114#8], some [0x0a#8]⟩, ⟨[114#8], none⟩, ⟨[119#8], some (encWrite [scSer5])⟩]
def scCalls : List Call :=
  [.write [scSer], .read [scAsk], .write [scSer2, scSer3, scSer4], .read [scAsk, scAsk], .other, .badRead, .garbage, .write [scSer5]]
def scTicks : List (U64 × U64) := [(1001#64, 2000#64), (2001#64, 3000#64)]
def scRun (s : List Nat) : SrvConf :=
  (SrvConf.start 0#64 1000#64 scTicks scReqs).run stdKit idealHash (pbFormats exSnappy exRt) ⟨[114#8], [119#8]⟩ s

theorem scBad (qs : List PQuery) : ¬ IsRead exRt.utf8 qs [0x0a#8] := by
  intro h
  obtain ⟨z, hz⟩ := (C71_parse_partial exSnappy exRt exRt_strict _ qs).mpr h
  have e : (pbFormats exSnappy exRt).parseRead [0x0a#8] = none := by decide +kernel
  rw [e] at hz; cases hz

theorem scReqs_say : Forall₂ (Says exSnappy exRt.utf8 ⟨[114#8], [119#8]⟩) scReqs scCalls := by
  have hw : ∀ m : List PSeries, m.map wireSeries = m → (∀ s ∈ m, ∀ x ∈ s.samples, -2 ^ 63 ≤ x.timestamp ∧ x.timestamp < 2 ^ 63) → (encWrite m).length < 2 ^ 32 →
      IsWrite exRt.utf8 m (encWrite m) := by
    intro m e h hl
    have := encWrite_is (utf8 := exRt.utf8) (m := m) (fun s hs => ⟨fun _ _ => ⟨rfl, rfl⟩, fun x hx => h s hs x hx⟩) hl
    rwa [e] at this
  have hr : ∀ m : List PQuery, (∀ q ∈ m, (-2 ^ 63 ≤ q.start_ ∧ q.start_ < 2 ^ 63) ∧ (-2 ^ 63 ≤ q.end_ ∧ q.end_ < 2 ^ 63)) → (encRead m).length < 2 ^ 32 →
      IsRead exRt.utf8 m (encRead m) := fun m h hl => encRead_is (fun q hq => ⟨(h q hq).1, (h q hq).2, fun _ _ => ⟨rfl, rfl⟩⟩) hl
  exact .cons ⟨rfl, _, _, rfl, rfl, hw _ (by decide +kernel) (by decide +kernel) (by decide +kernel)⟩
    (.cons ⟨rfl, _, _, rfl, rfl, hr _ (by decide +kernel) (by decide +kernel)⟩
    (.cons ⟨rfl, _, _, rfl, rfl, hw _ (by decide +kernel) (by decide +kernel) (by decide +kernel)⟩
    (.cons ⟨rfl, _, _, rfl, rfl, hr _ (by decide +kernel) (by decide +kernel)⟩
    (.cons ⟨by decide, by decide, _, _, rfl, rfl⟩
    (.cons ⟨rfl, _, _, rfl, rfl, fun m hm => scBad m hm⟩
    (.cons (by intro b hb; cases hb)
    (.cons ⟨rfl, _, _, rfl, rfl, hw _ (by decide +kernel) (by decide +kernel) (by decide +kernel)⟩ .nil)))))))

theorem scCalls_fine : FineCalls exRt scCalls := by
  refine ⟨⟨?_, ?_, by decide +kernel⟩, by simp [scCalls], fun _ => exRt_strict⟩
  · intro ls ps h
    simp only [scCalls, List.flatMap_cons, List.flatMap_nil, Call.ops, List.map_cons, List.map_nil, List.cons_append, List.nil_append, List.mem_cons, List.not_mem_nil,
      DbOp.write.injEq, reduceCtorEq, false_or, or_false] at h
    rcases h with ⟨rfl, -⟩ | ⟨rfl, -⟩ | ⟨rfl, -⟩ | ⟨rfl, -⟩ | ⟨rfl, -⟩ <;> exact wfSet_of (by decide +kernel)
  · intro ls
    exact incr_pointsFor (by unfold SIncr; decide +kernel) ls

attribute [local irreducible] SrvConf.run

/-- The first write is answered. -/
def scS2 : List Nat := List.replicate 18 1
/-- The first swap happens while the first read is answered: it has pushed the chunk when the read has read the current one. Then the other requests. -/
def scS3 : List Nat := List.replicate 5 1 ++ [0, 0] ++ List.replicate 7 1 ++ [0] ++ List.replicate 150 1

theorem sc_sent : (scRun (scS2 ++ scS3)).sent.map (fun x => x.map fun y => y.status) = [some 200, some 200, some 500, some 200, some 404, some 500, none] := by decide +kernel

/-- The first read was answered while the swap was under way: its one sample comes twice (C43). -/
theorem sc_twice : (scRun (scS2 ++ scS3)).sent[1]? = some (some ⟨200, (pbFormats exSnappy exRt).respond
    [[⟨[lbl "a" "1", lbl "b" "2"], [⟨0x3ff0000000000000#64, 200⟩, ⟨0x3ff0000000000000#64, 200⟩]⟩]]⟩) := by decide +kernel

/-- The second read, after the swap: the samples written, once each. Those of the refused series on and after the edge were not written. -/
theorem sc_exact : (scRun (scS2 ++ scS3)).sent[3]? = some (some ⟨200, (pbFormats exSnappy exRt).respond
    [[⟨[lbl "a" "1"], [⟨0x4000000000000000#64, 1500⟩, ⟨0x4000000000000000#64, 1600⟩]⟩, ⟨[lbl "a" "1", lbl "b" "2"], [⟨0x3ff0000000000000#64, 200⟩]⟩],
     [⟨[lbl "a" "1"], [⟨0x4000000000000000#64, 1500⟩, ⟨0x4000000000000000#64, 1600⟩]⟩, ⟨[lbl "a" "1", lbl "b" "2"], [⟨0x3ff0000000000000#64, 200⟩]⟩]]⟩) := by
  decide +kernel

theorem scAsk_fine : (∀ y ∈ scAsk.matchers, WFLabel ⟨y.name, y.value⟩) ∧ (asU64 scAsk.start_).toNat ≤ (asU64 scAsk.end_).toNat :=
  ⟨by intro x hx; simp only [scAsk, List.mem_singleton] at hx; subst hx; exact wfLabel_of (by decide +kernel), by decide +kernel⟩

/-- The hypotheses of C85_requests hold; here for the write that was refused. -/
example : ∃ (L : List DbOp) (N : List Nat), L.filter DbOp.isSwap = [.swap 1001#64 2000#64] ∧ N.length = 7 ∧
    ∃ ps : List (List DbOp), Handled exSnappy exRt (scRun (scS2 ++ scS3)).db.begun (ps.map fun p => (SeqDb.fresh 0#64 1000#64).run p) (.write [scSer2, scSer3, scSer4])
      (some ⟨500, []⟩) ∧ N[2]? = some ps.length := by
  obtain ⟨L, N, h⟩ := C85_requests stdKit idealHash exSnappy exRt ⟨[114#8], [119#8]⟩ (by decide) 0#64 1000#64 scTicks scReqs scCalls scReqs_say scCalls_fine
    (idealHash_good _)
  obtain ⟨-, h1, -, -, h2, -, -, h3⟩ := h (scS2 ++ scS3) (by decide +kernel)
  have e1 : ((scRun (scS2 ++ scS3)).db.threads 0).done = [.swapped 1001#64 2000#64] := by decide +kernel
  have e2 : (scRun (scS2 ++ scS3)).sent.length = 7 := by
    have := congrArg List.length sc_sent
    simpa using this
  have e3 : (scRun (scS2 ++ scS3)).sent[2]? = some (some ⟨500, []⟩) := by decide +kernel
  unfold scRun at e1 e2 e3
  rw [e1] at h1
  rw [e2] at h2
  obtain ⟨ps, p1, -, p2⟩ := h3 2 (N (scS2 ++ scS3))[2] _ _ rfl (List.getElem?_eq_getElem (by omega)) e3
  refine ⟨L (scS2 ++ scS3), N (scS2 ++ scS3), h1, h2, ps, p2, ?_⟩
  rw [p1]; exact List.getElem?_eq_getElem (by omega)

/-- The hypotheses of C85_durable and C85_honest hold: the sample acknowledged before the swap is in the second read, and everything there was sent. -/
example : ∃ body out, (scRun (scS2 ++ scS3)).sent[3]? = some (some ⟨200, body⟩) ∧ exSnappy.decompress body = some out ∧
    (out.length < 2 ^ 32 → ∃ rs r, (∀ m, IsResponse exRt.utf8 m out ↔ m = rs) ∧ rs[1]? = some r ∧
      (∃ y ∈ r, y.labels = [lbl "a" "1", lbl "b" "2"] ∧ (⟨0x3ff0000000000000#64, 200⟩ : Sample) ∈ y.samples) ∧ (r.map (·.labels)).Nodup) := by
  have hq : ∀ q ∈ [scAsk, scAsk], (∀ y ∈ q.matchers, WFLabel ⟨y.name, y.value⟩) ∧ (asU64 q.start_).toNat ≤ (asU64 q.end_).toNat := by
    intro q hq
    simp only [List.mem_cons, List.not_mem_nil, or_false, or_self] at hq
    subst hq; exact scAsk_fine
  obtain ⟨out, o1, o2⟩ := C85_durable stdKit idealHash exSnappy exRt ⟨[114#8], [119#8]⟩ (by decide) 0#64 1000#64 scTicks scReqs scCalls scReqs_say scCalls_fine
    (idealHash_good _) [] scS2 scS3 (by decide +kernel) (scRun []) (scRun scS2) (scRun (scS2 ++ scS3)) rfl rfl rfl 0 3 (by decide) [scSer] rfl (by decide +kernel)
    (by decide +kernel) (by decide +kernel) (by decide +kernel) scSer (by simp) ⟨0x3ff0000000000000#64, 200⟩ (by simp [scSer])
    (by
      have e1 : ((scRun scS2).db.threads 0).done.length = 0 := by decide +kernel
      intro n w _ hn hw
      rw [e1] at hn
      have : n = 0 := by omega
      subst this
      simp only [List.getElem?_cons_zero, Option.some.injEq] at hw
      subst hw
      decide +kernel)
    [scAsk, scAsk] rfl _ sc_exact hq 1 (by decide) (by simp [scAsk]) (by decide +kernel) rfl
    (by
      intro m hm
      simp only [scCalls, List.mem_cons, Call.write.injEq, reduceCtorEq, List.not_mem_nil, or_false, false_or] at hm
      rcases hm with rfl | rfl | rfl <;> decide +kernel)
  obtain ⟨out', q1, q2⟩ := C85_honest stdKit idealHash exSnappy exRt ⟨[114#8], [119#8]⟩ (by decide) 0#64 1000#64 scTicks scReqs scCalls scReqs_say scCalls_fine
    (idealHash_good _) (scS2 ++ scS3) (by decide +kernel) 3 [scAsk, scAsk] rfl _ sc_exact hq
  rw [o1, Option.some.injEq] at q1
  subst q1
  refine ⟨_, out, sc_exact, o1, fun hl => ?_⟩
  obtain ⟨rs, r, u1, u2, u3⟩ := o2 hl
  obtain ⟨rs', v1, -, v2⟩ := q2 hl
  have : rs' = rs := (u1 rs').mp ((v1 rs').mpr rfl)
  subst this
  have e1 : sortLabels scSer.labels = [lbl "a" "1", lbl "b" "2"] := by decide +kernel
  have e2 : asReported (Sample.point ⟨0x3ff0000000000000#64, 200⟩) = ⟨0x3ff0000000000000#64, 200⟩ := by decide +kernel
  rw [e1, e2] at u3
  exact ⟨rs', r, u1, u2, u3, (v2 1 (by decide) r u2).1⟩

/-- Under the strictest policy and turn by turn, every request of the example is answered, up to the one that ends the process. -/
example : ∃ s, none ∈ (scRun s).sent ∨ (scRun s).sent.length = 8 := by
  obtain ⟨k, s, -, -, h⟩ := C85_answered fstrict fstrict_fine stdKit idealHash (pbFormats exSnappy exRt) ⟨[114#8], [119#8]⟩ 0#64 1000#64 scTicks scReqs
    (fun k => k % 2) (fun u k hu => ⟨2 * k + u, by omega, by omega⟩)
  exact ⟨s, h.imp_right fun h => h.1⟩

end Verif
