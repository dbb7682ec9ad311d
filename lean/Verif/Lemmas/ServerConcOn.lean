import Verif.Lemmas.ServerConcAns
import Verif.Props.ServerLife
/-! The running server on older chunks: what its calls do, in one order. -/
namespace Verif
open List

theorem exists_places {α β : Type} (l : List α) : ∀ (Q : Nat → β → α → Prop), (∀ (j : Nat) (o : α), l[j]? = some o → ∃ p, Q j p o) →
    ∃ ps : List β, Forall₂ (fun _ _ => True) ps l ∧ ∀ (j : Nat) (o : α) (p : β), l[j]? = some o → ps[j]? = some p → Q j p o := by
  induction l with
  | nil => intro Q _; exact ⟨[], .nil, by simp⟩
  | cons o l ih =>
    intro Q h
    obtain ⟨p, hp⟩ := h 0 o rfl
    obtain ⟨ps, h1, h2⟩ := ih (fun j => Q (j + 1)) (fun j o' ho => h (j + 1) o' ho)
    refine ⟨p :: ps, .cons trivial h1, ?_⟩
    intro j o' p' ho hp'
    cases j with
    | zero => simp only [List.getElem?_cons_zero, Option.some.injEq] at ho hp'; subst ho hp'; exact hp
    | succ j => exact h2 j o' p' ho hp'

theorem forall₂_split {α β : Type} {R : β → α → Prop} : ∀ (segs : List (List α)) (l : List β), Forall₂ R l segs.flatten →
    ∃ ls : List (List β), ls.flatten = l ∧ Forall₂ (Forall₂ R) ls segs := by
  intro segs
  induction segs with
  | nil => intro l h; rw [List.flatten_nil] at h; cases h; exact ⟨[], rfl, .nil⟩
  | cons s segs ih =>
    intro l h
    rw [List.flatten_cons] at h
    obtain ⟨ls, h1, h2⟩ := ih _ (List.forall₂_drop_append _ _ _ h)
    exact ⟨l.take s.length :: ls, by rw [List.flatten_cons, h1, List.take_append_drop], .cons (List.forall₂_take_append _ _ _ h) h2⟩

theorem segs_sublist {segs : List (List Out)} : ∀ {calls : List Call},
    (∀ (i : Nat) (seg : List Out), segs[i]? = some seg → ∃ k, calls[i]? = some k ∧ seg.map Out.call <+: k.ops) →
    (segs.flatten.map Out.call).Sublist ((calls.take segs.length).flatMap Call.ops) := by
  induction segs with
  | nil => intro calls _; simp
  | cons s segs ih =>
    intro calls h
    obtain ⟨k, h1, h2⟩ := h 0 s rfl
    rcases calls with _ | ⟨k', calls⟩
    · cases h1
    · simp only [List.getElem?_cons_zero, Option.some.injEq] at h1
      subst h1
      rw [List.flatten_cons, List.map_append, List.length_cons, List.take_succ_cons, List.flatMap_cons]
      exact h2.sublist.append (ih fun i seg hs => h (i + 1) seg hs)

theorem runOn_calls (B : Kit) (H : Hash) (A : List SChunk) (lo hi : U64) (progs : Nat → List DbOp) (s : List Nat) (u : Nat) :
    (((FConf.startOn A lo hi progs).run B H s).threads u).calls = progs u := by
  have : ∀ (s : List Nat) (c : FConf), ((c.run B H s).threads u).calls = (c.threads u).calls := by
    intro s
    induction s with
    | nil => intro c; rfl
    | cons t s ih =>
      intro c
      have : c.run B H (t :: s) = (c.step B H t).run B H s := rfl
      rw [this, ih]
      by_cases h : u = t
      · subst h; exact step_fcalls c u
      · rw [step_fother t u h]
  rw [this]
  simp [FConf.startOn, FThread.calls]

/-- What the calls of the running server on the older chunks `A` do: `L` is their order, `N` the number of calls per answered request. -/
def OneOrder (sn : Snappy) (rt : PbRt) (past : Past) (lo hi : U64) (ticks : List (U64 × U64)) (calls : List Call) (c : SrvConf) (L : List DbOp) (N : List Nat) : Prop :=
  L.filter DbOp.isSwap = (c.db.threads 0).done.map Out.call ∧ L.filter DbOp.isSwap <+: ticks.map (fun w => .swap w.1 w.2) ∧
  (L.filter fun x => !x.isSwap).Sublist (calls.flatMap Call.ops) ∧
  N.length = c.sent.length ∧ N.sum ≤ (L.filter fun x => !x.isSwap).length ∧
  (L.filter fun x => !x.isSwap).drop N.sum <+: c.handling calls ∧
  ∀ (i n : Nat) (k : Call) (x : Option Response), calls[i]? = some k → N[i]? = some n → c.sent[i]? = some x →
    ∃ ps : List (List DbOp), ps.length = n ∧
      (∀ (j : Nat) (p : List DbOp), ps[j]? = some p → (p.filter fun x => !x.isSwap).length = (N.take i).sum + j ∧
        ∃ op, k.ops[j]? = some op ∧ p ++ [op] <+: L) ∧
      HandledOn sn rt past c.db.begun (ps.map fun p => (SeqDb.fresh lo hi).run p) k x

/-- The state of the database in it. -/
structure SrvState (B : Kit) (H : Hash) (A : List SChunk) (past : Past) (lo hi : U64) (ticks : List (U64 × U64)) (calls : List Call) (n : Nat) (c : SrvConf)
    (L : List DbOp) : Prop where
  dep : Dep A past B H (SeqDb.behind A.length lo hi) c.db L
  inv : ∃ n', n' ≤ n ∧ FInv A B (deployed (c.db.threads 1).calls ticks) n' c.db
  client : FineClient (c.db.threads 1).calls
  begun : ∀ op ∈ (c.db.threads 1).calls, (∃ (i : Nat) (k : Call), i < c.sent.length ∧ calls[i]? = some k ∧ op ∈ k.ops) ∨ op ∈ c.handling calls
  now : ∀ ph, (c.db.threads 1).now = some ph → ph.call ∈ c.handling calls

section
variable (B : Kit) (H : Hash) (sn : Snappy) (rt : PbRt) (P : Paths) (hP : P.read ≠ P.write) (A : List SChunk) (past : Past) (K : Labels → Prop)
  (hA : Forall₂ (Frozen B K) A past) (hK : ∀ k, K k → ∀ l ∈ k, LabelOk rt.utf8 l) (lo hi : U64) (ticks : List (U64 × U64))
  (reqs : List Request) (calls : List Call) (hsays : Forall₂ (Says sn rt.utf8 P) reqs calls) (hf : FineCalls rt calls)
  (hH : H.Good fun k => (∃ m s, Call.write m ∈ calls ∧ s ∈ m ∧ k = sortLabels s.labels) ∨ K k)

theorem srv_grow (sched later : List Nat) : srvLin B H (pbFormats sn rt) P (SrvConf.startOn A lo hi ticks reqs) sched <+:
    srvLin B H (pbFormats sn rt) P (SrvConf.startOn A lo hi ticks reqs) (sched ++ later) ∧ srvNs B H (pbFormats sn rt) P (SrvConf.startOn A lo hi ticks reqs) [] sched <+:
    srvNs B H (pbFormats sn rt) P (SrvConf.startOn A lo hi ticks reqs) [] (sched ++ later) :=
  ⟨by rw [srvLin_append]; exact List.prefix_append _ _, by rw [srvNs_append]; exact srvNs_prefix _ _ _ _ _⟩

include hP hA hK hsays hf hH in
theorem srv_core (sched : List Nat) (hb : sched.length < 2 ^ 64 - 1) :
    OneOrder sn rt past lo hi ticks calls ((SrvConf.startOn A lo hi ticks reqs).run B H (pbFormats sn rt) P sched)
      (srvLin B H (pbFormats sn rt) P (SrvConf.startOn A lo hi ticks reqs) sched) (srvNs B H (pbFormats sn rt) P (SrvConf.startOn A lo hi ticks reqs) [] sched) ∧
    SrvState B H A past lo hi ticks calls sched.length ((SrvConf.startOn A lo hi ticks reqs).run B H (pbFormats sn rt) P sched)
      (srvLin B H (pbFormats sn rt) P (SrvConf.startOn A lo hi ticks reqs) sched) := by
  have hinv := SrvInv.run (B := B) (H := H) (F := pbFormats sn rt) (P := P) (A := A) (lo := lo) (hi := hi) (ticks := ticks) (reqs := reqs) sched SrvInv.start
  rw [List.nil_append, Nat.zero_add] at hinv
  generalize (SrvConf.startOn A lo hi ticks reqs).run B H (pbFormats sn rt) P sched = c at hinv ⊢
  generalize srvLin B H (pbFormats sn rt) P (SrvConf.startOn A lo hi ticks reqs) sched = L at hinv ⊢
  generalize srvNs B H (pbFormats sn rt) P (SrvConf.startOn A lo hi ticks reqs) [] sched = ns at hinv ⊢
  obtain ⟨segs, cur, w1, w2, w0, w3, w4⟩ := hinv.work
  -- what the requests say
  have hreq : ∀ (i : Nat) (r : Request), reqs[i]? = some r → ∃ k, calls[i]? = some k ∧ requestCalls (pbFormats sn rt) P r = treeOf (pbFormats sn rt) k := by
    intro i r hr
    obtain ⟨hi, rfl⟩ := List.getElem?_eq_some_iff.mp hr
    obtain ⟨k, h1, h2⟩ := Forall₂.getElem_left hsays i hi
    have hk := List.mem_of_getElem? h1
    exact ⟨k, h1, requestCalls_says hP h2 (by rintro rfl; exact hf.queries hk) (by rintro rfl; exact hf.strict hk)⟩
  have hseg : ∀ (i : Nat) (seg : List Out), segs[i]? = some seg → ∃ k x, calls[i]? = some k ∧ c.sent[i]? = some x ∧ Follow (treeOf (pbFormats sn rt) k) seg (.done x) := by
    intro i seg hs
    obtain ⟨hi, -⟩ := List.getElem?_eq_some_iff.mp hs
    have hx : c.sent[i]? = some (c.sent[i]'(by omega)) := List.getElem?_eq_getElem _
    obtain ⟨r, h1, h2⟩ := w3 i seg _ hs hx
    obtain ⟨k, h3, h4⟩ := hreq i r h1
    rw [h4] at h2
    exact ⟨k, _, h3, hx, h2⟩
  have hpast : ∀ f ∈ past, ∀ q : Labels, (∀ l ∈ q, WFLabel l) → ∀ a b : U64, a.toNat ≤ b.toNat → ∀ x ∈ f q a b, ∀ l ∈ x.labels, LabelOk rt.utf8 l := by
    intro f hf q hq a b hab x hx
    obtain ⟨i, hi, rfl⟩ := List.mem_iff_getElem.mp hf
    have := (List.forall₂_iff_get.mp hA).2 i (by rw [hA.length_eq]; exact hi) hi
    exact hK _ (this.known q hq a b hab x hx)
  -- the calls made
  have htail : cur.map Out.call ++ ((c.db.threads 1).now.map FPhase.call).toList <+: c.handling calls := by
    unfold Working at w4
    unfold SrvConf.handling
    rcases hn : c.now with _ | p
    · rw [hn] at w4
      obtain ⟨rfl, -, h⟩ := w4
      rw [h]; simp
    · rw [hn] at w4
      obtain ⟨r, h1, -, h2, h3⟩ := w4
      obtain ⟨k, h4, h5⟩ := hreq _ r h1
      rw [h5] at h2
      rw [h4]
      simp only [Option.isSome_some, if_true, Option.map_some, Option.getD_some]
      refine List.IsPrefix.trans ?_ (follow_ops h2)
      refine (List.prefix_append_right_inj _).mpr ?_
      rcases hph : (c.db.threads 1).now with _ | ph
      · simp
      · obtain ⟨k', rfl⟩ := h3 ph hph
        simp [Calls.next]
  have hsub : (c.db.threads 1).calls.Sublist (calls.flatMap Call.ops) := by
    unfold FThread.calls
    rw [hinv.todo, List.append_nil, w1, List.map_append, List.append_assoc]
    have h1 := segs_sublist (segs := segs) (calls := calls) fun i seg hs => by
      obtain ⟨k, x, h1, -, h2⟩ := hseg i seg hs
      exact ⟨k, h1, by have := follow_ops h2; simpa [Calls.next] using this⟩
    conv_rhs => rw [← List.take_append_drop segs.length calls, List.flatMap_append]
    refine h1.append (htail.sublist.trans ?_)
    unfold SrvConf.handling
    split
    swap
    · simp
    rw [← w2, ← List.head?_drop]
    rcases calls.drop segs.length with _ | ⟨k, ks⟩
    · simp
    · simp only [List.head?_cons, Option.map_some, Option.getD_some, List.flatMap_cons]
      exact List.sublist_append_left _ _
  -- the run of `deployed`
  obtain ⟨s', hs', hsim⟩ := hinv.sim
  obtain ⟨hrun, hlin⟩ := hsim []
  rw [List.append_nil, withTodo_self hinv.todo] at hrun
  rw [List.append_nil] at hlin
  have hfine : FineClient (c.db.threads 1).calls := hf.client.sublist hsub
  have hwr : ∀ {ls ps}, DbOp.write ls ps ∈ (c.db.threads 1).calls → ∃ m s, Call.write m ∈ calls ∧ s ∈ m ∧ s.labels = ls := by
    intro ls ps hm
    obtain ⟨k, hk, hk'⟩ := List.mem_flatMap.mp (hsub.subset hm)
    cases k with
    | write m =>
      obtain ⟨s, hs, e⟩ := List.mem_map.mp hk'
      simp only [DbOp.write.injEq] at e
      exact ⟨m, s, hk, hs, e.1⟩
    | read qs => obtain ⟨s, hs, e⟩ := List.mem_map.mp hk'; cases e
    | badRead => cases hk'
    | other => cases hk'
    | garbage => cases hk'
  have hgood : H.Good fun k => (∃ ls ps, DbOp.write ls ps ∈ (c.db.threads 1).calls ∧ k = sortLabels ls) ∨ K k := by
    have hto : ∀ k, ((∃ ls ps, DbOp.write ls ps ∈ (c.db.threads 1).calls ∧ k = sortLabels ls) ∨ K k) →
        (∃ m s, Call.write m ∈ calls ∧ s ∈ m ∧ k = sortLabels s.labels) ∨ K k := by
      rintro k (⟨ls, ps, h1, rfl⟩ | h)
      · obtain ⟨m, s, a1, a2, a3⟩ := hwr h1
        exact Or.inl ⟨m, s, a1, a2, by rw [a3]⟩
      · exact Or.inr h
    exact fun x y hx hy => hH x y (hto x hx) (hto y hy)
  obtain ⟨hd, hI⟩ := deployed_depOn (ticks := ticks) B H hA lo hi hfine hgood s' (by omega)
  have hrun' : runOn B H A lo hi (deployed (c.db.threads 1).calls ticks) s' = c.db := hrun
  rw [hrun'] at hd hI
  rw [hlin] at hd
  have hAp : A.length = past.length := hA.length_eq
  -- places
  obtain ⟨pres, p1, p2⟩ := exists_places segs.flatten (fun j (pre : List DbOp) o => (∃ post, L = pre ++ o.call :: post) ∧
      (pre.filter fun x => !x.isSwap).length = j ∧ FitsOn past ((SeqDb.fresh lo hi).run pre) c.db.begun o) fun j o ho => by
    have ho : (c.db.threads 1).done[j]? = some o := by
      rw [w1, List.getElem?_append_left (List.getElem?_eq_some_iff.mp ho).1]; exact ho
    obtain ⟨pre, post, h1, h2, h3⟩ := hd.results j o ho
    refine ⟨pre, ⟨post, h1⟩, h2, ?_⟩
    exact hd.fitsOn hI hAp (List.mem_of_getElem? ho) h3
  have p3 : Forall₂ (fun (pre : List DbOp) o => (∃ post, L = pre ++ o.call :: post) ∧ FitsOn past ((SeqDb.fresh lo hi).run pre) c.db.begun o) pres segs.flatten := by
    rw [List.forall₂_iff_get]
    refine ⟨p1.length_eq, fun i h1 h2 => ?_⟩
    have := p2 i _ _ (List.getElem?_eq_getElem h2) (List.getElem?_eq_getElem h1)
    exact ⟨this.1, this.2.2⟩
  obtain ⟨places, l1, l2⟩ := forall₂_split segs pres p3
  have hsum : ns.sum = segs.flatten.length := by rw [← w0, List.length_flatten]
  refine ⟨⟨hd.swaps, ?_, ?_, by rw [← w0, List.length_map, w2], ?_, ?_, ?_⟩, ⟨hd, ⟨_, hs', hI⟩, hfine, ?_, ?_⟩⟩
  · have h0 := congrArg (fun x => (x.threads 0).calls) hrun
    rw [runOn_calls] at h0
    rw [hd.swaps]
    have h0 : ticks.map (fun w => DbOp.swap w.1 w.2) = (c.db.threads 0).calls := h0
    rw [h0]
    unfold FThread.calls
    rw [List.append_assoc]; exact List.prefix_append _ _
  · rw [hd.calls]
    refine List.Sublist.trans ?_ hsub
    unfold FThread.calls
    rw [hinv.todo, List.append_nil]
    exact ((List.prefix_append_right_inj _).mpr (pendQ_call _)).sublist
  · rw [hsum, hd.calls, w1, List.length_append, List.length_map, List.length_append]; omega
  · rw [hsum, hd.calls, w1, List.map_append, List.append_assoc]
    have : segs.flatten.length = (segs.flatten.map Out.call).length := (List.length_map _).symm
    rw [this, List.drop_left]
    exact ((List.prefix_append_right_inj _).mpr (pendQ_call _)).trans htail
  · intro i n k x hk hn hx
    rw [← w0, List.getElem?_map] at hn
    obtain ⟨sg, hsg, rfl⟩ := Option.map_eq_some_iff.mp hn
    obtain ⟨hi', rfl⟩ := List.getElem?_eq_some_iff.mp hsg
    have hi : i < places.length := by rw [l2.length_eq]; exact hi'
    have hoff : ∀ (j : Nat) (p : List DbOp), places[i][j]? = some p → (p.filter fun x => !x.isSwap).length = (ns.take i).sum + j := by
      intro j p hp
      have hlen : ((places.take i).flatten).length = (ns.take i).sum := by
        rw [List.length_flatten, ← w0, ← List.map_take]
        congr 1
        rw [List.map_take, List.map_take]
        congr 1
        clear * - l2
        induction l2 with
        | nil => rfl
        | cons h _ ih => rw [List.map_cons, List.map_cons, ih, h.length_eq]
      have hp' : pres[(ns.take i).sum + j]? = some p := by
        have e : pres = (places.take i).flatten ++ (places[i] ++ (places.drop (i + 1)).flatten) := by
          rw [← l1, ← List.flatten_cons, ← List.flatten_append, List.getElem_cons_drop, List.take_append_drop]
        obtain ⟨hj, -⟩ := List.getElem?_eq_some_iff.mp hp
        rw [e, List.getElem?_append_right (by omega), hlen, Nat.add_sub_cancel_left, List.getElem?_append_left hj]
        exact hp
      obtain ⟨hi, -⟩ := List.getElem?_eq_some_iff.mp hp'
      exact (p2 _ _ p (List.getElem?_eq_getElem (by rw [← p1.length_eq]; exact hi)) hp').2.1
    have hfor := (List.forall₂_iff_get.mp l2).2 i hi hi'
    simp only [List.get_eq_getElem] at hfor
    obtain ⟨k', x', h1, h2, h3⟩ := hseg i _ (List.getElem?_eq_getElem hi')
    rw [hk] at h1
    rw [hx] at h2
    obtain rfl := Option.some.inj h1
    obtain rfl := Option.some.inj h2
    have hops : (segs[i].map Out.call) <+: k.ops := by have := follow_ops h3; simpa [Calls.next] using this
    refine ⟨places[i], hfor.length_eq, ?_, handled sn rt h3 ?_ ?_ hpast⟩
    · intro j p hp
      refine ⟨hoff j p hp, ?_⟩
      obtain ⟨hj, rfl⟩ := List.getElem?_eq_some_iff.mp hp
      have hj' : j < segs[i].length := by rw [← hfor.length_eq]; exact hj
      obtain ⟨⟨post, h4⟩, -⟩ := (List.forall₂_iff_get.mp hfor).2 j hj hj'
      simp only [List.get_eq_getElem] at h4
      refine ⟨segs[i][j].call, ?_, post, by rw [h4]; simp⟩
      obtain ⟨d, hd'⟩ := hops
      rw [← hd', List.getElem?_append_left (by simpa using hj'), List.getElem?_map, List.getElem?_eq_getElem hj']
      rfl
    · rw [List.forall₂_map_left_iff]
      exact hfor.imp fun _ _ h => h.2
    · intro G hG d hd' w hw l hl
      obtain ⟨p, hp, rfl⟩ := List.mem_map.mp hG
      obtain ⟨j, hj, rfl⟩ := List.mem_iff_getElem.mp hp
      have hj' : j < segs[i].length := by rw [← hfor.length_eq]; exact hj
      obtain ⟨⟨post, h4⟩, -⟩ := (List.forall₂_iff_get.mp hfor).2 j hj hj'
      simp only [List.get_eq_getElem] at h4
      obtain ⟨pts, h5, -⟩ := SeqDb.run_from hd' hw
      have h6 : DbOp.write w.1 pts ∈ L.filter fun x => !x.isSwap := List.mem_filter.mpr ⟨by rw [h4]; exact List.mem_append_left _ h5, rfl⟩
      have h7 : DbOp.write w.1 pts ∈ (c.db.threads 1).calls := by
        unfold FThread.calls
        rw [hinv.todo, List.append_nil]
        rw [hd.calls] at h6
        exact ((List.prefix_append_right_inj _).mpr (pendQ_call _)).subset h6
      obtain ⟨m, s, b1, b2, b3⟩ := hwr h7
      obtain ⟨n, hn, hn'⟩ := List.mem_iff_getElem.mp b1
      have hlen := hsays.length_eq
      have hsay := (List.forall₂_iff_get.mp hsays).2 n (by omega) hn
      simp only [List.get_eq_getElem, hn'] at hsay
      obtain ⟨-, body, bytes, -, -, hw'⟩ := hsay
      rw [← b3] at hl
      exact isWrite_utf8 rt.utf8nil hw' s b2 l hl
  · intro op hop
    unfold FThread.calls at hop
    rw [hinv.todo, List.append_nil, w1, List.map_append, List.append_assoc, List.mem_append] at hop
    rcases hop with hop | hop
    · left
      obtain ⟨o, ho, rfl⟩ := List.mem_map.mp hop
      obtain ⟨seg, hsg, ho⟩ := List.mem_flatten.mp ho
      obtain ⟨i, hi', rfl⟩ := List.mem_iff_getElem.mp hsg
      obtain ⟨k, x, h1, -, h2⟩ := hseg i _ (List.getElem?_eq_getElem hi')
      have := follow_ops h2
      exact ⟨i, k, by omega, h1, (List.IsPrefix.subset (by simpa [Calls.next] using this)) (List.mem_map_of_mem ho)⟩
    · exact Or.inr (htail.subset hop)
  · intro ph hph
    exact htail.subset (List.mem_append_right _ (by rw [hph]; simp))

end

/-- Two positions in one order. -/
theorem before_of_count {L p q : List DbOp} {op : DbOp} (hp : p ++ [op] <+: L) (hq : q <+: L) (hop : op.isSwap = false)
    (h : (p.filter fun x => !x.isSwap).length < (q.filter fun x => !x.isSwap).length) : p ++ [op] <+: q := by
  by_cases hle : (p ++ [op]).length ≤ q.length
  · exact List.prefix_of_prefix_length_le hp hq hle
  · exfalso
    have h1 : q <+: p := List.prefix_of_prefix_length_le hq ((List.prefix_append _ _).trans hp) (by simp at hle; omega)
    have := (h1.filter fun x => !x.isSwap).length_le
    omega

theorem after_of_count {L p q : List DbOp} {op : DbOp} (hp : p ++ [op] <+: L) (hq : q <+: L) (hop : op.isSwap = false)
    (h : (q.filter fun x => !x.isSwap).length ≤ (p.filter fun x => !x.isSwap).length) : q <+: p := by
  by_cases hle : q.length ≤ p.length
  · exact List.prefix_of_prefix_length_le hq ((List.prefix_append _ _).trans hp) hle
  · exfalso
    have h1 : p ++ [op] <+: q := List.prefix_of_prefix_length_le hp hq (by simp; omega)
    have := (h1.filter fun x => !x.isSwap).length_le
    rw [List.filter_append] at this
    simp [hop] at this
    omega

theorem nth_call {L p : List DbOp} {op : DbOp} (hp : p ++ [op] <+: L) (hop : op.isSwap = false) :
    (L.filter fun x => !x.isSwap)[(p.filter fun x => !x.isSwap).length]? = some op := by
  obtain ⟨d, rfl⟩ := hp
  rw [List.filter_append, List.filter_append, List.append_assoc, List.getElem?_append_right (le_refl _)]
  simp [hop]

theorem ops_noSwap {k : Call} {op : DbOp} (h : op ∈ k.ops) : op.isSwap = false := by
  cases k with
  | write m => obtain ⟨s, -, rfl⟩ := List.mem_map.mp h; rfl
  | read qs => obtain ⟨s, -, rfl⟩ := List.mem_map.mp h; rfl
  | badRead => cases h
  | other => cases h
  | garbage => cases h

/-- Points stay. -/
theorem SeqDb.run_keeps {G : SeqDb} {w : Labels × TimePoint} (h : ∃ d ∈ G.all, w ∈ d.h) (ops : List DbOp) : ∃ d ∈ (G.run ops).all, w ∈ d.h := by
  induction ops generalizing G with
  | nil => exact h
  | cons op ops ih =>
    refine ih ?_
    obtain ⟨d, hd, hw⟩ := h
    cases op with
    | write ls ps =>
      rcases List.mem_append.mp hd with hd | hd
      · exact ⟨d, List.mem_append_left _ hd, hw⟩
      · rw [List.mem_singleton] at hd; subst hd
        exact ⟨_, List.mem_append_right _ (List.mem_singleton_self _), List.mem_append_left _ hw⟩
    | query q a b => exact ⟨d, hd, hw⟩
    | swap lo hi => exact ⟨d, List.mem_append_left _ hd, hw⟩

/-- The window of the current chunk is that of the last swap. -/
theorem SeqDb.run_window (lo hi : U64) (ops : List DbOp) {ticks : List (U64 × U64)} (h : ops.filter DbOp.isSwap <+: ticks.map fun w => .swap w.1 w.2) :
    ((lo, hi) :: ticks)[(ops.filter DbOp.isSwap).length]? = some (((SeqDb.fresh lo hi).run ops).cur.lo, ((SeqDb.fresh lo hi).run ops).cur.hi) := by
  induction ops using List.reverseRecOn with
  | nil => rfl
  | append_singleton ops op ih =>
    rw [SeqDb.run_snoc]
    cases op with
    | write ls ps =>
      rw [List.filter_append] at h ⊢
      simp only [DbOp.isSwap, List.filter_cons_of_neg, Bool.false_eq_true, not_false_eq_true, List.filter_nil, List.append_nil] at h ⊢
      exact ih h
    | query q a b =>
      rw [List.filter_append] at h ⊢
      simp only [DbOp.isSwap, List.filter_cons_of_neg, Bool.false_eq_true, not_false_eq_true, List.filter_nil, List.append_nil] at h ⊢
      exact ih h
    | swap lo' hi' =>
      rw [List.filter_append] at h ⊢
      have e : [DbOp.swap lo' hi'].filter DbOp.isSwap = [.swap lo' hi'] := rfl
      rw [e] at h ⊢
      rw [List.length_append, List.length_singleton, List.getElem?_cons_succ]
      obtain ⟨d, hd⟩ := h
      have : (ticks.map fun w => DbOp.swap w.1 w.2)[(ops.filter DbOp.isSwap).length]? = some (.swap lo' hi') := by
        rw [← hd, List.append_assoc, List.getElem?_append_right (le_refl _)]; simp
      rw [List.getElem?_map] at this
      obtain ⟨w, h1, h2⟩ := Option.map_eq_some_iff.mp this
      simp only [DbOp.swap.injEq] at h2
      rw [h1, ← h2.1, ← h2.2]
      rfl

theorem sum_split {ns : List Nat} {idx : Nat} (h : idx < ns.sum) : ∃ i j n, ns[i]? = some n ∧ j < n ∧ idx = (ns.take i).sum + j := by
  induction ns generalizing idx with
  | nil => simp at h
  | cons n ns ih =>
    rw [List.sum_cons] at h
    by_cases hn : idx < n
    · exact ⟨0, idx, n, rfl, hn, by simp⟩
    · obtain ⟨i, j, n', h1, h2, h3⟩ := ih (idx := idx - n) (by omega)
      exact ⟨i + 1, j, n', h1, h2, by rw [List.take_succ_cons, List.sum_cons]; omega⟩

/-- A write that has been answered by 200 has stored its samples that lie strictly inside all windows that were current in the meantime. -/
theorem acked_stored {sn : Snappy} {rt : PbRt} {past : Past} {lo hi : U64} {ticks : List (U64 × U64)} {calls : List Call} {c1 c2 c3 : SrvConf}
    {L1 L2 L3 : List DbOp} {N1 N2 N3 : List Nat} (D1 : OneOrder sn rt past lo hi ticks calls c1 L1 N1) (D2 : OneOrder sn rt past lo hi ticks calls c2 L2 N2)
    (D3 : OneOrder sn rt past lo hi ticks calls c3 L3 N3) (hL1 : L1 <+: L3) (hL2 : L2 <+: L3) (hN1 : N1 <+: N3) (hN2 : N2 <+: N3)
    {i : Nat} {m : List PSeries} (hi' : calls[i]? = some (.write m)) (h1 : c1.now.isNone = true) (h1' : c1.sent.length = i)
    (h2 : i < c2.sent.length) (hack : c3.sent[i]? = some (some ⟨200, []⟩))
    {ser : PSeries} (hser : ser ∈ m) {x : Sample} (hx : x ∈ ser.samples)
    (hin : ∀ (n : Nat) (w : U64 × U64), (c1.db.threads 0).done.length ≤ n → n ≤ (c2.db.threads 0).done.length → ((lo, hi) :: ticks)[n]? = some w →
      inside w.1 w.2 x.point = true) :
    ∃ p, p ++ [DbOp.write ser.labels (ser.samples.map Sample.point)] <+: L3 ∧ (p.filter fun x => !x.isSwap).length < (N3.take (i + 1)).sum ∧
      ∃ d ∈ ((SeqDb.fresh lo hi).run (p ++ [DbOp.write ser.labels (ser.samples.map Sample.point)])).all, (ser.labels, x.point) ∈ d.h := by
  obtain ⟨a2, -, -, a3, a4, a5, -⟩ := D1
  obtain ⟨b2, -, -, b3, b4, -, -⟩ := D2
  obtain ⟨-, d2, d0, d3, -, -, d4⟩ := D3
  -- the write
  obtain ⟨hi3, -⟩ := List.getElem?_eq_some_iff.mp hack
  obtain ⟨ps, e1, e2, e3⟩ := d4 i N3[i] _ _ hi' (List.getElem?_eq_getElem (by omega)) hack
  obtain ⟨-, -, e4⟩ := e3
  have e4 : ps.length = m.length := by
    rcases e4 with ⟨-, e, -⟩ | ⟨e, -⟩
    · simpa using e
    · cases e
  obtain ⟨a, ha, rfl⟩ := List.mem_iff_getElem.mp hser
  have hap : a < ps.length := by omega
  obtain ⟨p1, op, p2, p3⟩ := e2 a ps[a] (List.getElem?_eq_getElem hap)
  have hop : op = .write m[a].labels (m[a].samples.map Sample.point) := by
    simp only [Call.ops, List.getElem?_map, List.getElem?_eq_getElem ha, Option.map_some, Option.some.injEq] at p2
    exact p2.symm
  subst hop
  generalize ps[a] = p at *
  -- its window
  have hns1 : (L1.filter fun x => !x.isSwap).length = N1.sum := by
    unfold SrvConf.handling at a5
    rw [Option.isNone_iff_eq_none] at h1
    rw [h1] at a5
    have := a5.length_le
    simp only [Option.isSome_none, Bool.false_eq_true, if_false, List.length_nil, List.length_drop] at this
    omega
  have hNt : N3.take i = N1 := by
    obtain ⟨t, ht⟩ := hN1
    rw [← ht, List.take_left' (by omega)]
  have hNt2 : (N3.take (i + 1)).sum ≤ (N2).sum := by
    obtain ⟨t, ht⟩ := hN2
    rw [← ht, List.take_append_of_le_length (by omega)]
    conv_rhs => rw [← List.take_append_drop (i + 1) (N2), List.sum_append]
    omega
  have hts : (N3.take (i + 1)).sum = (N3.take i).sum + ps.length := by
    rw [List.take_succ_eq_append_getElem (by omega), List.sum_append, e1]; simp
  have q1 : L1 <+: p := after_of_count p3 hL1 rfl (by rw [p1, hns1, hNt]; omega)
  have q2 : p ++ [DbOp.write m[a].labels (m[a].samples.map Sample.point)] <+: L2 := before_of_count p3 hL2 rfl (by rw [p1]; omega)
  have hpL3 : p <+: L3 := (List.prefix_append _ _).trans p3
  have hw := SeqDb.run_window lo hi p (ticks := ticks) ((hpL3.filter _).trans d2)
  have hins := hin _ _ (by
      have := (q1.filter DbOp.isSwap).length_le
      rw [a2, List.length_map] at this; exact this) (by
      have := (((List.prefix_append _ _).trans q2).filter DbOp.isSwap).length_le
      rw [b2, List.length_map] at this; exact this) hw
  have hst : ∃ d ∈ ((SeqDb.fresh lo hi).run (p ++ [DbOp.write m[a].labels (m[a].samples.map Sample.point)])).all, (m[a].labels, x.point) ∈ d.h := by
    rw [SeqDb.run_snoc]
    refine ⟨_, List.mem_append_right _ (List.mem_singleton_self _), List.mem_append_right _ ?_⟩
    exact List.mem_map.mpr ⟨x.point, List.mem_filter.mpr ⟨List.mem_map_of_mem hx, hins⟩, rfl⟩
  exact ⟨p, p3, by omega, hst⟩

/-- A stored point is in the answers to requests that come later. -/
theorem stored_shown {sn : Snappy} {rt : PbRt} {past : Past} {lo hi : U64} {ticks : List (U64 × U64)} {calls : List Call} {c3 : SrvConf} {L3 : List DbOp} {N3 : List Nat}
    (hf : FineCalls rt calls) (D3 : OneOrder sn rt past lo hi ticks calls c3 L3 N3) {i j : Nat} (hij : i < j) {ser : PSeries} {x : Sample} {p : List DbOp}
    (p3 : p ++ [DbOp.write ser.labels (ser.samples.map Sample.point)] <+: L3) (p1 : (p.filter fun x => !x.isSwap).length < (N3.take (i + 1)).sum)
    (hst : ∃ d ∈ ((SeqDb.fresh lo hi).run (p ++ [DbOp.write ser.labels (ser.samples.map Sample.point)])).all, (ser.labels, x.point) ∈ d.h)
    {qs : List PQuery} (hj : calls[j]? = some (.read qs)) {body : Str} (hres : c3.sent[j]? = some (some ⟨200, body⟩))
    (hqs : ∀ q ∈ qs, (∀ y ∈ q.matchers, WFLabel ⟨y.name, y.value⟩) ∧ (asU64 q.start_).toNat ≤ (asU64 q.end_).toNat)
    (k : Nat) (hk : k < qs.length) (hne : qs[k].matchers ≠ []) (hsub : ∀ y ∈ qs[k].matchers, (⟨y.name, y.value⟩ : Label) ∈ ser.labels)
    (h0 : qs[k].start_ = 0) (hcov : ∀ m, Call.write m ∈ calls → ∀ s ∈ m, ∀ x ∈ s.samples, x.point.ts.toNat ≤ (asU64 qs[k].end_).toNat) :
    ∃ out, sn.decompress body = some out ∧ (out.length < 2 ^ 32 → ∃ rs r, (∀ m, IsResponse rt.utf8 m out ↔ m = rs) ∧ rs[k]? = some r ∧
      ∃ y ∈ r, y.labels = sortLabels ser.labels ∧ asReported x.point ∈ y.samples) := by
  obtain ⟨-, d2, d0, d3, -, -, d4⟩ := D3
  -- the read
  obtain ⟨hj3, -⟩ := List.getElem?_eq_some_iff.mp hres
  obtain ⟨ps', f1, f2, f3⟩ := d4 j N3[j] _ _ hj (List.getElem?_eq_getElem (by omega)) hres
  obtain ⟨body', out, g1, g2, rs, g3, g4, g5, g6⟩ := f3 hqs
  simp only [Option.some.injEq, Response.mk.injEq, true_and] at g1
  subst g1
  rw [List.length_map] at g3
  have hkp : k < ps'.length := by omega
  obtain ⟨r1, op', r2, r3⟩ := f2 k ps'[k] (List.getElem?_eq_getElem hkp)
  obtain ⟨r, hr⟩ : ∃ r, rs[k]? = some r := ⟨_, List.getElem?_eq_getElem (by omega)⟩
  have hans := g5 k ((SeqDb.fresh lo hi).run ps'[k]) qs[k] r (by rw [List.getElem?_map, List.getElem?_eq_getElem hkp]; rfl) (List.getElem?_eq_getElem hk) hr
  refine ⟨out, g2, fun hl => ⟨rs, r, g6 hl, hr, ?_⟩⟩
  have hle : (N3.take (i + 1)).sum ≤ (N3.take j).sum := by
    have : N3.take (i + 1) = (N3.take j).take (i + 1) := by rw [List.take_take]; congr 1; omega
    rw [this]
    conv_rhs => rw [← List.take_append_drop (i + 1) (N3.take j), List.sum_append]
    omega
  have hop' : op'.isSwap = false := ops_noSwap (List.mem_of_getElem? r2)
  generalize ps'[k] = p' at *
  have q3 : p ++ [DbOp.write ser.labels (ser.samples.map Sample.point)] <+: p' :=
    before_of_count p3 ((List.prefix_append _ _).trans r3) rfl (by rw [r1]; omega)
  obtain ⟨t, ht⟩ := q3
  have hkeep : ∃ d ∈ ((SeqDb.fresh lo hi).run p').all, (ser.labels, x.point) ∈ d.h := by
    rw [← ht, SeqDb.run_append]
    exact SeqDb.run_keeps hst t
  obtain ⟨d, hd, hwd⟩ := hkeep
  have hsound : ∀ w ∈ d.h, ∃ m', Call.write m' ∈ calls ∧ ∃ s ∈ m', s.labels = w.1 ∧ (∃ x ∈ s.samples, x.point = w.2) ∧ WFSet w.1 ∧ inside d.lo d.hi w.2 = true := by
    intro w hw
    obtain ⟨pts, y1, y2, y3⟩ := SeqDb.run_from hd hw
    have y4 : DbOp.write w.1 pts ∈ calls.flatMap Call.ops := d0.subset (List.mem_filter.mpr ⟨((List.prefix_append _ _).trans r3).subset y1, rfl⟩)
    have y5 := hf.client.wf _ _ y4
    obtain ⟨kc, y6, y7⟩ := List.mem_flatMap.mp y4
    cases kc with
    | write m' =>
      obtain ⟨s, y8, y9⟩ := List.mem_map.mp y7
      simp only [DbOp.write.injEq] at y9
      rw [← y9.2] at y2
      obtain ⟨x, y10, y11⟩ := List.mem_map.mp y2
      exact ⟨m', y6, s, y8, y9.1, ⟨x, y10, y11⟩, y5, y3⟩
    | read qs => obtain ⟨s, hs, e⟩ := List.mem_map.mp y7; cases e
    | badRead => cases y7
    | other => cases y7
    | garbage => cases y7
  obtain ⟨y, hy, hyl, hyp⟩ := answer_finds (c := ⟨d.lo, d.hi, d.hi, d.h⟩) hwd (fun w hw => by
      obtain ⟨-, -, -, -, -, -, h1, h2⟩ := hsound w hw
      exact ⟨h1, h2⟩) (q := qs[k].matchers.map fun x => ⟨x.name, x.value⟩) (by simpa using hne)
    (by intro l hl; obtain ⟨z, hz, rfl⟩ := List.mem_map.mp hl; exact hsub z hz) (b := asU64 qs[k].end_) (fun w hw => by
      obtain ⟨m', h1, s, h2, -, ⟨x, h3, h4⟩, -⟩ := hsound w hw
      rw [← h4]; exact hcov m' h1 s h2 x h3)
  have hy : y ∈ d.answer sledAccepts (qs[k].matchers.map fun x => ⟨x.name, x.value⟩) (asU64 qs[k].start_) (asU64 qs[k].end_) := by
    rw [h0, show asU64 0 = 0#64 from by decide]; exact hy
  obtain ⟨es, u1, u2⟩ := hans
  have final : ∀ ds : List Desc, d ∈ ds → IsMerge ((past.map fun f => f (qs[k].matchers.map fun x => ⟨x.name, x.value⟩) (asU64 qs[k].start_) (asU64 qs[k].end_)) ++
      ds.map fun d => d.answer sledAccepts (qs[k].matchers.map fun x => ⟨x.name, x.value⟩) (asU64 qs[k].start_) (asU64 qs[k].end_)) es → ∃ y ∈ r, y.labels = sortLabels ser.labels ∧ asReported x.point ∈ y.samples := by
    intro ds hds hm
    have hsw : y ∈ seriesWith ((past.map fun f => f (qs[k].matchers.map fun x => ⟨x.name, x.value⟩) (asU64 qs[k].start_) (asU64 qs[k].end_)) ++ ds.map fun d => d.answer sledAccepts (qs[k].matchers.map fun x => ⟨x.name, x.value⟩) (asU64 qs[k].start_) (asU64 qs[k].end_))
        (sortLabels ser.labels) := by
      unfold seriesWith
      exact List.mem_flatMap.mpr ⟨_, List.mem_append_right _ (List.mem_map.mpr ⟨d, hds, rfl⟩), List.mem_filter.mpr ⟨hy, by simpa using hyl⟩⟩
    have hent := (hm.entries (sortLabels ser.labels) _).mpr ⟨List.ne_nil_of_mem hsw, rfl⟩
    have hmem : (⟨sortLabels ser.labels, (mergedPoints ((past.map fun f => f (qs[k].matchers.map fun x => ⟨x.name, x.value⟩) (asU64 qs[k].start_)
        (asU64 qs[k].end_)) ++ ds.map fun d => d.answer sledAccepts (qs[k].matchers.map fun x => ⟨x.name, x.value⟩) (asU64 qs[k].start_)
        (asU64 qs[k].end_)) (sortLabels ser.labels)).map asReported⟩ : PSeries) ∈ r := by
      rw [u2]
      exact List.mem_map.mpr ⟨_, hent, rfl⟩
    exact ⟨_, hmem, rfl, List.mem_map_of_mem (List.mem_flatMap.mpr ⟨y, hsw, hyp⟩)⟩
  rcases u1 with u1 | ⟨-, u1⟩
  · exact final _ hd u1
  · exact final _ (List.mem_append_left _ hd) u1

/-- Where the samples in an answer come from. -/
theorem shown_sent {sn : Snappy} {rt : PbRt} {past : Past} {lo hi : U64} {ticks : List (U64 × U64)} {calls : List Call} {c : SrvConf} {L : List DbOp} {N : List Nat}
    (hf : FineCalls rt calls) (D : OneOrder sn rt past lo hi ticks calls c L N) {j : Nat} {qs : List PQuery} (hj : calls[j]? = some (.read qs)) {body : Str}
    (hres : c.sent[j]? = some (some ⟨200, body⟩))
    (hqs : ∀ q ∈ qs, (∀ y ∈ q.matchers, WFLabel ⟨y.name, y.value⟩) ∧ (asU64 q.start_).toNat ≤ (asU64 q.end_).toNat) :
    ∃ out, sn.decompress body = some out ∧ (out.length < 2 ^ 32 → ∃ rs, (∀ m, IsResponse rt.utf8 m out ↔ m = rs) ∧ rs.length = qs.length ∧
      ∀ (k : Nat) (hk : k < qs.length) (r : List PSeries), rs[k]? = some r → (r.map (·.labels)).Nodup ∧
        (∀ f ∈ past, ∀ s ∈ f (qs[k].matchers.map fun x => ⟨x.name, x.value⟩) (asU64 qs[k].start_) (asU64 qs[k].end_), ∀ p ∈ s.points,
          ∃ y ∈ r, y.labels = s.labels ∧ asReported p ∈ y.samples) ∧ ∀ y ∈ r, ∀ z ∈ y.samples,
        (∃ i m ser x, i < j ∧ calls[i]? = some (.write m) ∧ ser ∈ m ∧ x ∈ ser.samples ∧ y.labels = sortLabels ser.labels ∧ z = asReported x.point ∧
          (asU64 qs[k].start_).toNat ≤ x.point.ts.toNat ∧ x.point.ts.toNat ≤ (asU64 qs[k].end_).toNat) ∨
        ∃ f ∈ past, ∃ s ∈ f (qs[k].matchers.map fun x => ⟨x.name, x.value⟩) (asU64 qs[k].start_) (asU64 qs[k].end_), s.labels = y.labels ∧
          ∃ p ∈ s.points, z = asReported p) := by
  obtain ⟨-, -, d0, d3, -, -, d4⟩ := D
  obtain ⟨hj3, -⟩ := List.getElem?_eq_some_iff.mp hres
  obtain ⟨ps, f1, f2, f3⟩ := d4 j N[j] _ _ hj (List.getElem?_eq_getElem (by omega)) hres
  obtain ⟨body', out, g1, g2, rs, g3, g4, g5, g6⟩ := f3 hqs
  simp only [Option.some.injEq, Response.mk.injEq, true_and] at g1
  subst g1
  rw [List.length_map] at g3
  refine ⟨out, g2, fun hl => ⟨rs, g6 hl, g4, ?_⟩⟩
  intro k hk r hr
  have hkp : k < ps.length := by omega
  obtain ⟨es, u1, u2⟩ := g5 k ((SeqDb.fresh lo hi).run ps[k]) qs[k] r (by rw [List.getElem?_map, List.getElem?_eq_getElem hkp]; rfl) (List.getElem?_eq_getElem hk) hr
  obtain ⟨r1, op', r2, r3⟩ := f2 k ps[k] (List.getElem?_eq_getElem hkp)
  -- where a stored point comes from
  have hfrom : ∀ d ∈ ((SeqDb.fresh lo hi).run ps[k]).all, ∀ w ∈ d.h, (WFSet w.1 ∧ inside d.lo d.hi w.2 = true) ∧ ∃ i m ser x, i < j ∧ calls[i]? = some (.write m) ∧
      ser ∈ m ∧ x ∈ ser.samples ∧ w = (ser.labels, x.point) := by
    intro d hd w hw
    obtain ⟨pts, y1, y2, y3⟩ := SeqDb.run_from hd hw
    have hpL : ps[k] <+: L := (List.prefix_append _ _).trans r3
    have y5 := hf.client.wf _ _ (d0.subset (List.mem_filter.mpr ⟨hpL.subset y1, rfl⟩))
    refine ⟨⟨y5, y3⟩, ?_⟩
    have hmem : DbOp.write w.1 pts ∈ ps[k].filter fun x => !x.isSwap := List.mem_filter.mpr ⟨y1, rfl⟩
    obtain ⟨idx, h1, h2⟩ := List.mem_iff_getElem.mp hmem
    have h3 : (L.filter fun x => !x.isSwap)[idx]? = some (.write w.1 pts) := by
      obtain ⟨t, ht⟩ := hpL.filter fun x => !x.isSwap
      rw [← ht, List.getElem?_append_left h1, List.getElem?_eq_getElem h1, h2]
    have hat : ∀ (i n : Nat) (kc : Call) (x : Option Response) (b : Nat), calls[i]? = some kc → N[i]? = some n → c.sent[i]? = some x → b < n →
        idx = (N.take i).sum + b → kc.ops[b]? = some (.write w.1 pts) := by
      intro i n kc x b v1 v2 v3 v4 v5
      obtain ⟨ps', z1, z2, -⟩ := d4 i n kc x v1 v2 v3
      obtain ⟨z3, op, z4, z5⟩ := z2 b ps'[b] (List.getElem?_eq_getElem (by omega))
      have := nth_call z5 (ops_noSwap (List.mem_of_getElem? z4))
      rw [z3, ← v5, h3] at this
      rw [z4, this]
    have hNj : N.take (j + 1) = N.take j ++ [N[j]] := List.take_succ_eq_append_getElem (by omega)
    by_cases hlt : idx < (N.take j).sum
    · obtain ⟨i, b, n, v1, v2, v3⟩ := sum_split hlt
      obtain ⟨hi1, hi2⟩ := List.getElem?_eq_some_iff.mp v1
      rw [List.length_take] at hi1
      have hij : i < j := by omega
      have v1' : N[i]? = some n := by rw [List.getElem?_take_of_lt hij] at v1; exact v1
      have hci : i < calls.length := by have := (List.getElem?_eq_some_iff.mp hj).1; omega
      have := hat i n calls[i] c.sent[i] b (List.getElem?_eq_getElem hci) v1' (List.getElem?_eq_getElem (by omega)) v2 (by
        rw [v3, List.take_take]; congr 3; omega)
      rcases hkc : calls[i] with m | qs' | _ | _ | _
      · rw [hkc] at this
        obtain ⟨s, y8, y9⟩ := List.mem_map.mp (List.mem_of_getElem? this)
        simp only [DbOp.write.injEq] at y9
        rw [← y9.2] at y2
        obtain ⟨x, y10, y11⟩ := List.mem_map.mp y2
        exact ⟨i, m, s, x, hij, by rw [List.getElem?_eq_getElem hci, hkc], y8, y10, by rw [y9.1, y11]⟩
      · rw [hkc] at this
        obtain ⟨s, -, e⟩ := List.mem_map.mp (List.mem_of_getElem? this); cases e
      · rw [hkc] at this; simp [Call.ops] at this
      · rw [hkc] at this; simp [Call.ops] at this
      · rw [hkc] at this; simp [Call.ops] at this
    · exfalso
      have := hat j N[j] _ _ (idx - (N.take j).sum) hj (List.getElem?_eq_getElem (by omega)) hres (by rw [r1] at h1; omega) (by omega)
      obtain ⟨s, -, e⟩ := List.mem_map.mp (List.mem_of_getElem? this); cases e
  have key : ∀ ds : List Desc, (∀ d ∈ ds, d ∈ ((SeqDb.fresh lo hi).run ps[k]).all) → IsMerge ((past.map fun f => f (qs[k].matchers.map fun x => ⟨x.name, x.value⟩)
      (asU64 qs[k].start_) (asU64 qs[k].end_)) ++ ds.map fun d => d.answer sledAccepts
      (qs[k].matchers.map fun x => ⟨x.name, x.value⟩) (asU64 qs[k].start_) (asU64 qs[k].end_)) es → (r.map (·.labels)).Nodup ∧
        (∀ f ∈ past, ∀ s ∈ f (qs[k].matchers.map fun x => ⟨x.name, x.value⟩) (asU64 qs[k].start_) (asU64 qs[k].end_), ∀ p ∈ s.points,
          ∃ y ∈ r, y.labels = s.labels ∧ asReported p ∈ y.samples) ∧ ∀ y ∈ r, ∀ z ∈ y.samples,
        (∃ i m ser x, i < j ∧ calls[i]? = some (.write m) ∧ ser ∈ m ∧ x ∈ ser.samples ∧ y.labels = sortLabels ser.labels ∧ z = asReported x.point ∧
          (asU64 qs[k].start_).toNat ≤ x.point.ts.toNat ∧ x.point.ts.toNat ≤ (asU64 qs[k].end_).toNat) ∨
        ∃ f ∈ past, ∃ s ∈ f (qs[k].matchers.map fun x => ⟨x.name, x.value⟩) (asU64 qs[k].start_) (asU64 qs[k].end_), s.labels = y.labels ∧
          ∃ p ∈ s.points, z = asReported p := by
    intro ds hds hm
    refine ⟨?_, ?_, ?_⟩
    · rw [u2, List.map_map]; exact hm.once
    · intro f hf' s hs p hp
      have hsw : s ∈ seriesWith ((past.map fun f => f (qs[k].matchers.map fun x => ⟨x.name, x.value⟩) (asU64 qs[k].start_) (asU64 qs[k].end_)) ++
          ds.map fun d => d.answer sledAccepts (qs[k].matchers.map fun x => ⟨x.name, x.value⟩) (asU64 qs[k].start_) (asU64 qs[k].end_)) s.labels := by
        unfold seriesWith
        exact List.mem_flatMap.mpr ⟨_, List.mem_append_left _ (List.mem_map.mpr ⟨f, hf', rfl⟩), List.mem_filter.mpr ⟨hs, by simp⟩⟩
      have hent := (hm.entries s.labels _).mpr ⟨List.ne_nil_of_mem hsw, rfl⟩
      rw [u2]
      exact ⟨_, List.mem_map_of_mem hent, rfl, List.mem_map_of_mem (List.mem_flatMap.mpr ⟨s, hsw, hp⟩)⟩
    · intro y hy z hz
      rw [u2] at hy
      obtain ⟨⟨ls, ps'⟩, he, rfl⟩ := List.mem_map.mp hy
      obtain ⟨p, hpp, rfl⟩ := List.mem_map.mp hz
      obtain ⟨-, rfl⟩ := (hm.entries ls ps').mp he
      obtain ⟨s, hs', hps⟩ := List.mem_flatMap.mp hpp
      obtain ⟨a, ha, hs''⟩ := List.mem_flatMap.mp hs'
      rw [List.mem_filter, decide_eq_true_eq] at hs''
      rcases List.mem_append.mp ha with ha | ha
      · right
        obtain ⟨f, hf', rfl⟩ := List.mem_map.mp ha
        exact ⟨f, hf', s, hs''.1, hs''.2, p, hps, rfl⟩
      left
      obtain ⟨d, hd, rfl⟩ := List.mem_map.mp ha
      obtain ⟨w, hw, v1, v2, v3, v4⟩ := answer_held (c := ⟨d.lo, d.hi, d.hi, d.h⟩) (fun w hw => (hfrom d (hds d hd) w hw).1) hs''.1 hps
      obtain ⟨-, i, m, ser, x, i1, i2, i3, i4, rfl⟩ := hfrom d (hds d hd) w hw
      simp only [] at v1 v2
      subst v1
      exact ⟨i, m, ser, x, i1, i2, i3, i4, hs''.2.symm.trans v2.symm, rfl, v3, v4⟩
  rcases u1 with u1 | ⟨-, u1⟩
  · exact key _ (fun d hd => hd) u1
  · refine key _ (fun d hd => ?_) u1
    rcases List.mem_append.mp hd with hd | hd
    · exact hd
    · rw [List.mem_singleton] at hd; subst hd; simp [SeqDb.all]


end Verif
