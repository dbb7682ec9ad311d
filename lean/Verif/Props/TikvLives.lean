import Verif.Lemmas.TikvLives
import Verif.Props.Sessions
/-! C90: the running server with a TiKV component, killed at any moment and started again, any number of times. -/
namespace Verif
open List

section
variable (D : Deployment) (hD : D.tikv) (B : BinSearch) (H : Hash) (sn : Snappy) (rt : PbRt) (P : Paths) (hP : P.read ≠ P.write) (base : Str) (ss : List Session)

include hD hP in
/-- The running server of one life, whatever it found. -/
theorem tikv_core {n : Nat} {s : Session} (hs : ss[n]? = some s) {cs : List Call} (hsays : Forall₂ (Says sn rt.utf8 P) s.reqs cs) (hf : FineCalls rt cs)
    (hH : H.Good fun k => ∃ m s, Call.write m ∈ cs ∧ s ∈ m ∧ k = sortLabels s.labels) {s0 : List Nat} {c0 : SrvConf}
    (h0 : serverOfD D B H (pbFormats sn rt) P base ss n s0 = some c0) :
    ∃ A, (∀ sched, serverOfD D B H (pbFormats sn rt) P base ss n sched = some ((SrvConf.startOn A s.now (s.now + s.size) s.ticks s.reqs).run (D.kit B) H (pbFormats sn rt) P sched)) ∧
      ∀ sched : List Nat, sched.length < 2 ^ 64 - 1 →
      OneOrder sn rt (A.map fun _ => fun _ _ _ => []) s.now (s.now + s.size) s.ticks cs
        ((SrvConf.startOn A s.now (s.now + s.size) s.ticks s.reqs).run (D.kit B) H (pbFormats sn rt) P sched)
        (srvLin (D.kit B) H (pbFormats sn rt) P (SrvConf.startOn A s.now (s.now + s.size) s.ticks s.reqs) sched)
        (srvNs (D.kit B) H (pbFormats sn rt) P (SrvConf.startOn A s.now (s.now + s.size) s.ticks s.reqs) [] sched) := by
  obtain ⟨hborn, A, hA, -⟩ := openedD_eq _ hs h0
  refine ⟨D.recall A, openedD_at _ hs hborn hA, fun sched hl => ?_⟩
  exact (srv_core (D.kit B) H sn rt P hP (D.recall A) _ (fun _ => False) (recall_frozen D hD B hA) (fun _ h => h.elim) _ _ _ _ _ hsays hf
    (fun x y hx hy => hH x y (by simpa using hx) (by simpa using hy)) sched hl).1

end

/-- C90 does not hold for any deployment with a TiKV component (in dry-run mode, or with the indexer on a cluster): nothing that an earlier life stored is ever
reported. Every sample in every answer of a life was sent in an earlier request of the same life, however the earlier lives went. (Also, what is reported is
never wrong: it was sent, in a series with these labels, and lies in the range asked for; no label set comes twice.) -/
theorem C90_violated_forgets (D : Deployment) (hD : D.tikv) (B : BinSearch) (H : Hash) (sn : Snappy) (rt : PbRt) (P : Paths) (hP : P.read ≠ P.write) (base : Str)
    (ss : List Session) (n : Nat) (s : Session) (hs : ss[n]? = some s) (cs : List Call) (hsays : Forall₂ (Says sn rt.utf8 P) s.reqs cs) (hf : FineCalls rt cs)
    (hH : H.Good fun k => ∃ m s, Call.write m ∈ cs ∧ s ∈ m ∧ k = sortLabels s.labels)
    (sched : List Nat) (hlen : sched.length < 2 ^ 64 - 1) (c : SrvConf) (hc : serverOfD D B H (pbFormats sn rt) P base ss n sched = some c)
    (j : Nat) (qs : List PQuery) (hj : cs[j]? = some (.read qs)) (body : Str) (hres : c.sent[j]? = some (some ⟨200, body⟩))
    (hqs : ∀ q ∈ qs, (∀ y ∈ q.matchers, WFLabel ⟨y.name, y.value⟩) ∧ (asU64 q.start_).toNat ≤ (asU64 q.end_).toNat) :
    ∃ out, sn.decompress body = some out ∧ (out.length < 2 ^ 32 → ∃ rs, (∀ m, IsResponse rt.utf8 m out ↔ m = rs) ∧ rs.length = qs.length ∧
      ∀ (k : Nat) (hk : k < qs.length) (r : List PSeries), rs[k]? = some r → (r.map (·.labels)).Nodup ∧ ∀ y ∈ r, ∀ z ∈ y.samples,
        ∃ i m ser x, i < j ∧ cs[i]? = some (.write m) ∧ ser ∈ m ∧ x ∈ ser.samples ∧ y.labels = sortLabels ser.labels ∧ z = asReported x.point ∧
          (asU64 qs[k].start_).toNat ≤ x.point.ts.toNat ∧ x.point.ts.toNat ≤ (asU64 qs[k].end_).toNat) := by
  obtain ⟨A, hA, core⟩ := tikv_core D hD B H sn rt P hP base ss hs hsays hf hH hc
  have hc' := hA sched
  rw [hc] at hc'
  obtain rfl := Option.some.inj hc'
  obtain ⟨out, g1, g2⟩ := shown_sent hf (core sched hlen) hj hres hqs
  refine ⟨out, g1, fun hl => ?_⟩
  obtain ⟨rs, g3, g4, g5⟩ := g2 hl
  refine ⟨rs, g3, g4, fun k hk r hr => ?_⟩
  obtain ⟨g6, -, g7⟩ := g5 k hk r hr
  refine ⟨g6, fun y hy z hz => ?_⟩
  rcases g7 y hy z hz with g | ⟨f, hf', s, hs', -⟩
  · exact g
  · obtain ⟨_, -, rfl⟩ := List.mem_map.mp hf'
    cases hs'

/-- C90, what holds: a sample that a life acknowledged stays in the answers of that life, whatever is on the disk (as C85). -/
theorem C90_partial_durable (D : Deployment) (hD : D.tikv) (B : BinSearch) (H : Hash) (sn : Snappy) (rt : PbRt) (P : Paths) (hP : P.read ≠ P.write) (base : Str)
    (ss : List Session) (n : Nat) (s : Session) (hs : ss[n]? = some s) (cs : List Call) (hsays : Forall₂ (Says sn rt.utf8 P) s.reqs cs) (hf : FineCalls rt cs)
    (hH : H.Good fun k => ∃ m s, Call.write m ∈ cs ∧ s ∈ m ∧ k = sortLabels s.labels)
    (s1 s2 s3 : List Nat) (hlen : (s1 ++ s2 ++ s3).length < 2 ^ 64 - 1) (c1 c2 c3 : SrvConf)
    (hc1 : serverOfD D B H (pbFormats sn rt) P base ss n s1 = some c1) (hc2 : serverOfD D B H (pbFormats sn rt) P base ss n (s1 ++ s2) = some c2)
    (hc3 : serverOfD D B H (pbFormats sn rt) P base ss n (s1 ++ s2 ++ s3) = some c3)
    (i j : Nat) (hij : i < j) (m : List PSeries) (hi' : cs[i]? = some (.write m)) (h1 : c1.now.isNone = true) (h1' : c1.sent.length = i)
    (h2 : c2.sent[i]? = some (some ⟨200, []⟩)) (ser : PSeries) (hser : ser ∈ m) (x : Sample) (hx : x ∈ ser.samples)
    (hin : ∀ (k : Nat) (w : U64 × U64), (c1.db.threads 0).done.length ≤ k → k ≤ (c2.db.threads 0).done.length →
      ((s.now, s.now + s.size) :: s.ticks)[k]? = some w → inside w.1 w.2 x.point = true)
    (qs : List PQuery) (hj : cs[j]? = some (.read qs)) (body : Str) (hres : c3.sent[j]? = some (some ⟨200, body⟩))
    (hqs : ∀ q ∈ qs, (∀ y ∈ q.matchers, WFLabel ⟨y.name, y.value⟩) ∧ (asU64 q.start_).toNat ≤ (asU64 q.end_).toNat)
    (k : Nat) (hk : k < qs.length) (hne : qs[k].matchers ≠ []) (hsub : ∀ y ∈ qs[k].matchers, (⟨y.name, y.value⟩ : Label) ∈ ser.labels)
    (h0 : qs[k].start_ = 0) (hcov : ∀ m, Call.write m ∈ cs → ∀ s ∈ m, ∀ x ∈ s.samples, x.point.ts.toNat ≤ (asU64 qs[k].end_).toNat) :
    ∃ out, sn.decompress body = some out ∧ (out.length < 2 ^ 32 → ∃ rs r, (∀ m, IsResponse rt.utf8 m out ↔ m = rs) ∧ rs[k]? = some r ∧
      ∃ y ∈ r, y.labels = sortLabels ser.labels ∧ asReported x.point ∈ y.samples) := by
  obtain ⟨A, hA, core⟩ := tikv_core D hD B H sn rt P hP base ss hs hsays hf hH hc1
  rw [hA] at hc1 hc2 hc3
  have hc1 := (Option.some.inj hc1).symm
  have hc2 := (Option.some.inj hc2).symm
  have hc3 := (Option.some.inj hc3).symm
  have hg1 := srv_grow (D.kit B) H sn rt P A s.now (s.now + s.size) s.ticks s.reqs s1 (s2 ++ s3)
  have hg2 := srv_grow (D.kit B) H sn rt P A s.now (s.now + s.size) s.ticks s.reqs (s1 ++ s2) s3
  rw [← List.append_assoc] at hg1
  have D1 := core s1 (by simp at hlen; omega)
  have D2 := core (s1 ++ s2) (by simp at hlen ⊢; omega)
  have D3 := core _ hlen
  rw [← hc1] at D1
  rw [← hc2] at D2
  have hack : c3.sent[i]? = some (some ⟨200, []⟩) := by
    rw [hc3, srv_run_append, ← hc2]
    exact srv_sent_keeps _ _ _ _ _ _ h2
  rw [← hc3] at D3
  obtain ⟨p, p1, p2, p3⟩ := acked_stored D1 D2 D3 hg1.1 hg2.1 hg1.2 hg2.2 hi' h1 h1' (List.getElem?_eq_some_iff.mp h2).1 hack hser hx hin
  exact stored_shown hf D3 hij p1 p2 p3 hj hres hqs k hk hne hsub h0 hcov

theorem livesD_complete {D : Deployment} {B : BinSearch} {H : Hash} {F : Formats} {P : Paths} {base : Str} {ss : List Session} (hord : ∀ s ∈ ss, ∀ l, (s.order l).Perm l)
    {n : Nat} (hn : n ≤ ss.length) (hcut : ∀ s ∈ ss.take n, s.born ≠ 1 ∧ s.born ≠ 2 ∧ s.cut ≠ 1 ∧ s.cut ≠ 2) :
    ∀ sl ∈ livesD D B H F P base (ss.take n), sl.config = .complete := by
  induction n with
  | zero => intro sl hsl; simp [livesD] at hsl
  | succ n ih =>
    have hs : ss[n]? = some ss[n] := List.getElem?_eq_getElem (by omega)
    have e := List.take_succ_eq_append_getElem (show n < ss.length by omega)
    have ih := ih (by omega) fun s hs => hcut s (by rw [e]; exact List.mem_append_left _ hs)
    obtain ⟨h1, h2, h3, h4⟩ := hcut ss[n] (by rw [e]; exact List.mem_append_right _ (List.mem_singleton_self _))
    have hold : ∀ sl ∈ ss[n].order (livesD D B H F P base (ss.take n)), sl.config = .complete :=
      fun sl hsl => ih sl ((hord _ (List.getElem_mem _) _).mem_iff.mp hsl)
    rw [livesD_succ F hs]
    unfold Session.leavesD
    split
    · exact hold
    · intro sl hsl
      rcases List.mem_append.mp hsl with hsl | hsl
      · exact hold sl hsl
      · split at hsl
        · exact newDir_complete h1 h2 sl hsl
        · rcases List.mem_append.mp hsl with hsl | hsl
          · obtain ⟨S, -, rfl⟩ := List.mem_map.mp hsl
            rfl
          · exact nextDir_complete h3 h4 sl hsl

/-- C90, what holds: if no life so far was killed while the directory of a chunk was being made, the server comes up - although it will not use what is there. -/
theorem C90_partial_opens (D : Deployment) (B : BinSearch) (H : Hash) (F : Formats) (P : Paths) (base : Str) (hb : ∀ b ∈ base, isCont b = false)
    (ss : List Session) (hord : ∀ s ∈ ss, ∀ l, (s.order l).Perm l) (n : Nat) (s : Session) (hs : ss[n]? = some s) (hborn : 3 ≤ s.born)
    (hcut : ∀ s ∈ ss.take n, s.born ≠ 1 ∧ s.born ≠ 2 ∧ s.cut ≠ 1 ∧ s.cut ≠ 2) (sched : List Nat) :
    ∃ c, serverOfD D B H F P base ss n sched = some c := by
  obtain ⟨hn, -⟩ := List.getElem?_eq_some_iff.mp hs
  have hall := livesD_complete (D := D) (B := B) (H := H) (F := F) (P := P) (base := base) hord (by omega : n ≤ ss.length) hcut
  have hnames := livesD_names (D := D) (B := B) (H := H) (P := P) (base := base) F hord (by omega : n ≤ ss.length)
  obtain ⟨cs, h⟩ := readChunks_complete hb s.clock (ss := s.order (livesD D B H F P base (ss.take n))) fun sl hsl => by
    have hm := (hord s (List.mem_of_getElem? hs) _).mem_iff.mp hsl
    exact ⟨hall sl hm, hnames sl hm⟩
  exact ⟨_, openedD_at _ hs hborn (by unfold readExistingChunks; rw [h]; rfl) sched⟩

/-- C90, progress: as C87. -/
theorem C90_partial_answered (W : FPolicy) (hW : W.fine) (D : Deployment) (B : BinSearch) (H : Hash) (F : Formats) (P : Paths) (base : Str) (ss : List Session) (n : Nat)
    (s : Session) (hs : ss[n]? = some s) (c0 : SrvConf) (hup : serverOfD D B H F P base ss n [] = some c0) (sch : Nat → Nat)
    (hfair : ∀ u k, u ≤ 1 → ∃ k', k ≤ k' ∧ sch k' = u) :
    ∃ k s' c, s'.Sublist ((List.range k).map sch) ∧ serverOfD D B H F P base ss n s' = some c ∧ c0.runUnder W (D.kit B) H F P ((List.range k).map sch) = c ∧
      (none ∈ c.sent ∨ c.sent.length = s.reqs.length ∧ (c.db.threads 0).done.map Out.call = s.ticks.map fun w => .swap w.1 w.2) := by
  obtain ⟨hborn, A, hA, rfl⟩ := openedD_eq _ hs hup
  obtain ⟨k, s', h1, h2, h3⟩ := C85_answered_on W hW (D.kit B) H F P (D.recall A) s.now (s.now + s.size) s.ticks s.reqs sch hfair
  exact ⟨k, s', _, h1, openedD_at _ hs hborn hA s', h2, h3⟩

/-- With sled for both components the model is that of C87, where what was acknowledged is found again. -/
theorem C90_partial_sled (B : BinSearch) (H : Hash) (F : Formats) (P : Paths) (base : Str) (ss : List Session) (n : Nat) (sched : List Nat) :
    serverOfD (.dryRun .sled .sled) B H F P base ss n sched = serverOf B H F P base ss n sched := by
  have e : livesD (.dryRun .sled .sled) B H F P base = lives B H F P base := rfl
  unfold serverOfD serverOf
  rw [e]
  rfl

/-! ### Two lives -/

/-- A life that is sent a write and handles it. -/
def tvOne : Session := ⟨id, fun _ => 0#64, 0#64, 1000#64, 3, [], [⟨[119#8], some (encWrite [scSer])⟩, ⟨[114#8], some (encRead [scAsk])⟩], List.replicate 60 1, 0⟩
/-- A life that is only asked. -/
def tvTwo : Session := ⟨id, fun _ => 3000#64, 3000#64, 1000#64, 3, [], [⟨[114#8], some (encRead [scAsk])⟩], List.replicate 60 1, 0⟩
def tvAt (D : Deployment) (n : Nat) (sched : List Nat) : Option SrvConf :=
  serverOfD D stdBinSearch idealHash (pbFormats exSnappy exRt) lvPaths lvBase [tvOne, tvTwo] n sched
def tvDeps : List Deployment := [.dryRun .sled .tikv, .dryRun .tikv .sled, .dryRun .tikv .tikv, .clusterIndex]

attribute [local irreducible] SrvConf.run

/-- C90 is violated for each of these deployments: the first life acknowledges a sample and reports it; the second life, started on the same directory after the
first was killed, answers the same query, for all times, by nothing. -/
theorem C90_violated (D : Deployment) (hD : D ∈ tvDeps) :
    ∃ c1 c2, tvAt D 0 tvOne.sched = some c1 ∧ c1.sent = [some ⟨200, []⟩, some ⟨200, (pbFormats exSnappy exRt).respond
      [[⟨[lbl "a" "1", lbl "b" "2"], [⟨0x3ff0000000000000#64, 200⟩]⟩]]⟩] ∧
    tvAt D 1 tvTwo.sched = some c2 ∧ c2.sent = [some ⟨200, (pbFormats exSnappy exRt).respond [[]]⟩] := by
  have key : ∀ D, (tvAt D 0 tvOne.sched).map (·.sent) = some [some ⟨200, []⟩, some ⟨200, (pbFormats exSnappy exRt).respond
      [[⟨[lbl "a" "1", lbl "b" "2"], [⟨0x3ff0000000000000#64, 200⟩]⟩]]⟩] → (tvAt D 1 tvTwo.sched).map (·.sent) = some [some ⟨200, (pbFormats exSnappy exRt).respond [[]]⟩] →
      ∃ c1 c2, tvAt D 0 tvOne.sched = some c1 ∧ c1.sent = [some ⟨200, []⟩, some ⟨200, (pbFormats exSnappy exRt).respond
      [[⟨[lbl "a" "1", lbl "b" "2"], [⟨0x3ff0000000000000#64, 200⟩]⟩]]⟩] ∧
      tvAt D 1 tvTwo.sched = some c2 ∧ c2.sent = [some ⟨200, (pbFormats exSnappy exRt).respond [[]]⟩] := by
    intro D h1 h2
    obtain ⟨c1, a1, a2⟩ := Option.map_eq_some_iff.mp h1
    obtain ⟨c2, b1, b2⟩ := Option.map_eq_some_iff.mp h2
    exact ⟨c1, c2, a1, a2, b1, b2⟩
  simp only [tvDeps, List.mem_cons, List.not_mem_nil, or_false] at hD
  rcases hD with rfl | rfl | rfl | rfl
  · exact key _ (by decide +kernel) (by decide +kernel)
  · exact key _ (by decide +kernel) (by decide +kernel)
  · exact key _ (by decide +kernel) (by decide +kernel)
  · exact key _ (by decide +kernel) (by decide +kernel)

theorem tv_says : Forall₂ (Says exSnappy exRt.utf8 lvPaths) tvOne.reqs [.write [scSer], .read [scAsk]] ∧
    Forall₂ (Says exSnappy exRt.utf8 lvPaths) tvTwo.reqs [.read [scAsk]] := by
  have hw : IsWrite exRt.utf8 [scSer] (encWrite [scSer]) := by
    have := encWrite_is (utf8 := exRt.utf8) (m := [scSer]) (fun s hs => ⟨fun _ _ => ⟨rfl, rfl⟩, fun x hx => by
      rw [List.mem_singleton] at hs; subst hs
      exact (by decide +kernel : ∀ x ∈ scSer.samples, -2 ^ 63 ≤ x.timestamp ∧ x.timestamp < 2 ^ 63) x hx⟩) (by decide +kernel)
    rwa [show [scSer].map wireSeries = [scSer] by decide +kernel] at this
  have hr : IsRead exRt.utf8 [scAsk] (encRead [scAsk]) := encRead_is (fun q hq => by
    rw [List.mem_singleton] at hq; subst hq
    exact ⟨(by decide +kernel : -2 ^ 63 ≤ scAsk.start_ ∧ scAsk.start_ < 2 ^ 63), (by decide +kernel : -2 ^ 63 ≤ scAsk.end_ ∧ scAsk.end_ < 2 ^ 63), fun _ _ => ⟨rfl, rfl⟩⟩) (by decide +kernel)
  exact ⟨.cons ⟨rfl, _, _, rfl, rfl, hw⟩ (.cons ⟨rfl, _, _, rfl, rfl, hr⟩ .nil), .cons ⟨rfl, _, _, rfl, rfl, hr⟩ .nil⟩

theorem tv_fine : FineCalls exRt [.write [scSer], .read [scAsk]] ∧ FineCalls exRt [.read [scAsk]] := by
  refine ⟨⟨⟨?_, fun ls => incr_pointsFor (by unfold SIncr; decide +kernel) ls, by decide +kernel⟩, by simp, by simp⟩,
    ⟨⟨?_, fun ls => incr_pointsFor (by unfold SIncr; decide +kernel) ls, by decide +kernel⟩, by simp, by simp⟩⟩
  · intro ls ps h
    simp only [List.flatMap_cons, List.flatMap_nil, Call.ops, List.map_cons, List.map_nil, List.cons_append, List.nil_append, List.mem_cons, List.not_mem_nil,
      DbOp.write.injEq, reduceCtorEq, or_false] at h
    obtain ⟨rfl, -⟩ := h; exact wfSet_of (by decide +kernel)
  · intro ls ps h
    simp [Call.ops] at h

theorem tv_ask : ∀ q ∈ [scAsk], (∀ y ∈ q.matchers, WFLabel ⟨y.name, y.value⟩) ∧ (asU64 q.start_).toNat ≤ (asU64 q.end_).toNat := by
  intro q hq
  rw [List.mem_singleton] at hq
  subst hq; exact scAsk_fine

theorem tvDeps_tikv : ∀ D ∈ tvDeps, D.tikv := by
  intro D hD
  simp only [tvDeps, List.mem_cons, List.not_mem_nil, or_false] at hD
  rcases hD with rfl | rfl | rfl | rfl
  · exact Or.inr rfl
  · exact Or.inl rfl
  · exact Or.inl rfl
  · trivial

/-- The hypotheses of C90_violated_forgets hold for the second life, whose answer is empty, and those of C90_partial_durable for the first, whose answer has the
sample; both lives come up (C90_partial_opens) and, given time, answer (C90_partial_answered). -/
example (D : Deployment) (hD : D ∈ tvDeps) :
    (∃ c body out, tvAt D 1 tvTwo.sched = some c ∧ c.sent[0]? = some (some ⟨200, body⟩) ∧ exSnappy.decompress body = some out ∧
      (out.length < 2 ^ 32 → ∃ rs, (∀ m, IsResponse exRt.utf8 m out ↔ m = rs) ∧ ∀ r, rs[0]? = some r → ∀ y ∈ r, ∀ z ∈ y.samples, False)) ∧
    (∃ c body out, tvAt D 0 tvOne.sched = some c ∧ c.sent[1]? = some (some ⟨200, body⟩) ∧ exSnappy.decompress body = some out ∧
      (out.length < 2 ^ 32 → ∃ rs r, (∀ m, IsResponse exRt.utf8 m out ↔ m = rs) ∧ rs[0]? = some r ∧
        ∃ y ∈ r, y.labels = [lbl "a" "1", lbl "b" "2"] ∧ (⟨0x3ff0000000000000#64, 200⟩ : Sample) ∈ y.samples)) ∧
    ∀ n ≤ 1, ∀ sched, ∃ c, tvAt D n sched = some c := by
  obtain ⟨c1, c2, h1, e1, h2, e2⟩ := C90_violated D hD
  have hb : ∀ b ∈ lvBase, isCont b = false := by decide
  have hup : ∀ n ≤ 1, ∀ sched, ∃ c, tvAt D n sched = some c := by
    intro n hn sched
    have hs : ∃ s, [tvOne, tvTwo][n]? = some s ∧ 3 ≤ s.born := by
      match n, hn with
      | 0, _ => exact ⟨_, rfl, by decide⟩
      | 1, _ => exact ⟨_, rfl, by decide⟩
    obtain ⟨s, hs, hs'⟩ := hs
    refine C90_partial_opens D stdBinSearch idealHash (pbFormats exSnappy exRt) lvPaths lvBase hb [tvOne, tvTwo] ?_ n s hs hs' ?_ sched
    · intro s hs l
      simp only [List.mem_cons, List.not_mem_nil, or_false] at hs
      rcases hs with rfl | rfl <;> exact List.Perm.refl _
    · intro s hs
      have := List.mem_of_mem_take hs
      simp only [List.mem_cons, List.not_mem_nil, or_false] at this
      rcases this with rfl | rfl <;> decide
  refine ⟨⟨c2, (pbFormats exSnappy exRt).respond [[]], ?_⟩, ⟨c1, (pbFormats exSnappy exRt).respond [[⟨[lbl "a" "1", lbl "b" "2"], [⟨0x3ff0000000000000#64, 200⟩]⟩]], ?_⟩, hup⟩
  · obtain ⟨out, g1, g2⟩ := C90_violated_forgets D (tvDeps_tikv D hD) stdBinSearch idealHash exSnappy exRt lvPaths (by decide) lvBase [tvOne, tvTwo] 1 tvTwo rfl _ tv_says.2 tv_fine.2
      (idealHash_good _) tvTwo.sched (by decide +kernel) c2 h2 0 [scAsk] rfl _ (by rw [e2]; rfl) tv_ask
    refine ⟨out, h2, by rw [e2]; rfl, g1, fun hl => ?_⟩
    obtain ⟨rs, g3, g4, g5⟩ := g2 hl
    refine ⟨rs, g3, fun r hr y hy z hz => ?_⟩
    obtain ⟨i, m, ser, x, h3, -⟩ := (g5 0 (by simp) r hr).2 y hy z hz
    omega
  · obtain ⟨c0, h0⟩ := hup 0 (by omega) []
    have h00 : c0.now.isNone = true ∧ c0.sent = [] := by
      obtain ⟨-, A, -, rfl⟩ := openedD_eq _ (show [tvOne, tvTwo][0]? = some tvOne from rfl) h0
      have hn : ∀ c : SrvConf, SrvConf.run (D.kit stdBinSearch) idealHash (pbFormats exSnappy exRt) lvPaths c [] = c := fun _ => by unfold SrvConf.run; rfl
      rw [hn]
      exact ⟨rfl, rfl⟩
    obtain ⟨out, g1, g2⟩ := C90_partial_durable D (tvDeps_tikv D hD) stdBinSearch idealHash exSnappy exRt lvPaths (by decide) lvBase [tvOne, tvTwo] 0 tvOne rfl _ tv_says.1 tv_fine.1
      (idealHash_good _) [] tvOne.sched [] (by decide +kernel) c0 c1 c1 h0 h1 (by rw [List.append_nil]; exact h1) 0 1 (by omega) [scSer] rfl h00.1 (by rw [h00.2]; rfl)
      (by rw [e1]; rfl) scSer (by simp) ⟨0x3ff0000000000000#64, 200⟩ (by decide) (by
        intro k w _ _ hw
        match k, hw with
        | 0, hw => obtain rfl := Option.some.inj hw; decide +kernel
        | k + 1, hw => simp [tvOne] at hw)
      [scAsk] rfl _ (by rw [e1]; rfl) tv_ask 0 (by simp) (by decide) (by decide) rfl (by
        intro m hm s hs x hx
        simp only [List.mem_cons, Call.write.injEq, reduceCtorEq, List.not_mem_nil, or_false] at hm
        subst hm
        rw [List.mem_singleton] at hs
        subst hs
        exact (by decide +kernel : ∀ x ∈ scSer.samples, x.point.ts.toNat ≤ (asU64 scAsk.end_).toNat) x hx)
    refine ⟨out, h1, by rw [e1]; rfl, g1, fun hl => ?_⟩
    obtain ⟨rs, r, g3, g4, y, g5, g6, g7⟩ := g2 hl
    exact ⟨rs, r, g3, g4, y, g5, by rw [g6]; decide +kernel, g7⟩

/-- The hypotheses of C90_partial_answered hold for the second life. -/
example (D : Deployment) (hD : D ∈ tvDeps) : ∃ s' c, tvAt D 1 s' = some c ∧ (none ∈ c.sent ∨ c.sent.length = 1 ∧ (c.db.threads 0).done.map Out.call = []) := by
  obtain ⟨-, c2, -, -, h2, -⟩ := C90_violated D hD
  obtain ⟨hborn, A, hA, -⟩ := openedD_eq _ (show [tvOne, tvTwo][1]? = some tvTwo from rfl) h2
  have h0 := openedD_at (pbFormats exSnappy exRt) (show [tvOne, tvTwo][1]? = some tvTwo from rfl) hborn hA []
  obtain ⟨k, s', c, -, h1, -, h3⟩ := C90_partial_answered fstrict fstrict_fine D stdBinSearch idealHash (pbFormats exSnappy exRt) lvPaths lvBase [tvOne, tvTwo] 1 tvTwo rfl _ h0
    (fun k => k % 2) (fun u k hu => ⟨2 * k + u, by omega, by show (2 * k + u) % 2 = u; omega⟩)
  exact ⟨s', c, h1, h3⟩

end Verif
