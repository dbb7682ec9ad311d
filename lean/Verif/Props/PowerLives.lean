import Verif.Lemmas.PowerLives
import Verif.Props.Sessions
/-! C89: the running server through losses of power, any number of times. -/
namespace Verif
open List

/-- C89, honesty: whatever the losses of power left of the directories: every sample in an answer of any life was sent, as a sample of a series with these labels, in an
earlier write request of this life or in a write request that an earlier life took up, and lies in the range asked for; no label set comes twice. -/
theorem C89_honest (B : BinSearch) (H : Hash) (sn : Snappy) (rt : PbRt) (P : Paths) (hP : P.read ≠ P.write) (base : Str) (hb : ∀ b ∈ base, isCont b = false)
    (ss : List Session) (calls : List (List Call)) (hL : FineLives sn rt P ss calls)
    (hH : H.Good fun k => ∃ cs ∈ calls, ∃ m s, Call.write m ∈ cs ∧ s ∈ m ∧ k = sortLabels s.labels)
    (f : Nat → Nat) (disks : Nat → List Slot) (hD : Survivors B H (pbFormats sn rt) P base ss f disks)
    (n : Nat) (sched : List Nat) (hlen : sched.length < 2 ^ 64 - 1) (c : SrvConf) (hc : serverWith B H (pbFormats sn rt) P base ss disks n sched = some c)
    (cs : List Call) (hcs : calls[n]? = some cs) (j : Nat) (qs : List PQuery) (hj : cs[j]? = some (.read qs)) (body : Str)
    (hres : c.sent[j]? = some (some ⟨200, body⟩))
    (hqs : ∀ q ∈ qs, (∀ y ∈ q.matchers, WFLabel ⟨y.name, y.value⟩) ∧ (asU64 q.start_).toNat ≤ (asU64 q.end_).toNat) :
    ∃ out, sn.decompress body = some out ∧ (out.length < 2 ^ 32 → ∃ rs, (∀ m, IsResponse rt.utf8 m out ↔ m = rs) ∧ rs.length = qs.length ∧
      ∀ (k : Nat) (hk : k < qs.length) (r : List PSeries), rs[k]? = some r → (r.map (·.labels)).Nodup ∧ ∀ y ∈ r, ∀ z ∈ y.samples,
        ∃ ser x, ((∃ i m, i < j ∧ cs[i]? = some (.write m) ∧ ser ∈ m ∧ x ∈ ser.samples) ∨
            ∃ n' i, n' < n ∧ SentIn (endWith B H (pbFormats sn rt) P base ss disks) calls n' i ser x) ∧
          y.labels = sortLabels ser.labels ∧ z = asReported x.point ∧
          (asU64 qs[k].start_).toNat ≤ x.point.ts.toNat ∧ x.point.ts.toNat ≤ (asU64 qs[k].end_).toNat) := by
  obtain ⟨hn, -⟩ := List.getElem?_eq_some_iff.mp hcs
  rw [← hL.means.length_eq] at hn
  have hs : ss[n]? = some ss[n] := List.getElem?_eq_getElem hn
  rw [serverWith_eq _ hs] at hc
  obtain ⟨-, A, hA, rfl⟩ := at_eq hc
  have hok := disks_ok (B := B) hP hb hL hH hD n (by omega)
  obtain ⟨D, -⟩ := power_core hP hb hL hH hs hcs hok hA sched hlen
  have hok' : DiskOk B (SentSooner B H sn rt P base ss calls disks n) (ss[n].order (disks n)) := fun x hx =>
    hok x ((hL.order _ (List.getElem_mem hn) _).mem_iff.mp hx)
  obtain ⟨-, hsrc⟩ := hok'.frozen hb hA
  obtain ⟨out, g1, g2⟩ := shown_sent (hL.fine cs (List.mem_of_getElem? hcs)) D hj hres hqs
  refine ⟨out, g1, fun hl => ?_⟩
  obtain ⟨rs, g3, g4, g5⟩ := g2 hl
  refine ⟨rs, g3, g4, fun k hk r hr => ?_⟩
  obtain ⟨g6, -, g7⟩ := g5 k hk r hr
  refine ⟨g6, fun y hy z hz => ?_⟩
  rcases g7 y hy z hz with ⟨i, m, ser, x, h1, h2, h3, h4, h5, h6, h7⟩ | ⟨f, hf, s, hs', h1, p, hp, h2⟩
  · exact ⟨ser, x, Or.inl ⟨i, m, h1, h2, h3, h4⟩, h5, h6, h7⟩
  · have hq := hqs qs[k] (List.getElem_mem hk)
    obtain ⟨ls, ⟨n', c', cs', a1, a2, a3, i, m, ser, x, a4, a5, a6, a7, rfl, rfl⟩, h3, h4⟩ := hsrc f hf _ (by
      intro l hl'
      obtain ⟨y, hy, rfl⟩ := List.mem_map.mp hl'
      exact hq.1 y hy) _ _ hq.2 s hs' p hp
    exact ⟨ser, x, Or.inr ⟨n', i, a1, c', cs', m, a2, a4, a3, a5, a6, a7⟩, by rw [← h1, h3], h2, h4⟩

/-- The same sample cannot be in two requests. -/
theorem fine_once {rt : PbRt} {cs : List Call} (hf : FineCalls rt cs) {i j : Nat} (hij : i < j) {m m' : List PSeries} (hi : cs[i]? = some (.write m))
    (hj : cs[j]? = some (.write m')) {ser ser' : PSeries} (hs : ser ∈ m) (hs' : ser' ∈ m') {x x' : Sample} (hx : x ∈ ser.samples) (hx' : x' ∈ ser'.samples)
    (hl : ser'.labels.Perm ser.labels) : x.point ≠ x'.point := by
  intro e
  have hinc := hf.client.incr ser.labels
  have e1 : cs.flatMap Call.ops = (cs.take j).flatMap Call.ops ++ (cs.drop j).flatMap Call.ops := by rw [← List.flatMap_append, List.take_append_drop]
  have hpa : ∀ h h' : Inserts, pointsFor (h ++ h') ser.labels = pointsFor h ser.labels ++ pointsFor h' ser.labels := by
    intro h h'; unfold pointsFor; rw [List.filter_append, List.map_append]
  have hpt : ∀ {l : List Call} {m : List PSeries} {ser : PSeries} {x : Sample} {ls : Labels}, Call.write m ∈ l → ser ∈ m → x ∈ ser.samples → ser.labels.Perm ls →
      x.point ∈ pointsFor (progPoints (l.flatMap Call.ops)) ls := by
    intro l m ser x ls h1 h2 h3 h4
    refine List.mem_map.mpr ⟨(ser.labels, x.point), List.mem_filter.mpr ⟨?_, by simpa using h4⟩, rfl⟩
    unfold progPoints
    refine List.mem_flatMap.mpr ⟨.write ser.labels (ser.samples.map Sample.point), List.mem_flatMap.mpr ⟨_, h1, List.mem_map.mpr ⟨ser, h2, rfl⟩⟩, ?_⟩
    simp only [opPoints, List.mem_map]
    exact ⟨_, ⟨x, h3, rfl⟩, rfl⟩
  have a1 : x.point ∈ pointsFor (progPoints ((cs.take j).flatMap Call.ops)) ser.labels :=
    hpt (List.mem_of_getElem? (i := i) (by rw [List.getElem?_take_of_lt hij]; exact hi)) hs hx (List.Perm.refl _)
  have a2 : x'.point ∈ pointsFor (progPoints ((cs.drop j).flatMap Call.ops)) ser.labels :=
    hpt (List.mem_of_getElem? (i := 0) (by rw [List.getElem?_drop]; exact hj)) hs' hx' hl
  rw [e1, show progPoints (_ ++ _) = progPoints _ ++ progPoints _ from List.flatMap_append, hpa] at hinc
  have := (List.pairwise_append.mp hinc).2.2 _ a1 _ a2
  rw [e] at this
  omega

/-- C89, what is durable: let request `i` of life `n` be a write that is taken up after the turns `s1` and answered by 200 during `s2`, and let everything be written
to the disk at some turn after that, `f n`; the directories that existed then stay. A sample of the request that lies strictly inside the window current then (inside all windows, if swaps return
in the meantime) is in every answer of every later life to a query from time 0 to a time not before anything sent, by some of the labels of its series, if each
write request of life `n` that is not answered by turn `f n` has only series with the same labels or with none of the labels asked for. Power may be
lost at any moment after that turn, in this life and in later ones. -/
theorem C89_partial_durable (B : BinSearch) (H : Hash) (sn : Snappy) (rt : PbRt) (P : Paths) (hP : P.read ≠ P.write) (base : Str) (hb : ∀ b ∈ base, isCont b = false)
    (ss : List Session) (calls : List (List Call)) (hL : FineLives sn rt P ss calls)
    (hH : H.Good fun k => ∃ cs ∈ calls, ∃ m s, Call.write m ∈ cs ∧ s ∈ m ∧ k = sortLabels s.labels)
    (f : Nat → Nat) (disks : Nat → List Slot) (hD : Survivors B H (pbFormats sn rt) P base ss f disks) (hK : Lasting B H (pbFormats sn rt) P base ss f disks)
    (n : Nat) (s : Session) (hs : ss[n]? = some s) (cs : List Call) (hcs : calls[n]? = some cs)
    (s1 s2 s3 : List Nat) (hf : f n ≤ s.sched.length) (hsch : s.sched.take (f n) = s1 ++ s2 ++ s3) (c1 c2 c3 : SrvConf)
    (hc1 : serverWith B H (pbFormats sn rt) P base ss disks n s1 = some c1) (hc2 : serverWith B H (pbFormats sn rt) P base ss disks n (s1 ++ s2) = some c2)
    (hc3 : serverWith B H (pbFormats sn rt) P base ss disks n (s.sched.take (f n)) = some c3)
    (i : Nat) (m : List PSeries) (hi' : cs[i]? = some (.write m)) (h1 : c1.now.isNone = true) (h1' : c1.sent.length = i)
    (h2 : c2.sent[i]? = some (some ⟨200, []⟩)) (ser : PSeries) (hser : ser ∈ m) (x : Sample) (hx : x ∈ ser.samples)
    (hin : ∀ (k : Nat) (w : U64 × U64), (c1.db.threads 0).done.length ≤ k → k ≤ (c2.db.threads 0).done.length →
      ((s.now, s.now + s.size) :: s.ticks)[k]? = some w → inside w.1 w.2 x.point = true)
    (n2 : Nat) (hn2 : n < n2) (sched : List Nat) (hlen : sched.length < 2 ^ 64 - 1) (d : SrvConf)
    (hd : serverWith B H (pbFormats sn rt) P base ss disks n2 sched = some d) (cs2 : List Call) (hcs2 : calls[n2]? = some cs2)
    (j : Nat) (qs : List PQuery) (hj : cs2[j]? = some (.read qs)) (body : Str) (hres : d.sent[j]? = some (some ⟨200, body⟩))
    (hqs : ∀ q ∈ qs, (∀ y ∈ q.matchers, WFLabel ⟨y.name, y.value⟩) ∧ (asU64 q.start_).toNat ≤ (asU64 q.end_).toNat)
    (k : Nat) (hk : k < qs.length) (hne : qs[k].matchers ≠ []) (hsub : ∀ y ∈ qs[k].matchers, (⟨y.name, y.value⟩ : Label) ∈ ser.labels)
    (h0 : qs[k].start_ = 0)
    (hcov : ∀ cs ∈ calls, ∀ m, Call.write m ∈ cs → ∀ s ∈ m, ∀ x ∈ s.samples, x.point.ts.toNat ≤ (asU64 qs[k].end_).toNat)
    (hlater : ∀ i' m', c3.sent.length ≤ i' → cs[i']? = some (.write m') → ∀ ser' ∈ m', ser'.labels.Perm ser.labels ∨
      ∀ y ∈ qs[k].matchers, (⟨y.name, y.value⟩ : Label) ∉ ser'.labels) :
    ∃ out, sn.decompress body = some out ∧ (out.length < 2 ^ 32 → ∃ rs r, (∀ m, IsResponse rt.utf8 m out ↔ m = rs) ∧ rs[k]? = some r ∧
      ∃ y ∈ r, y.labels = sortLabels ser.labels ∧ asReported x.point ∈ y.samples) := by
  have hsm := List.mem_of_getElem? hs
  have hst := hL.steps s hsm
  obtain ⟨hn, -⟩ := List.getElem?_eq_some_iff.mp hs
  obtain ⟨hn2', -⟩ := List.getElem?_eq_some_iff.mp hcs2
  rw [← hL.means.length_eq] at hn2'
  -- life `n`
  have hok := disks_ok (B := B) hP hb hL hH hD n (by omega)
  rw [serverWith_eq _ hs] at hc1 hc2 hc3
  obtain ⟨hborn, A, hA, rfl⟩ := at_eq hc1
  have hat := hc3
  rw [at_some hborn hA] at hc2 hc3
  have hc2 := (Option.some.inj hc2).symm
  have hc3 := (Option.some.inj hc3).symm
  have core := power_core hP hb hL hH hs hcs hok hA
  have hlf : (s.sched.take (f n)).length ≤ s.sched.length := by simp
  have hl : (s1 ++ s2 ++ s3).length ≤ s.sched.length := by rw [← hsch]; exact hlf
  have hg1 := srv_grow (Kit.sled B) H sn rt P A s.now (s.now + s.size) s.ticks s.reqs s1 (s2 ++ s3)
  have hg2 := srv_grow (Kit.sled B) H sn rt P A s.now (s.now + s.size) s.ticks s.reqs (s1 ++ s2) s3
  rw [← List.append_assoc, ← hsch] at hg1
  rw [← hsch] at hg2
  have D1 := (core s1 (by simp at hl; omega)).1
  have D2 := (core (s1 ++ s2) (by simp at hl ⊢; omega)).1
  obtain ⟨D3, S3⟩ := core (s.sched.take (f n)) (by omega)
  rw [← hc2] at D2
  have hack : c3.sent[i]? = some (some ⟨200, []⟩) := by
    rw [hc3, hsch, srv_run_append, ← hc2]
    exact srv_sent_keeps _ _ _ _ _ _ h2
  rw [← hc3] at D3 S3
  obtain ⟨p, p1, -, p3⟩ := acked_stored D1 D2 D3 hg1.1 hg2.1 hg1.2 hg2.2 hi' h1 h1' (List.getElem?_eq_some_iff.mp h2).1 hack hser hx hin
  obtain ⟨t, ht⟩ := p1
  obtain ⟨e, he, hwe⟩ : ∃ e ∈ ((SeqDb.fresh s.now (s.now + s.size)).run (srvLin (Kit.sled B) H (pbFormats sn rt) P
      (SrvConf.startOn A s.now (s.now + s.size) s.ticks s.reqs) (s.sched.take (f n)))).all, (ser.labels, x.point) ∈ e.h := by
    rw [← ht, SeqDb.run_append]
    exact SeqDb.run_keeps p3 t
  obtain ⟨a, S0, a1, a2, a3, a4⟩ := S3.stored he hwe
  have hK0 := S3.keeping (by omega) a2 a1
  have hset : (ser.labels, x.point) ∈ S0.settled := by
    rcases hK0.one with e | ⟨v, e⟩
    · have e : S0.started = S0.settled := e
      rw [← e]; exact a3
    · have e : S0.started = S0.settled ++ [v] := e
      rw [e] at a3
      rcases List.mem_append.mp a3 with a3 | a3
      · exact a3
      · rw [List.mem_singleton] at a3
        subst a3
        obtain ⟨-, m', t2, ser', t3, t4, x', t5, t6⟩ := S3.torn_full a2 e
        exact absurd t6.symm (fine_once (hL.fine cs (List.mem_of_getElem? hcs)) (List.getElem?_eq_some_iff.mp hack).1 hi' t2 hser t3 hx t5 (by rw [t4]))
  -- the directory
  obtain ⟨xs, hxs, hw⟩ := hK n s A c3 (a - A.length) hs hA hat (by
    unfold SrvConf.dirs
    rw [List.length_map, List.length_drop]
    have := (List.getElem?_eq_some_iff.mp a2).1
    omega) n2 hn2 hn2'
  have hS := fun (sched : List Nat) (hl : sched.length ≤ s.sched.length) => (core sched (by omega)).2
  obtain ⟨-, S, b1, b2, -, b3⟩ := wears_worn _ hA hS hst hw
  rw [Nat.add_sub_cancel' a1] at b1 b3
  obtain ⟨hworn, b4, b5⟩ := b3 S0 hf (by rw [← hc3]; exact a2)
  -- what came later
  have hrest : ∀ g1, S.started = S0.settled ++ g1 → ∀ v ∈ g1, v.1.Perm ser.labels ∨ ∀ l ∈ qs[k].matchers.map (fun x => (⟨x.name, x.value⟩ : Label)), l ∉ v.1 := by
    have hsp : s.sched = s.sched.take (f n) ++ s.sched.drop (f n) := (List.take_append_drop _ _).symm
    obtain ⟨-, g, g1, g2⟩ := srv_run_grows (pbFormats sn rt) P (fun sched => srvLin (Kit.sled B) H (pbFormats sn rt) P (SrvConf.startOn A s.now (s.now + s.size) s.ticks s.reqs) sched)
      s.sched.length hS hst (s.sched.take (f n)) (s.sched.drop (f n)) (by rw [← hsp])
    rw [← hsp, ← hc3] at g1
    rw [← hc3] at g2
    have hfrom : ∀ v : Labels × TimePoint, FromRequest cs c3.sent.length v.1 → v.1.Perm ser.labels ∨
        ∀ l ∈ qs[k].matchers.map (fun x => (⟨x.name, x.value⟩ : Label)), l ∉ v.1 := by
      rintro v ⟨i', m', ser', u1, u2, u3, u4⟩
      rw [← u4]
      refine (hlater i' m' u1 u2 ser' u3).imp id fun h l hl => ?_
      obtain ⟨y, hy, rfl⟩ := List.mem_map.mp hl
      exact h y hy
    obtain ⟨n', -, hI⟩ := (hS s.sched (le_refl _)).inv
    obtain ⟨n0, -, hI0⟩ := S3.inv
    have e1 : S.started = S0.started ++ histOf g a := by
      rw [hI.started a S b1, hI0.started a S0 a2, g1]
      unfold histOf
      rw [List.filter_append, List.map_append]
    intro g3 e3 v hv
    have hv' : v ∈ histOf g a ∨ S0.started = S0.settled ++ [v] := by
      rcases hK0.one with e | ⟨w, e⟩
      · have e : S0.started = S0.settled := e
        rw [e1, e] at e3
        rw [← List.append_cancel_left e3] at hv
        exact Or.inl hv
      · have e : S0.started = S0.settled ++ [w] := e
        rw [e1, e, List.append_assoc] at e3
        rw [← List.append_cancel_left e3] at hv
        rcases List.mem_append.mp hv with hv | hv
        · rw [List.mem_singleton] at hv
          subst hv
          exact Or.inr e
        · exact Or.inl hv
    rcases hv' with hv' | hv'
    · obtain ⟨ev, h3, rfl⟩ := List.mem_map.mp hv'
      exact hfrom _ (g2 ev (List.mem_of_mem_filter h3))
    · obtain ⟨-, m', t2, ser', t3, t4⟩ := S3.torn a2 hv'
      exact hfrom v ⟨_, m', ser', le_refl _, t2, t3, t4⟩
  -- the later life
  have hs2 : ss[n2]? = some ss[n2] := List.getElem?_eq_getElem hn2'
  rw [serverWith_eq _ hs2] at hd
  obtain ⟨-, A2, hA2, rfl⟩ := at_eq hd
  have hok2 := disks_ok (B := B) hP hb hL hH hD n2 (by omega)
  obtain ⟨D, -⟩ := power_core hP hb hL hH hs2 hcs2 hok2 hA2 sched hlen
  have hperm := hL.order _ (List.getElem_mem hn2') (disks n2)
  obtain ⟨-, -, hfound⟩ := existing_found hb _ (fun sl hm => by
    obtain ⟨lo, hi, -, e, -⟩ := hok2 sl (hperm.mem_iff.mp hm); exact ⟨lo, hi, e⟩) hA2
  obtain ⟨shown, -, b6⟩ := hfound _ (hperm.mem_iff.mpr hxs) _ _ b2
  have hq := hqs qs[k] (List.getElem_mem hk)
  obtain ⟨y, y1, y2, y3⟩ := hworn.shows (shown := shown) (q := qs[k].matchers.map fun x => ⟨x.name, x.value⟩) (by
      intro l hl'
      obtain ⟨y, hy, rfl⟩ := List.mem_map.mp hl'
      exact hq.1 y hy) (by simpa using hne) hset (by rw [← b4, ← b5]; exact a4) (by
      intro l hl'
      obtain ⟨y, hy, rfl⟩ := List.mem_map.mp hl'
      exact hsub y hy) (b := asU64 qs[k].end_) (by
      intro v hv
      obtain ⟨m', ser', x', u1, u2, u3, -, u4⟩ := takenUp_write ((hS s.sched (le_refl _)).source b1 v hv)
      rw [← u4]
      exact hcov cs (List.mem_of_getElem? hcs) m' u1 ser' u2 x' u3) hrest
  obtain ⟨out, g1, g2⟩ := shown_sent (hL.fine cs2 (List.mem_of_getElem? hcs2)) D hj hres hqs
  refine ⟨out, g1, fun hl => ?_⟩
  obtain ⟨rs, g3, g4, g5⟩ := g2 hl
  obtain ⟨r, hr⟩ : ∃ r, rs[k]? = some r := ⟨_, List.getElem?_eq_getElem (by omega)⟩
  obtain ⟨-, g6, -⟩ := g5 k hk r hr
  obtain ⟨z, z1, z2, z3⟩ := g6 _ (List.mem_map_of_mem b6) y (by rw [h0, show asU64 0 = 0#64 from by decide]; exact y1) _ y3
  exact ⟨rs, r, g3, hr, z, z1, by rw [z2, y2], z3⟩

/-- C89, durability within a life that began after losses of power: as C85. -/
theorem C89_durable_same (B : BinSearch) (H : Hash) (sn : Snappy) (rt : PbRt) (P : Paths) (hP : P.read ≠ P.write) (base : Str) (hb : ∀ b ∈ base, isCont b = false)
    (ss : List Session) (calls : List (List Call)) (hL : FineLives sn rt P ss calls)
    (hH : H.Good fun k => ∃ cs ∈ calls, ∃ m s, Call.write m ∈ cs ∧ s ∈ m ∧ k = sortLabels s.labels)
    (f : Nat → Nat) (disks : Nat → List Slot) (hD : Survivors B H (pbFormats sn rt) P base ss f disks)
    (n : Nat) (s : Session) (hs : ss[n]? = some s) (cs : List Call) (hcs : calls[n]? = some cs)
    (s1 s2 s3 : List Nat) (hlen : (s1 ++ s2 ++ s3).length < 2 ^ 64 - 1) (c1 c2 c3 : SrvConf)
    (hc1 : serverWith B H (pbFormats sn rt) P base ss disks n s1 = some c1) (hc2 : serverWith B H (pbFormats sn rt) P base ss disks n (s1 ++ s2) = some c2)
    (hc3 : serverWith B H (pbFormats sn rt) P base ss disks n (s1 ++ s2 ++ s3) = some c3)
    (i j : Nat) (hij : i < j) (m : List PSeries) (hi' : cs[i]? = some (.write m)) (h1 : c1.now.isNone = true) (h1' : c1.sent.length = i)
    (h2 : c2.sent[i]? = some (some ⟨200, []⟩)) (ser : PSeries) (hser : ser ∈ m) (x : Sample) (hx : x ∈ ser.samples)
    (hin : ∀ (k : Nat) (w : U64 × U64), (c1.db.threads 0).done.length ≤ k → k ≤ (c2.db.threads 0).done.length →
      ((s.now, s.now + s.size) :: s.ticks)[k]? = some w → inside w.1 w.2 x.point = true)
    (qs : List PQuery) (hj : cs[j]? = some (.read qs)) (body : Str) (hres : c3.sent[j]? = some (some ⟨200, body⟩))
    (hqs : ∀ q ∈ qs, (∀ y ∈ q.matchers, WFLabel ⟨y.name, y.value⟩) ∧ (asU64 q.start_).toNat ≤ (asU64 q.end_).toNat)
    (k : Nat) (hk : k < qs.length) (hne : qs[k].matchers ≠ []) (hsub : ∀ y ∈ qs[k].matchers, (⟨y.name, y.value⟩ : Label) ∈ ser.labels)
    (h0 : qs[k].start_ = 0) (hcov : ∀ m, Call.write m ∈ cs → ∀ s ∈ m, ∀ x ∈ s.samples, x.point.ts.toNat ≤ (asU64 qs[k].end_).toNat) :
    ∃ out, sn.decompress body = some out ∧ (out.length < 2 ^ 32 → ∃ rs r, (∀ m, IsResponse rt.utf8 m out ↔ m = rs) ∧ rs[k]? = some r ∧
      ∃ y ∈ r, y.labels = sortLabels ser.labels ∧ asReported x.point ∈ y.samples) := by
  obtain ⟨hn, -⟩ := List.getElem?_eq_some_iff.mp hs
  have hok := disks_ok (B := B) hP hb hL hH hD n (by omega)
  rw [serverWith_eq _ hs] at hc1 hc2 hc3
  obtain ⟨hborn, A, hA, rfl⟩ := at_eq hc1
  rw [at_some hborn hA] at hc2 hc3
  have hc2 := (Option.some.inj hc2).symm
  have hc3 := (Option.some.inj hc3).symm
  have core := power_core hP hb hL hH hs hcs hok hA
  have hg1 := srv_grow (Kit.sled B) H sn rt P A s.now (s.now + s.size) s.ticks s.reqs s1 (s2 ++ s3)
  have hg2 := srv_grow (Kit.sled B) H sn rt P A s.now (s.now + s.size) s.ticks s.reqs (s1 ++ s2) s3
  rw [← List.append_assoc] at hg1
  have D1 := (core s1 (by simp at hlen; omega)).1
  have D2 := (core (s1 ++ s2) (by simp at hlen ⊢; omega)).1
  have D3 := (core _ hlen).1
  rw [← hc2] at D2
  have hack : c3.sent[i]? = some (some ⟨200, []⟩) := by
    rw [hc3, srv_run_append, ← hc2]
    exact srv_sent_keeps _ _ _ _ _ _ h2
  rw [← hc3] at D3
  obtain ⟨p, p1, p2, p3⟩ := acked_stored D1 D2 D3 hg1.1 hg2.1 hg1.2 hg2.2 hi' h1 h1' (List.getElem?_eq_some_iff.mp h2).1 hack hser hx hin
  exact stored_shown (hL.fine cs (List.mem_of_getElem? hcs)) D3 hij p1 p2 p3 hj hres hqs k hk hne hsub h0 hcov

/-- C89: the responses after losses of power. A write is answered by 200 or 500, a read with well-formed queries whose ranges are not inverted by 200, a request
to read that is not valid by 500, another path by 404; only a body that is not readable at all ends the process. -/
theorem C89_served (B : BinSearch) (H : Hash) (sn : Snappy) (rt : PbRt) (P : Paths) (hP : P.read ≠ P.write) (base : Str) (hb : ∀ b ∈ base, isCont b = false)
    (ss : List Session) (calls : List (List Call)) (hL : FineLives sn rt P ss calls)
    (hH : H.Good fun k => ∃ cs ∈ calls, ∃ m s, Call.write m ∈ cs ∧ s ∈ m ∧ k = sortLabels s.labels)
    (f : Nat → Nat) (disks : Nat → List Slot) (hD : Survivors B H (pbFormats sn rt) P base ss f disks)
    (n : Nat) (sched : List Nat) (hlen : sched.length < 2 ^ 64 - 1) (c : SrvConf) (hc : serverWith B H (pbFormats sn rt) P base ss disks n sched = some c)
    (cs : List Call) (hcs : calls[n]? = some cs) (j : Nat) (k : Call) (hj : cs[j]? = some k) (x : Option Response) (hres : c.sent[j]? = some x) :
    match k with
    | .write _ => x = some ⟨200, []⟩ ∨ x = some ⟨500, []⟩
    | .read qs => (∀ q ∈ qs, (∀ y ∈ q.matchers, WFLabel ⟨y.name, y.value⟩) ∧ (asU64 q.start_).toNat ≤ (asU64 q.end_).toNat) → ∃ body, x = some ⟨200, body⟩
    | .badRead => x = some ⟨500, []⟩
    | .other => x = some ⟨404, []⟩
    | .garbage => x = none := by
  obtain ⟨hn, -⟩ := List.getElem?_eq_some_iff.mp hcs
  rw [← hL.means.length_eq] at hn
  have hs : ss[n]? = some ss[n] := List.getElem?_eq_getElem hn
  rw [serverWith_eq _ hs] at hc
  obtain ⟨-, A, hA, rfl⟩ := at_eq hc
  have hok := disks_ok (B := B) hP hb hL hH hD n (by omega)
  obtain ⟨⟨-, -, -, d3, -, -, d4⟩, -⟩ := power_core hP hb hL hH hs hcs hok hA sched hlen
  have hlt := (List.getElem?_eq_some_iff.mp hres).1
  obtain ⟨ps, -, -, e⟩ := d4 j _ k x hj (List.getElem?_eq_getElem (by rw [d3]; exact hlt)) hres
  cases k with
  | write m => exact e.2.2.imp (fun h => h.1) fun h => h.1
  | read qs => exact fun hq => by obtain ⟨body, out, e, -⟩ := e hq; exact ⟨body, e⟩
  | badRead => exact e.2
  | other => exact e.2
  | garbage => exact e.2

/-- C89, progress: in every life that comes up, whatever it finds: as C87_answered. -/
theorem C89_answered (W : FPolicy) (hW : W.fine) (B : BinSearch) (H : Hash) (F : Formats) (P : Paths) (base : Str) (ss : List Session) (disks : Nat → List Slot)
    (n : Nat) (s : Session) (hs : ss[n]? = some s) (c0 : SrvConf) (hup : serverWith B H F P base ss disks n [] = some c0) (sch : Nat → Nat)
    (hfair : ∀ u k, u ≤ 1 → ∃ k', k ≤ k' ∧ sch k' = u) :
    ∃ k s' c, s'.Sublist ((List.range k).map sch) ∧ serverWith B H F P base ss disks n s' = some c ∧ c0.runUnder W (Kit.sled B) H F P ((List.range k).map sch) = c ∧
      (none ∈ c.sent ∨ c.sent.length = s.reqs.length ∧ (c.db.threads 0).done.map Out.call = s.ticks.map fun w => .swap w.1 w.2) := by
  rw [serverWith_eq _ hs] at hup
  obtain ⟨hborn, A, hA, rfl⟩ := at_eq hup
  obtain ⟨k, s', h1, h2, h3⟩ := C85_answered_on W hW (Kit.sled B) H F P A s.now (s.now + s.size) s.ticks s.reqs sch hfair
  exact ⟨k, s', _, h1, by rw [serverWith_eq _ hs]; exact at_some hborn hA s', h2, h3⟩

/-- C89: the server comes up exactly if the configuration file of every directory it finds is complete (and its own first directory is made). -/
theorem C89_opens (B : BinSearch) (H : Hash) (sn : Snappy) (rt : PbRt) (P : Paths) (hP : P.read ≠ P.write) (base : Str) (hb : ∀ b ∈ base, isCont b = false)
    (ss : List Session) (calls : List (List Call)) (hL : FineLives sn rt P ss calls)
    (hH : H.Good fun k => ∃ cs ∈ calls, ∃ m s, Call.write m ∈ cs ∧ s ∈ m ∧ k = sortLabels s.labels)
    (f : Nat → Nat) (disks : Nat → List Slot) (hD : Survivors B H (pbFormats sn rt) P base ss f disks)
    (n : Nat) (s : Session) (hs : ss[n]? = some s) (sched : List Nat) :
    (∃ c, serverWith B H (pbFormats sn rt) P base ss disks n sched = some c) ↔ 3 ≤ s.born ∧ ∀ x ∈ disks n, x.config = .complete := by
  obtain ⟨hn, -⟩ := List.getElem?_eq_some_iff.mp hs
  have hok := disks_ok (B := B) hP hb hL hH hD n (by omega)
  have hperm := hL.order s (List.mem_of_getElem? hs) (disks n)
  rw [serverWith_eq _ hs]
  constructor
  · rintro ⟨c, hc⟩
    obtain ⟨hborn, A, hA, -⟩ := at_eq hc
    refine ⟨hborn, fun x hx => ?_⟩
    exact (existing_found hb _ (fun sl hm => by
      obtain ⟨lo, hi, -, e, -⟩ := hok sl (hperm.mem_iff.mp hm); exact ⟨lo, hi, e⟩) hA).1 x (hperm.mem_iff.mpr hx)
  · rintro ⟨hborn, hall⟩
    obtain ⟨cs, h⟩ := readChunks_complete hb s.clock (ss := s.order (disks n)) fun sl hsl => by
      obtain ⟨lo, hi, -, e, -⟩ := hok sl (hperm.mem_iff.mp hsl)
      exact ⟨hall sl (hperm.mem_iff.mp hsl), lo, hi, e⟩
    exact ⟨_, at_some hborn (by unfold readExistingChunks; rw [h]; rfl) sched⟩

/-! ### A kill is the mildest case -/

theorem newDir_empty {lo hi : U64} {n : Nat} : ∀ x ∈ newDir lo hi n, x.stores = noStores := by
  unfold newDir
  rw [chunkDir_upTo (by simp)]
  intro x hx
  match n, hx with
  | 0, hx => cases hx
  | 1, hx => simp only [List.nil_append, List.mem_singleton] at hx; subst hx; rfl
  | 2, hx => simp only [List.nil_append, List.mem_singleton] at hx; subst hx; rfl
  | n + 3, hx => simp only [List.nil_append, List.mem_singleton] at hx; subst hx; rfl

theorem nextDir_empty {c : SrvConf} {cut : Nat} : ∀ x ∈ c.nextDir cut, x.stores = noStores := by
  have h0 : ∀ s ∈ ([] : List Slot), s.stores = noStores := by simp
  have h1 : ∀ lo hi n, ∀ s ∈ newDir lo hi n, s.stores = noStores := fun lo hi n => newDir_empty
  unfold SrvConf.nextDir
  generalize newDir = f at h1 ⊢
  rcases (c.db.threads 0).now with _ | ph
  · rcases (c.db.threads 0).todo with _ | ⟨op, ops⟩
    · exact h0
    · cases op with
      | swap lo hi => exact h1 lo hi _
      | _ => exact h0
  · cases ph with
    | s1 lo hi => exact h1 lo hi _
    | s2 lo hi => exact h1 lo hi _
    | _ => exact h0

/-- The last turn of each life. -/
def lastTurn (ss : List Session) (n : Nat) : Nat := ((ss[n]?).map fun s => s.sched.length).getD 0

theorem wears_end {B : BinSearch} {H : Hash} {F : Formats} {P : Paths} {base : Str} {slots : List Slot} {s : Session} {A : List SChunk}
    (hA : readExistingChunks base s.clock (s.order slots) = some A) (hborn : 3 ≤ s.born) {i : Nat} {y : Slot}
    (hy : (((SrvConf.startOn A s.now (s.now + s.size) s.ticks s.reqs).run (Kit.sled B) H F P s.sched).dirs A.length)[i]? = some y) :
    s.Wears B H F P base slots s.sched.length i y :=
  ⟨A, _, y, hA, at_some hborn hA _, hy, rfl, fun _ _ => ⟨s.sched.length, _, y, le_refl _, le_refl _, by rw [List.take_length]; exact at_some hborn hA _, hy, rfl⟩⟩

theorem kill_new {B : BinSearch} {H : Hash} {F : Formats} {P : Paths} {base : Str} {ss : List Session} {n : Nat} {s : Session} (hs : ss[n]? = some s)
    {f : Nat} (hf : f = s.sched.length) (x : Slot) (hx : x ∈ lives B H F P base (ss.take (n + 1))) :
    x ∈ s.order (lives B H F P base (ss.take n)) ∨ (∃ i, s.Wears B H F P base (lives B H F P base (ss.take n)) f i x) ∨
      s.Begins B H F P base (lives B H F P base (ss.take n)) x := by
  subst hf
  rw [lives_succ _ hs] at hx
  unfold Session.leaves at hx
  rcases hA : readExistingChunks base s.clock (s.order (lives B H F P base (ss.take n))) with _ | A
  · rw [hA] at hx; exact Or.inl hx
  · rw [hA] at hx
    simp only [] at hx
    rcases List.mem_append.mp hx with hx | hx
    · exact Or.inl hx
    · right
      split at hx
      · rename_i hb
        exact Or.inr ⟨newDir_empty x hx, Or.inl ⟨A, hA, hb, x, hx, rfl⟩⟩
      · rename_i hb
        rcases List.mem_append.mp hx with hx | hx
        · obtain ⟨i, hi⟩ := List.mem_iff_getElem?.mp hx
          exact Or.inl ⟨i, wears_end hA (by omega) hi⟩
        · exact Or.inr ⟨nextDir_empty x hx, Or.inr ⟨_, at_some (by omega) hA _, x, hx, rfl⟩⟩

/-- C89: kills at any moment (C87) are among the cases: everything is there as at the last turn of each life. -/
theorem C89_kill (B : BinSearch) (H : Hash) (F : Formats) (P : Paths) (base : Str) (ss : List Session) (hord : ∀ s ∈ ss, ∀ l, (s.order l).Perm l) :
    Survivors B H F P base ss (lastTurn ss) (fun n => lives B H F P base (ss.take n)) ∧ Lasting B H F P base ss (lastTurn ss) (fun n => lives B H F P base (ss.take n)) ∧
    ∀ n sched, serverWith B H F P base ss (fun n => lives B H F P base (ss.take n)) n sched = serverOf B H F P base ss n sched := by
  have hlast : ∀ {n : Nat} {s : Session}, ss[n]? = some s → lastTurn ss n = s.sched.length := by
    intro n s hs; unfold lastTurn; rw [hs]; rfl
  refine ⟨⟨rfl, ?_⟩, ?_, fun _ _ => rfl⟩
  · intro n hn
    induction n with
    | zero =>
      intro x hx
      have hs : ss[0]? = some ss[0] := List.getElem?_eq_getElem hn
      refine ⟨0, ss[0], le_refl _, hs, ?_⟩
      refine (kill_new hs (hlast hs) x hx).resolve_left fun h => ?_
      have := (hord _ (List.getElem_mem hn) _).mem_iff.mp h
      simp [lives] at this
    | succ n ih =>
      intro x hx
      have hs : ss[n + 1]? = some ss[n + 1] := List.getElem?_eq_getElem hn
      rcases kill_new hs (hlast hs) x hx with h | h
      · obtain ⟨n', s, h1, h2⟩ := ih (by omega) x ((hord _ (List.getElem_mem hn) _).mem_iff.mp h)
        exact ⟨n', s, by omega, h2⟩
      · exact ⟨n + 1, _, le_refl _, hs, h⟩
  · intro n s A c i hs hA hc hi n2 hn2 hlt
    rw [hlast hs, List.take_length] at hc
    rw [hlast hs]
    obtain ⟨hborn, A', hA', rfl⟩ := at_eq hc
    rw [hA] at hA'
    cases hA'
    have hy := List.getElem?_eq_getElem hi
    refine ⟨_, ?_, wears_end hA hborn hy⟩
    refine lives_keeps hord F (by omega : n + 1 ≤ n2) (by omega) ?_
    rw [lives_succ _ hs]
    unfold Session.leaves
    rw [hA]
    simp only []
    rw [if_neg (by omega)]
    exact List.mem_append_right _ (List.mem_append_left _ (List.getElem_mem hi))

/-! ### Two lives with a loss of power in between -/

def pvSer : PSeries := ⟨[lbl "a" "1"], [⟨0x4000000000000000#64, 300⟩]⟩
def pvAsk : PQuery := ⟨0, 10000, [⟨.eq, (lbl "b" "2").key, (lbl "b" "2").value⟩]⟩
/-- The first life: two writes, both are answered. -/
def pvOne : Session := ⟨id, fun _ => 0#64, 0#64, 1000#64, 3, [], [⟨[119#8], some (encWrite [scSer])⟩, ⟨[119#8], some (encWrite [pvSer])⟩], List.replicate 40 1, 0⟩
/-- The second: two reads. -/
def pvTwo : Session := ⟨id, fun _ => 3000#64, 3000#64, 1000#64, 3, [], [⟨[114#8], some (encRead [scAsk])⟩, ⟨[114#8], some (encRead [pvAsk])⟩], List.replicate 60 1, 0⟩
def pvCalls : List (List Call) := [[.write [scSer], .write [pvSer]], [.read [scAsk], .read [pvAsk]]]
def pvAt (m : Nat) : SrvConf := (SrvConf.startOn [] 0#64 (0#64 + 1000#64) [] pvOne.reqs).run stdKit idealHash (pbFormats exSnappy exRt) lvPaths (pvOne.sched.take m)
/-- The directory of the chunk of the first life at a turn. -/
def pvSlot (m : Nat) : Slot := ((pvAt m).dirs 0).getD 0 ⟨[], .absent, noStores⟩
def pvDisks (x : Slot) (n : Nat) : List Slot := if n = 0 then [] else [x]
/-- Nothing was flushed but the index. -/
def pvLost : Slot := ⟨(pvSlot 40).name, .complete, ⟨(pvSlot 40).stores.idx, KV.empty⟩⟩
/-- The first write was flushed; of the second, the index only. -/
def pvHalf : Slot := ⟨(pvSlot 40).name, .complete, ⟨(pvSlot 40).stores.idx, (pvSlot 18).stores.ser⟩⟩
/-- The configuration file was not written. -/
def pvBare : Slot := ⟨(pvSlot 40).name, .unfinished, (pvSlot 40).stores⟩
def pvWith (x : Slot) (n : Nat) (sched : List Nat) : Option SrvConf :=
  serverWith stdBinSearch idealHash (pbFormats exSnappy exRt) lvPaths lvBase [pvOne, pvTwo] (pvDisks x) n sched

attribute [local irreducible] SrvConf.run

theorem pv_dirs (m : Nat) (hm : m = 0 ∨ m = 18 ∨ m = 40) : ((pvAt m).dirs 0).length = 1 := by
  rcases hm with rfl | rfl | rfl <;> decide +kernel
theorem pv_slot (m : Nat) (hm : m = 0 ∨ m = 18 ∨ m = 40) : ((pvAt m).dirs 0)[0]? = some (pvSlot m) := by
  have h := pv_dirs m hm
  unfold pvSlot
  rw [List.getD_eq_getElem?_getD, List.getElem?_eq_getElem (by omega)]; rfl
theorem pv_at (m : Nat) : pvOne.at stdBinSearch idealHash (pbFormats exSnappy exRt) lvPaths lvBase [] (pvOne.sched.take m) = some (pvAt m) :=
  at_some (by decide) (by rfl) _
theorem pv_empty (k : Str) : (pvSlot 0).stores.ser k = none := by
  have e : (pvAt 0).dirs 0 = [⟨encodeChunkDir 0#64 1000#64, .complete, noStores⟩] := by unfold pvAt SrvConf.run; rfl
  unfold pvSlot
  rw [e]; rfl

theorem pv_wears (f : Nat) (x : Slot) (hx : x.name = (pvSlot 40).name)
    (h : ∀ t k, ∃ m, (m = 0 ∨ m = 18 ∨ m = 40) ∧ f ≤ m ∧ x.stores.tree t k = (pvSlot m).stores.tree t k) :
    pvOne.Wears stdBinSearch idealHash (pbFormats exSnappy exRt) lvPaths lvBase [] f 0 x := by
  refine ⟨[], pvAt 40, pvSlot 40, rfl, ?_, pv_slot 40 (by simp), hx, fun t k => ?_⟩
  · have := pv_at 40
    rwa [List.take_of_length_le (by decide)] at this
  · obtain ⟨m, hm, h1, h2⟩ := h t k
    exact ⟨m, pvAt m, pvSlot m, h1, by rcases hm with rfl | rfl | rfl <;> decide, pv_at m, pv_slot m hm, h2⟩

/-- The last turn of the first life at which everything was on the disk. -/
def pvTurn (f n : Nat) : Nat := if n = 0 then f else 0

theorem pv_survive (f : Nat) (hf : f = 0 ∨ f = 18 ∨ f = 40) (x : Slot) (hx : x.name = (pvSlot 40).name)
    (h : ∀ t k, ∃ m, (m = 0 ∨ m = 18 ∨ m = 40) ∧ f ≤ m ∧ x.stores.tree t k = (pvSlot m).stores.tree t k) :
    Survivors stdBinSearch idealHash (pbFormats exSnappy exRt) lvPaths lvBase [pvOne, pvTwo] (pvTurn f) (pvDisks x) ∧
    Lasting stdBinSearch idealHash (pbFormats exSnappy exRt) lvPaths lvBase [pvOne, pvTwo] (pvTurn f) (pvDisks x) := by
  have hw := pv_wears f x hx h
  constructor
  · refine ⟨rfl, fun n hn y hy => ?_⟩
    have hy' : y = x := by simpa [pvDisks] using hy
    subst hy'
    exact ⟨0, pvOne, by omega, rfl, Or.inl ⟨0, hw⟩⟩
  · intro n s A c i hs hA hc hi n2 h1 h2
    have hn : n = 0 := by simp at h2; omega
    have hn2 : n2 = 1 := by simp at h2; omega
    subst hn hn2
    have hs : pvOne = s := by simpa using hs
    subst hs
    have hA' : A = [] := by
      have e : readExistingChunks lvBase pvOne.clock (pvOne.order (pvDisks x 0)) = some [] := rfl
      rw [e] at hA; exact (Option.some.inj hA).symm
    subst hA'
    have hc' : c = pvAt f := (Option.some.inj ((pv_at f).symm.trans hc)).symm
    subst hc'
    have := pv_dirs f hf
    have hi0 : i = 0 := by simp at hi; omega
    subst hi0
    exact ⟨x, by simp [pvDisks], hw⟩

theorem pv_fine : FineLives exSnappy exRt lvPaths [pvOne, pvTwo] pvCalls := by
  have hw : ∀ m : List PSeries, m.map wireSeries = m → (∀ s ∈ m, ∀ x ∈ s.samples, -2 ^ 63 ≤ x.timestamp ∧ x.timestamp < 2 ^ 63) → (encWrite m).length < 2 ^ 32 →
      IsWrite exRt.utf8 m (encWrite m) := by
    intro m e h hl
    have := encWrite_is (utf8 := exRt.utf8) (m := m) (fun s hs => ⟨fun _ _ => ⟨rfl, rfl⟩, fun x hx => h s hs x hx⟩) hl
    rwa [e] at this
  have hr : ∀ m : List PQuery, (∀ q ∈ m, (-2 ^ 63 ≤ q.start_ ∧ q.start_ < 2 ^ 63) ∧ (-2 ^ 63 ≤ q.end_ ∧ q.end_ < 2 ^ 63)) → (encRead m).length < 2 ^ 32 →
      IsRead exRt.utf8 m (encRead m) := fun m h hl => encRead_is (fun q hq => ⟨(h q hq).1, (h q hq).2, fun _ _ => ⟨rfl, rfl⟩⟩) hl
  refine ⟨.cons (.cons ⟨rfl, _, _, rfl, rfl, hw _ (by decide +kernel) (by decide +kernel) (by decide +kernel)⟩
    (.cons ⟨rfl, _, _, rfl, rfl, hw _ (by decide +kernel) (by decide +kernel) (by decide +kernel)⟩ .nil))
    (.cons (.cons ⟨rfl, _, _, rfl, rfl, hr _ (by decide +kernel) (by decide +kernel)⟩
    (.cons ⟨rfl, _, _, rfl, rfl, hr _ (by decide +kernel) (by decide +kernel)⟩ .nil)) .nil), ?_, ?_, ?_, (by decide +kernel : ([(0#64, 1000#64), (3000#64, 4000#64)] : List (U64 × U64)).Nodup)⟩
  · intro cs hcs
    simp only [pvCalls, List.mem_cons, List.not_mem_nil, or_false] at hcs
    rcases hcs with rfl | rfl
    · refine ⟨⟨?_, fun ls => incr_pointsFor (by unfold SIncr; decide +kernel) ls, by decide +kernel⟩, by simp, by simp⟩
      intro ls ps h
      simp only [List.flatMap_cons, List.flatMap_nil, Call.ops, List.map_cons, List.map_nil, List.cons_append, List.nil_append, List.mem_cons, List.not_mem_nil,
        DbOp.write.injEq, or_false] at h
      rcases h with ⟨rfl, -⟩ | ⟨rfl, -⟩ <;> exact wfSet_of (by decide +kernel)
    · refine ⟨⟨?_, fun ls => incr_pointsFor (by unfold SIncr; decide +kernel) ls, by decide +kernel⟩, by simp, by simp⟩
      intro ls ps h
      simp only [List.flatMap_cons, List.flatMap_nil, Call.ops, List.map_cons, List.map_nil, List.cons_append, List.nil_append, List.mem_cons, List.not_mem_nil,
        reduceCtorEq, or_false] at h
  · intro s hs l
    simp only [List.mem_cons, List.not_mem_nil, or_false] at hs
    rcases hs with rfl | rfl <;> exact List.Perm.refl _
  · intro s hs
    simp only [List.mem_cons, List.not_mem_nil, or_false] at hs
    rcases hs with rfl | rfl <;> decide +kernel

theorem pvLost_survives : Survivors stdBinSearch idealHash (pbFormats exSnappy exRt) lvPaths lvBase [pvOne, pvTwo] (pvTurn 0) (pvDisks pvLost) ∧
    Lasting stdBinSearch idealHash (pbFormats exSnappy exRt) lvPaths lvBase [pvOne, pvTwo] (pvTurn 0) (pvDisks pvLost) := by
  refine pv_survive 0 (Or.inl rfl) pvLost rfl fun t k => ?_
  cases t with
  | idx => exact ⟨40, by simp, by omega, rfl⟩
  | ser => exact ⟨0, by simp, by omega, (pv_empty k).symm⟩

theorem pvHalf_survives : Survivors stdBinSearch idealHash (pbFormats exSnappy exRt) lvPaths lvBase [pvOne, pvTwo] (pvTurn 18) (pvDisks pvHalf) ∧
    Lasting stdBinSearch idealHash (pbFormats exSnappy exRt) lvPaths lvBase [pvOne, pvTwo] (pvTurn 18) (pvDisks pvHalf) := by
  refine pv_survive 18 (by simp) pvHalf rfl fun t k => ?_
  cases t with
  | idx => exact ⟨40, by simp, by omega, rfl⟩
  | ser => exact ⟨18, by simp, by omega, rfl⟩

theorem pvBare_survives : Survivors stdBinSearch idealHash (pbFormats exSnappy exRt) lvPaths lvBase [pvOne, pvTwo] (pvTurn 40) (pvDisks pvBare) ∧
    Lasting stdBinSearch idealHash (pbFormats exSnappy exRt) lvPaths lvBase [pvOne, pvTwo] (pvTurn 40) (pvDisks pvBare) :=
  pv_survive 40 (by simp) pvBare rfl fun _ _ => ⟨40, by simp, by omega, rfl⟩

theorem pv_acked (x : Slot) : (pvWith x 0 pvOne.sched).map (·.sent) = some [some ⟨200, []⟩, some ⟨200, []⟩] := by
  have e : pvWith x 0 pvOne.sched = some (pvAt 40) := by
    have := pv_at 40
    rw [List.take_of_length_le (by decide)] at this
    exact this
  rw [e, Option.map_some]
  exact congrArg some (by decide +kernel)

/-- C89 fails: both writes of the first life are answered by 200, the second life comes up and answers its two reads, which ask for everything, without any sample: the
index was flushed, the samples were not. -/
theorem C89_violated_lost : FineLives exSnappy exRt lvPaths [pvOne, pvTwo] pvCalls ∧
    Survivors stdBinSearch idealHash (pbFormats exSnappy exRt) lvPaths lvBase [pvOne, pvTwo] (pvTurn 0) (pvDisks pvLost) ∧
    (pvWith pvLost 0 pvOne.sched).map (·.sent) = some [some ⟨200, []⟩, some ⟨200, []⟩] ∧
    (pvWith pvLost 1 pvTwo.sched).map (·.sent) =
      some [some ⟨200, (pbFormats exSnappy exRt).respond [[]]⟩, some ⟨200, (pbFormats exSnappy exRt).respond [[]]⟩] :=
  ⟨pv_fine, pvLost_survives.1, pv_acked _, by decide +kernel⟩

/-- C89 fails also for samples that were flushed: everything was written to the disk after the first write was answered. The second write made a new series that shares
a label; its samples were lost, its entries in the index were not. A read by that label shows nothing; the sample is there: a read by the other label shows it. -/
theorem C89_violated_blocked : FineLives exSnappy exRt lvPaths [pvOne, pvTwo] pvCalls ∧
    Survivors stdBinSearch idealHash (pbFormats exSnappy exRt) lvPaths lvBase [pvOne, pvTwo] (pvTurn 18) (pvDisks pvHalf) ∧
    Lasting stdBinSearch idealHash (pbFormats exSnappy exRt) lvPaths lvBase [pvOne, pvTwo] (pvTurn 18) (pvDisks pvHalf) ∧
    (pvWith pvHalf 0 (pvOne.sched.take 18)).map (·.sent) = some [some ⟨200, []⟩] ∧
    (pvWith pvHalf 1 pvTwo.sched).map (·.sent) = some [some ⟨200, (pbFormats exSnappy exRt).respond [[]]⟩,
      some ⟨200, (pbFormats exSnappy exRt).respond [[⟨[lbl "a" "1", lbl "b" "2"], [⟨0x3ff0000000000000#64, 200⟩]⟩]]⟩] := by
  refine ⟨pv_fine, pvHalf_survives.1, pvHalf_survives.2, ?_, by decide +kernel⟩
  have e : pvWith pvHalf 0 (pvOne.sched.take 18) = some (pvAt 18) := pv_at 18
  rw [e, Option.map_some]
  exact congrArg some (by decide +kernel)

/-- C89 fails for the whole directory: the trees are on the disk, the configuration file of the chunk is not; the server never comes up. -/
theorem C89_violated_stuck : FineLives exSnappy exRt lvPaths [pvOne, pvTwo] pvCalls ∧
    Survivors stdBinSearch idealHash (pbFormats exSnappy exRt) lvPaths lvBase [pvOne, pvTwo] (pvTurn 40) (pvDisks pvBare) ∧
    (pvWith pvBare 0 pvOne.sched).map (·.sent) = some [some ⟨200, []⟩, some ⟨200, []⟩] ∧ ∀ sched, pvWith pvBare 1 sched = none := by
  refine ⟨pv_fine, pvBare_survives.1, pv_acked _, fun sched => ?_⟩
  have h := (C89_opens stdBinSearch idealHash exSnappy exRt lvPaths (by decide) lvBase (by decide) [pvOne, pvTwo] pvCalls pv_fine (idealHash_good _) _ _
    pvBare_survives.1 1 pvTwo rfl sched).not.mpr fun ⟨_, h⟩ => by
      have := h pvBare (by simp [pvDisks])
      cases this
  unfold pvWith
  generalize serverWith stdBinSearch idealHash (pbFormats exSnappy exRt) lvPaths lvBase [pvOne, pvTwo] (pvDisks pvBare) 1 sched = o at h ⊢
  rcases o with _ | c
  · rfl
  · exact absurd ⟨c, rfl⟩ h

theorem pvAsk_fine : (∀ y ∈ pvAsk.matchers, WFLabel ⟨y.name, y.value⟩) ∧ (asU64 pvAsk.start_).toNat ≤ (asU64 pvAsk.end_).toNat := by
  refine ⟨?_, by decide +kernel⟩
  intro y hy
  simp only [pvAsk, List.mem_singleton] at hy
  subst hy
  exact wfLabel_of (by decide +kernel)

/-- The hypotheses of C89_partial_durable, C89_honest, C89_served and C89_opens hold: what was flushed is found by the other label although the second write was half lost. -/
example : ∃ c body out, pvWith pvHalf 1 pvTwo.sched = some c ∧ c.sent[1]? = some (some ⟨200, body⟩) ∧ exSnappy.decompress body = some out ∧
    (out.length < 2 ^ 32 → ∃ rs r, (∀ m, IsResponse exRt.utf8 m out ↔ m = rs) ∧ rs[0]? = some r ∧
      (∃ y ∈ r, y.labels = [lbl "a" "1", lbl "b" "2"] ∧ (⟨0x3ff0000000000000#64, 200⟩ : Sample) ∈ y.samples) ∧ (r.map (·.labels)).Nodup) := by
  have hq : ∀ q ∈ [pvAsk], (∀ y ∈ q.matchers, WFLabel ⟨y.name, y.value⟩) ∧ (asU64 q.start_).toNat ≤ (asU64 q.end_).toNat := by
    intro q hq
    rw [List.mem_singleton] at hq
    subst hq; exact pvAsk_fine
  have hb : ∀ b ∈ lvBase, isCont b = false := by decide
  obtain ⟨hD, hK⟩ := pvHalf_survives
  obtain ⟨c, hc, hcs⟩ := Option.map_eq_some_iff.mp C89_violated_blocked.2.2.2.2
  have hl : 1 < c.sent.length := by rw [hcs]; decide
  obtain ⟨body, hres⟩ := C89_served stdBinSearch idealHash exSnappy exRt lvPaths (by decide) lvBase hb [pvOne, pvTwo] pvCalls pv_fine (idealHash_good _) _ _ hD
    1 pvTwo.sched (by decide +kernel) c hc _ rfl 1 (.read [pvAsk]) rfl c.sent[1] (List.getElem?_eq_getElem hl) hq
  have hres : c.sent[1]? = some (some ⟨200, body⟩) := by rw [List.getElem?_eq_getElem hl, hres]
  have e18 : (pvAt 18).sent = [some ⟨200, []⟩] ∧ ((pvAt 18).db.threads 0).done.length = 0 := by decide +kernel
  have e0 : (pvAt 0).sent = [] ∧ (pvAt 0).now.isNone = true ∧ ((pvAt 0).db.threads 0).done.length = 0 := by decide +kernel
  obtain ⟨out, o1, o2⟩ := C89_partial_durable stdBinSearch idealHash exSnappy exRt lvPaths (by decide) lvBase hb [pvOne, pvTwo] pvCalls pv_fine (idealHash_good _) _ _ hD hK
    0 pvOne rfl _ rfl [] (pvOne.sched.take 18) [] (by decide) (by simp [pvTurn]) (pvAt 0) (pvAt 18) (pvAt 18) (pv_at 0) (pv_at 18) (pv_at 18) 0 [scSer] rfl e0.2.1 (by rw [e0.1]; rfl)
    (by rw [e18.1]; rfl) scSer (by simp) ⟨0x3ff0000000000000#64, 200⟩ (by simp [scSer])
    (by
      intro k w _ hn hw
      rw [e18.2] at hn
      have : k = 0 := by simpa using hn
      subst this
      simp only [List.getElem?_cons_zero, Option.some.injEq] at hw
      subst hw
      decide +kernel)
    1 (by decide) pvTwo.sched (by decide +kernel) c hc _ rfl 1 [pvAsk] rfl _ hres hq 0 (by decide) (by simp [pvAsk]) (by decide +kernel) rfl
    (by
      intro cs hcs m hm
      simp only [pvCalls, List.mem_cons, List.not_mem_nil, or_false] at hcs
      rcases hcs with rfl | rfl
      · simp only [List.mem_cons, Call.write.injEq, List.not_mem_nil, or_false] at hm
        rcases hm with rfl | rfl <;> decide +kernel
      · simp at hm)
    (by
      intro i' m' hi hm ser' hser'
      rw [e18.1] at hi
      have hi : 1 ≤ i' := hi
      match i', hi, hm with
      | 1, _, hm =>
        have hm : [pvSer] = m' := by simpa using hm
        subst hm
        rw [List.mem_singleton] at hser'
        subst hser'
        right
        decide +kernel
      | i' + 2, _, hm => simp at hm)
  obtain ⟨out', q1, q2⟩ := C89_honest stdBinSearch idealHash exSnappy exRt lvPaths (by decide) lvBase hb [pvOne, pvTwo] pvCalls pv_fine (idealHash_good _) _ _ hD
    1 pvTwo.sched (by decide +kernel) c hc _ rfl 1 [pvAsk] rfl _ hres hq
  rw [o1, Option.some.injEq] at q1
  subst q1
  refine ⟨c, _, out, hc, hres, o1, fun hl => ?_⟩
  obtain ⟨rs, r, u1, u2, u3⟩ := o2 hl
  obtain ⟨rs', v1, -, v2⟩ := q2 hl
  have : rs' = rs := (u1 rs').mp ((v1 rs').mpr rfl)
  subst this
  have e1 : sortLabels scSer.labels = [lbl "a" "1", lbl "b" "2"] := by decide +kernel
  have e2 : asReported (Sample.point ⟨0x3ff0000000000000#64, 200⟩) = ⟨0x3ff0000000000000#64, 200⟩ := by decide +kernel
  rw [e1, e2] at u3
  exact ⟨rs', r, u1, u2, u3, (v2 0 (by decide) r u2).1⟩

/-- The second life answers its requests; with the lost file it would not come up. -/
example : ∃ s' c, pvWith pvLost 1 s' = some c ∧ (none ∈ c.sent ∨ c.sent.length = 2) := by
  obtain ⟨c0, h0⟩ := (C89_opens stdBinSearch idealHash exSnappy exRt lvPaths (by decide) lvBase (by decide) [pvOne, pvTwo] pvCalls pv_fine (idealHash_good _) _ _
    pvLost_survives.1 1 pvTwo rfl []).mpr ⟨by decide, by intro x hx; have : x = pvLost := by simpa [pvDisks] using hx
                                                         subst this; rfl⟩
  obtain ⟨k, s', c, -, h1, -, h2⟩ := C89_answered fstrict fstrict_fine stdBinSearch idealHash (pbFormats exSnappy exRt) lvPaths lvBase [pvOne, pvTwo] (pvDisks pvLost) 1 pvTwo rfl c0 h0
    (fun k => k % 2) (fun u k hu => ⟨2 * k + u, by omega, by omega⟩)
  exact ⟨s', c, h1, h2.imp_right fun h => h.1⟩

/-- The lives of C87 are a case of C89_kill, and C89_durable_same applies to its second life. -/
example : ∃ c body out, lvAt 0 1 lvTwo.sched = some c ∧ c.sent[1]? = some (some ⟨200, body⟩) ∧ exSnappy.decompress body = some out ∧
    (out.length < 2 ^ 32 → ∃ rs r, (∀ m, IsResponse exRt.utf8 m out ↔ m = rs) ∧ rs[0]? = some r ∧
      (∃ y ∈ r, y.labels = [lbl "a" "1"] ∧ (⟨0x4000000000000000#64, 3500⟩ : Sample) ∈ y.samples)) := by
  have hq : ∀ q ∈ [scAsk], (∀ y ∈ q.matchers, WFLabel ⟨y.name, y.value⟩) ∧ (asU64 q.start_).toNat ≤ (asU64 q.end_).toNat := by
    intro q hq
    rw [List.mem_singleton] at hq
    subst hq; exact scAsk_fine
  obtain ⟨hD, -, heq⟩ := C89_kill stdBinSearch idealHash (pbFormats exSnappy exRt) lvPaths lvBase [lvOne 0, lvTwo] (lv_fine 0).order
  obtain ⟨c, hc, hcs⟩ := Option.map_eq_some_iff.mp lv_second
  obtain ⟨body, hres⟩ : ∃ body, c.sent[1]? = some (some ⟨200, body⟩) := by rw [hcs]; exact ⟨_, rfl⟩
  have e1 : (lvAt 0 1 []).map (fun c => (c.sent, c.now.isSome, (c.db.threads 0).done)) = some ([], false, []) := by decide +kernel
  have e2 : (lvAt 0 1 (List.replicate 25 1)).map (fun c => (c.sent, (c.db.threads 0).done)) = some ([some ⟨200, []⟩], []) := by decide +kernel
  obtain ⟨c1, hc1, a1⟩ := Option.map_eq_some_iff.mp e1
  obtain ⟨c2, hc2, a2⟩ := Option.map_eq_some_iff.mp e2
  simp only [Prod.mk.injEq] at a1 a2
  obtain ⟨out, o1, o2⟩ := C89_durable_same stdBinSearch idealHash exSnappy exRt lvPaths (by decide) lvBase (by decide) [lvOne 0, lvTwo] lvCalls (lv_fine 0) (idealHash_good _)
    _ _ hD 1 lvTwo rfl _ rfl [] (List.replicate 25 1) (List.replicate 35 1) (by decide +kernel) c1 c2 c (by rw [heq]; exact hc1) (by rw [heq]; exact hc2) (by rw [heq]; exact hc)
    0 1 (by decide) _ rfl (Option.isSome_eq_false_iff.mp a1.2.1) (by rw [a1.1]; rfl)
    (by rw [a2.1]; rfl) ⟨[lbl "a" "1"], [⟨0x4000000000000000#64, 3500⟩]⟩ (by simp) ⟨0x4000000000000000#64, 3500⟩ (by simp)
    (by
      intro k w _ hn hw
      rw [a2.2] at hn
      have : k = 0 := by simpa using hn
      subst this
      simp only [List.getElem?_cons_zero, Option.some.injEq] at hw
      subst hw
      decide +kernel)
    [scAsk] rfl _ hres hq 0 (by decide) (by simp [scAsk]) (by decide +kernel) rfl
    (by
      intro m hm
      simp only [List.mem_cons, Call.write.injEq, reduceCtorEq, List.not_mem_nil, or_false] at hm
      subst hm; decide +kernel)
  refine ⟨c, _, out, hc, hres, o1, fun hl => ?_⟩
  obtain ⟨rs, r, u1, u2, u3⟩ := o2 hl
  have e1 : sortLabels [lbl "a" "1"] = [lbl "a" "1"] := by decide +kernel
  have e2 : asReported (Sample.point ⟨0x4000000000000000#64, 3500⟩) = ⟨0x4000000000000000#64, 3500⟩ := by decide +kernel
  rw [e1, e2] at u3
  exact ⟨rs, r, u1, u2, u3⟩

end Verif
