import Verif.Lemmas.Sessions
import Verif.Props.ServerConc
/-! C87: the running server - requests as bytes, the timer thread, single store operations - killed at any moment and started again, any number of times. -/
namespace Verif
open List

/-- C87, honesty: every sample in an answer of any life was sent, as a sample of a series with these labels, in an earlier write request of this life or in a
write request that an earlier life took up, and lies in the range asked for; no label set comes twice. -/
theorem C87_honest (B : BinSearch) (H : Hash) (sn : Snappy) (rt : PbRt) (P : Paths) (hP : P.read ≠ P.write) (base : Str) (hb : ∀ b ∈ base, isCont b = false)
    (ss : List Session) (calls : List (List Call)) (hL : FineLives sn rt P ss calls)
    (hH : H.Good fun k => ∃ cs ∈ calls, ∃ m s, Call.write m ∈ cs ∧ s ∈ m ∧ k = sortLabels s.labels)
    (n : Nat) (sched : List Nat) (hlen : sched.length < 2 ^ 64 - 1) (c : SrvConf) (hc : serverOf B H (pbFormats sn rt) P base ss n sched = some c)
    (cs : List Call) (hcs : calls[n]? = some cs) (j : Nat) (qs : List PQuery) (hj : cs[j]? = some (.read qs)) (body : Str)
    (hres : c.sent[j]? = some (some ⟨200, body⟩))
    (hqs : ∀ q ∈ qs, (∀ y ∈ q.matchers, WFLabel ⟨y.name, y.value⟩) ∧ (asU64 q.start_).toNat ≤ (asU64 q.end_).toNat) :
    ∃ out, sn.decompress body = some out ∧ (out.length < 2 ^ 32 → ∃ rs, (∀ m, IsResponse rt.utf8 m out ↔ m = rs) ∧ rs.length = qs.length ∧
      ∀ (k : Nat) (hk : k < qs.length) (r : List PSeries), rs[k]? = some r → (r.map (·.labels)).Nodup ∧ ∀ y ∈ r, ∀ z ∈ y.samples,
        ∃ ser x, ((∃ i m, i < j ∧ cs[i]? = some (.write m) ∧ ser ∈ m ∧ x ∈ ser.samples) ∨
            ∃ n' i, n' < n ∧ SentIn (serverEnd B H (pbFormats sn rt) P base ss) calls n' i ser x) ∧
          y.labels = sortLabels ser.labels ∧ z = asReported x.point ∧
          (asU64 qs[k].start_).toNat ≤ x.point.ts.toNat ∧ x.point.ts.toNat ≤ (asU64 qs[k].end_).toNat) := by
  obtain ⟨hn, -⟩ := List.getElem?_eq_some_iff.mp hcs
  rw [← hL.means.length_eq] at hn
  have hs : ss[n]? = some ss[n] := List.getElem?_eq_getElem hn
  obtain ⟨-, A, hA, rfl⟩ := opened_eq _ hs hc
  have hok := lives_ok (B := B) hP hb hL hH n (by omega)
  obtain ⟨D, -⟩ := life_core hP hb hL hH hs hcs hok hA sched hlen
  obtain ⟨-, hsrc⟩ := (hok.perm (hL.order _ (List.getElem_mem hn) _)).frozen hb hA
  obtain ⟨out, g1, g2⟩ := shown_sent (hL.fine cs (List.mem_of_getElem? hcs)) D hj hres hqs
  refine ⟨out, g1, fun hl => ?_⟩
  obtain ⟨rs, g3, g4, g5⟩ := g2 hl
  refine ⟨rs, g3, g4, fun k hk r hr => ?_⟩
  obtain ⟨g6, -, g7⟩ := g5 k hk r hr
  refine ⟨g6, fun y hy z hz => ?_⟩
  rcases g7 y hy z hz with ⟨i, m, ser, x, h1, h2, h3, h4, h5, h6, h7⟩ | ⟨f, hf, s, hs', h1, p, hp, h2⟩
  · exact ⟨ser, x, Or.inl ⟨i, m, h1, h2, h3, h4⟩, h5, h6, h7⟩
  · have hq := hqs qs[k] (List.getElem_mem hk)
    obtain ⟨ls, ⟨n', c', cs', a1, a2, a3, i, m, ser, x, a4, a5, a6, a7, rfl, rfl⟩, h3, h4⟩ := hsrc f hf _ (by
      intro l hl'
      obtain ⟨y, hy, rfl⟩ := List.mem_map.mp hl'
      exact hq.1 y hy) _ _ hq.2 s hs' p hp
    exact ⟨ser, x, Or.inr ⟨n', i, a1, c', cs', m, a2, a4, a3, a5, a6, a7⟩, by rw [← h1, h3], h2, h4⟩

/-- C87, durability: let request `i` of life `n` be a write that is taken up after the turns `s1` and answered by 200 during `s2`, and let the server be killed
after `s1 ++ s2 ++ s3`. A sample of it that lies strictly inside the window current then (inside all windows, if swaps return in the meantime) is in every answer of
every later life to a query from time 0 to a time not before anything sent, by some of the labels of its series, unless the kill interrupted a write request with
a series with one of the labels asked for. -/
theorem C87_durable (B : BinSearch) (H : Hash) (sn : Snappy) (rt : PbRt) (P : Paths) (hP : P.read ≠ P.write) (base : Str) (hb : ∀ b ∈ base, isCont b = false)
    (ss : List Session) (calls : List (List Call)) (hL : FineLives sn rt P ss calls)
    (hH : H.Good fun k => ∃ cs ∈ calls, ∃ m s, Call.write m ∈ cs ∧ s ∈ m ∧ k = sortLabels s.labels)
    (n : Nat) (s : Session) (hs : ss[n]? = some s) (cs : List Call) (hcs : calls[n]? = some cs)
    (s1 s2 s3 : List Nat) (hsch : s.sched = s1 ++ s2 ++ s3) (c1 c2 c3 : SrvConf)
    (hc1 : serverOf B H (pbFormats sn rt) P base ss n s1 = some c1) (hc2 : serverOf B H (pbFormats sn rt) P base ss n (s1 ++ s2) = some c2)
    (hc3 : serverEnd B H (pbFormats sn rt) P base ss n = some c3)
    (i : Nat) (m : List PSeries) (hi' : cs[i]? = some (.write m)) (h1 : c1.now.isNone = true) (h1' : c1.sent.length = i)
    (h2 : c2.sent[i]? = some (some ⟨200, []⟩)) (ser : PSeries) (hser : ser ∈ m) (x : Sample) (hx : x ∈ ser.samples)
    (hin : ∀ (k : Nat) (w : U64 × U64), (c1.db.threads 0).done.length ≤ k → k ≤ (c2.db.threads 0).done.length →
      ((s.now, s.now + s.size) :: s.ticks)[k]? = some w → inside w.1 w.2 x.point = true)
    (n2 : Nat) (hn2 : n < n2) (sched : List Nat) (hlen : sched.length < 2 ^ 64 - 1) (d : SrvConf)
    (hd : serverOf B H (pbFormats sn rt) P base ss n2 sched = some d) (cs2 : List Call) (hcs2 : calls[n2]? = some cs2)
    (j : Nat) (qs : List PQuery) (hj : cs2[j]? = some (.read qs)) (body : Str) (hres : d.sent[j]? = some (some ⟨200, body⟩))
    (hqs : ∀ q ∈ qs, (∀ y ∈ q.matchers, WFLabel ⟨y.name, y.value⟩) ∧ (asU64 q.start_).toNat ≤ (asU64 q.end_).toNat)
    (k : Nat) (hk : k < qs.length) (hne : qs[k].matchers ≠ []) (hsub : ∀ y ∈ qs[k].matchers, (⟨y.name, y.value⟩ : Label) ∈ ser.labels)
    (h0 : qs[k].start_ = 0)
    (hcov : ∀ cs ∈ calls, ∀ m, Call.write m ∈ cs → ∀ s ∈ m, ∀ x ∈ s.samples, x.point.ts.toNat ≤ (asU64 qs[k].end_).toNat)
    (hcut : c3.now.isSome = true → ∀ m', cs[c3.sent.length]? = some (.write m') → ∀ ser' ∈ m', ∀ y ∈ qs[k].matchers, (⟨y.name, y.value⟩ : Label) ∉ ser'.labels) :
    ∃ out, sn.decompress body = some out ∧ (out.length < 2 ^ 32 → ∃ rs r, (∀ m, IsResponse rt.utf8 m out ↔ m = rs) ∧ rs[k]? = some r ∧
      ∃ y ∈ r, y.labels = sortLabels ser.labels ∧ asReported x.point ∈ y.samples) := by
  have hsm := List.mem_of_getElem? hs
  have hst := hL.steps s hsm
  obtain ⟨hn, -⟩ := List.getElem?_eq_some_iff.mp hs
  obtain ⟨hn2', -⟩ := List.getElem?_eq_some_iff.mp hcs2
  rw [← hL.means.length_eq] at hn2'
  -- life `n`
  have hok := lives_ok (B := B) hP hb hL hH n (by omega)
  obtain ⟨hborn, A, hA, rfl⟩ := opened_eq _ hs hc1
  rw [opened_at _ hs hborn hA] at hc2
  rw [serverEnd_eq _ hs, opened_at _ hs hborn hA] at hc3
  have hc2 := (Option.some.inj hc2).symm
  have hc3 := (Option.some.inj hc3).symm
  have core := life_core hP hb hL hH hs hcs hok hA
  have hl := hsch ▸ hst
  have hg1 := srv_grow (Kit.sled B) H sn rt P A s.now (s.now + s.size) s.ticks s.reqs s1 (s2 ++ s3)
  have hg2 := srv_grow (Kit.sled B) H sn rt P A s.now (s.now + s.size) s.ticks s.reqs (s1 ++ s2) s3
  rw [← List.append_assoc, ← hsch] at hg1
  rw [← hsch] at hg2
  have D1 := (core s1 (by simp at hl; omega)).1
  have D2 := (core (s1 ++ s2) (by simp at hl ⊢; omega)).1
  obtain ⟨D3, S3⟩ := core s.sched (by omega)
  rw [← hc2] at D2
  have hack : c3.sent[i]? = some (some ⟨200, []⟩) := by
    rw [hc3, hsch, srv_run_append, ← hc2]
    exact srv_sent_keeps _ _ _ _ _ _ h2
  have hdirs : ∀ sl ∈ c3.dirs A.length, sl ∈ lives B H (pbFormats sn rt) P base (ss.take (n + 1)) := by
    intro sl hsl
    rw [lives_succ _ hs]
    unfold Session.leaves
    rw [hA]
    simp only []
    rw [if_neg (by omega), ← hc3]
    exact List.mem_append_right _ (List.mem_append_left _ hsl)
  rw [← hc3] at D3 S3
  obtain ⟨p, p1, -, p3⟩ := acked_stored D1 D2 D3 hg1.1 hg2.1 hg1.2 hg2.2 hi' h1 h1' (List.getElem?_eq_some_iff.mp h2).1 hack hser hx hin
  obtain ⟨t, ht⟩ := p1
  obtain ⟨e, he, hwe⟩ : ∃ e ∈ ((SeqDb.fresh s.now (s.now + s.size)).run (srvLin (Kit.sled B) H (pbFormats sn rt) P
      (SrvConf.startOn A s.now (s.now + s.size) s.ticks s.reqs) s.sched)).all, (ser.labels, x.point) ∈ e.h := by
    rw [← ht, SeqDb.run_append]
    exact SeqDb.run_keeps p3 t
  obtain ⟨a, S, a1, a2, a3, a4⟩ := S3.stored he hwe
  have hK := S3.keeping hst a2 a1
  have hmem : (⟨encodeChunkDir S.store.start_ S.store.end_, .complete, S.store.store⟩ : Slot) ∈ c3.dirs A.length := by
    refine List.mem_map.mpr ⟨S, ?_, rfl⟩
    refine List.mem_of_getElem? (i := a - A.length) ?_
    rw [List.getElem?_drop, Nat.add_sub_cancel' a1]
    exact a2
  -- the later life
  have hlate := lives_keeps (H := H) hL.order (pbFormats sn rt) (by omega : n + 1 ≤ n2) (by omega) (hdirs _ hmem)
  have hs2 : ss[n2]? = some ss[n2] := List.getElem?_eq_getElem hn2'
  obtain ⟨-, A2, hA2, rfl⟩ := opened_eq _ hs2 hd
  have hok2 := lives_ok (B := B) hP hb hL hH n2 (by omega)
  obtain ⟨D, -⟩ := life_core hP hb hL hH hs2 hcs2 hok2 hA2 sched hlen
  have hperm := hL.order _ (List.getElem_mem hn2') (lives B H (pbFormats sn rt) P base (ss.take n2))
  obtain ⟨-, -, hfound⟩ := existing_found hb _ (fun sl hm => by obtain ⟨lo, hi, e, -⟩ := hok2.perm hperm sl hm; exact ⟨lo, hi, e⟩) hA2
  obtain ⟨shown, b1, b2⟩ := hfound _ (hperm.mem_iff.mpr hlate) _ _ rfl
  have hq := hqs qs[k] (List.getElem_mem hk)
  have hset : (ser.labels, x.point) ∈ S.settled := by
    rcases hK.one with e | ⟨v, e⟩
    · have e : S.started = S.settled := e
      rw [← e]; exact a3
    · have e : S.started = S.settled ++ [v] := e
      rw [e] at a3
      rcases List.mem_append.mp a3 with a3 | a3
      · exact a3
      · rw [List.mem_singleton] at a3
        subst a3
        obtain ⟨t1, m', t2, ser', t3, t4⟩ := S3.torn a2 e
        obtain ⟨y, hy⟩ := List.exists_mem_of_ne_nil _ hne
        exact absurd (by rw [t4]; exact hsub y hy) (hcut t1 m' t2 ser' t3 y hy)
  obtain ⟨y, y1, y2, y3⟩ := hK.shows b1 (q := qs[k].matchers.map fun x => ⟨x.name, x.value⟩) (by
      intro l hl'
      obtain ⟨y, hy, rfl⟩ := List.mem_map.mp hl'
      exact hq.1 y hy) (by simpa using hne) hset a4 (by
      intro l hl'
      obtain ⟨y, hy, rfl⟩ := List.mem_map.mp hl'
      exact hsub y hy) (b := asU64 qs[k].end_) (by
      intro v hv
      obtain ⟨m', ser', x', u1, u2, u3, -, u4⟩ := takenUp_write (S3.source a2 v hv)
      rw [← u4]
      exact hcov cs (List.mem_of_getElem? hcs) m' u1 ser' u2 x' u3) (by
      intro v hv l hl' hlv
      obtain ⟨t1, m', t2, ser', t3, t4⟩ := S3.torn a2 hv
      obtain ⟨y, hy, rfl⟩ := List.mem_map.mp hl'
      exact hcut t1 m' t2 ser' t3 y hy (by rw [t4]; exact hlv))
  obtain ⟨out, g1, g2⟩ := shown_sent (hL.fine cs2 (List.mem_of_getElem? hcs2)) D hj hres hqs
  refine ⟨out, g1, fun hl => ?_⟩
  obtain ⟨rs, g3, g4, g5⟩ := g2 hl
  obtain ⟨r, hr⟩ : ∃ r, rs[k]? = some r := ⟨_, List.getElem?_eq_getElem (by omega)⟩
  obtain ⟨-, g6, -⟩ := g5 k hk r hr
  obtain ⟨z, z1, z2, z3⟩ := g6 _ (List.mem_map_of_mem b2) y (by rw [h0, show asU64 0 = 0#64 from by decide]; exact y1) _ y3
  exact ⟨rs, r, g3, hr, z, z1, by rw [z2, y2], z3⟩

/-- C87, durability within a life that began on what earlier lives left: as C85. -/
theorem C87_durable_same (B : BinSearch) (H : Hash) (sn : Snappy) (rt : PbRt) (P : Paths) (hP : P.read ≠ P.write) (base : Str) (hb : ∀ b ∈ base, isCont b = false)
    (ss : List Session) (calls : List (List Call)) (hL : FineLives sn rt P ss calls)
    (hH : H.Good fun k => ∃ cs ∈ calls, ∃ m s, Call.write m ∈ cs ∧ s ∈ m ∧ k = sortLabels s.labels)
    (n : Nat) (s : Session) (hs : ss[n]? = some s) (cs : List Call) (hcs : calls[n]? = some cs)
    (s1 s2 s3 : List Nat) (hlen : (s1 ++ s2 ++ s3).length < 2 ^ 64 - 1) (c1 c2 c3 : SrvConf)
    (hc1 : serverOf B H (pbFormats sn rt) P base ss n s1 = some c1) (hc2 : serverOf B H (pbFormats sn rt) P base ss n (s1 ++ s2) = some c2)
    (hc3 : serverOf B H (pbFormats sn rt) P base ss n (s1 ++ s2 ++ s3) = some c3)
    (i j : Nat) (hij : i < j) (m : List PSeries) (hi' : cs[i]? = some (.write m)) (h1 : c1.now.isNone = true) (h1' : c1.sent.length = i)
    (h2 : c2.sent[i]? = some (some ⟨200, []⟩)) (ser : PSeries) (hser : ser ∈ m) (x : Sample) (hx : x ∈ ser.samples)
    (hin : ∀ (k : Nat) (w : U64 × U64), (c1.db.threads 0).done.length ≤ k → k ≤ (c2.db.threads 0).done.length →
      ((s.now, s.now + s.size) :: s.ticks)[k]? = some w → inside w.1 w.2 x.point = true)
    (qs : List PQuery) (hj : cs[j]? = some (.read qs)) (body : Str) (hres : c3.sent[j]? = some (some ⟨200, body⟩))
    (hqs : ∀ q ∈ qs, (∀ y ∈ q.matchers, WFLabel ⟨y.name, y.value⟩) ∧ (asU64 q.start_).toNat ≤ (asU64 q.end_).toNat)
    (k : Nat) (hk : k < qs.length) (hne : qs[k].matchers ≠ []) (hsub : ∀ y ∈ qs[k].matchers, (⟨y.name, y.value⟩ : Label) ∈ ser.labels)
    (h0 : qs[k].start_ = 0) (hcov : ∀ m, Call.write m ∈ cs → ∀ s ∈ m, ∀ x ∈ s.samples, x.point.ts.toNat ≤ (asU64 qs[k].end_).toNat) :
    ∃ out, sn.decompress body = some out ∧ (out.length < 2 ^ 32 → ∃ rs r, (∀ m, IsResponse rt.utf8 m out ↔ m = rs) ∧ rs[k]? = some r ∧
      ∃ y ∈ r, y.labels = sortLabels ser.labels ∧ asReported x.point ∈ y.samples) := by
  obtain ⟨hn, -⟩ := List.getElem?_eq_some_iff.mp hs
  have hok := lives_ok (B := B) hP hb hL hH n (by omega)
  obtain ⟨hborn, A, hA, rfl⟩ := opened_eq _ hs hc1
  rw [opened_at _ hs hborn hA] at hc2 hc3
  have hc2 := (Option.some.inj hc2).symm
  have hc3 := (Option.some.inj hc3).symm
  have core := life_core hP hb hL hH hs hcs hok hA
  have hg1 := srv_grow (Kit.sled B) H sn rt P A s.now (s.now + s.size) s.ticks s.reqs s1 (s2 ++ s3)
  have hg2 := srv_grow (Kit.sled B) H sn rt P A s.now (s.now + s.size) s.ticks s.reqs (s1 ++ s2) s3
  rw [← List.append_assoc] at hg1
  have D1 := (core s1 (by simp at hlen; omega)).1
  have D2 := (core (s1 ++ s2) (by simp at hlen ⊢; omega)).1
  have D3 := (core _ hlen).1
  rw [← hc2] at D2
  have hack : c3.sent[i]? = some (some ⟨200, []⟩) := by
    rw [hc3, srv_run_append, ← hc2]
    exact srv_sent_keeps _ _ _ _ _ _ h2
  rw [← hc3] at D3
  obtain ⟨p, p1, p2, p3⟩ := acked_stored D1 D2 D3 hg1.1 hg2.1 hg1.2 hg2.2 hi' h1 h1' (List.getElem?_eq_some_iff.mp h2).1 hack hser hx hin
  exact stored_shown (hL.fine cs (List.mem_of_getElem? hcs)) D3 hij p1 p2 p3 hj hres hqs k hk hne hsub h0 hcov

/-! ### Does it come up? -/

theorem newDir_complete {lo hi : U64} {n : Nat} (h1 : n ≠ 1) (h2 : n ≠ 2) : ∀ s ∈ newDir lo hi n, s.config = .complete := by
  unfold newDir
  rw [chunkDir_upTo (by simp)]
  match n, h1, h2 with
  | 0, _, _ => intro s hs; cases hs
  | n + 3, _, _ =>
    intro s hs
    simp only [List.nil_append, List.mem_singleton] at hs
    subst hs
    rfl

theorem newDir_half {lo hi : U64} {n : Nat} (h : n = 1 ∨ n = 2) : ∃ s ∈ newDir lo hi n, s.config ≠ .complete ∧ s.name = encodeChunkDir lo hi := by
  unfold newDir
  rw [chunkDir_upTo (by simp)]
  rcases h with rfl | rfl
  · exact ⟨_, List.mem_append_right _ (List.mem_singleton_self _), by simp, rfl⟩
  · exact ⟨_, List.mem_append_right _ (List.mem_singleton_self _), by simp, rfl⟩

theorem nextDir_complete {c : SrvConf} {cut : Nat} (h1 : cut ≠ 1) (h2 : cut ≠ 2) : ∀ s ∈ c.nextDir cut, s.config = .complete := by
  have h0 : ∀ s ∈ ([] : List Slot), s.config = .complete := by simp
  have h3 : ∀ lo hi, ∀ s ∈ newDir lo hi 3, s.config = .complete := fun lo hi => newDir_complete (by decide) (by decide)
  have h4 : ∀ lo hi, ∀ s ∈ newDir lo hi cut, s.config = .complete := fun lo hi => newDir_complete h1 h2
  unfold SrvConf.nextDir
  generalize newDir = f at h3 h4 ⊢
  rcases (c.db.threads 0).now with _ | ph
  · rcases (c.db.threads 0).todo with _ | ⟨op, ops⟩
    · exact h0
    · cases op with
      | swap lo hi => exact h4 lo hi
      | _ => exact h0
  · cases ph with
    | s1 lo hi => exact h3 lo hi
    | s2 lo hi => exact h3 lo hi
    | _ => exact h0

theorem lives_complete {B : BinSearch} {H : Hash} {F : Formats} {P : Paths} {base : Str} {ss : List Session} (hord : ∀ s ∈ ss, ∀ l, (s.order l).Perm l) {n : Nat}
    (hn : n ≤ ss.length) (hcut : ∀ s ∈ ss.take n, s.born ≠ 1 ∧ s.born ≠ 2 ∧ s.cut ≠ 1 ∧ s.cut ≠ 2) : ∀ sl ∈ lives B H F P base (ss.take n), sl.config = .complete := by
  induction n with
  | zero => intro sl hsl; simp [lives] at hsl
  | succ n ih =>
    have hs : ss[n]? = some ss[n] := List.getElem?_eq_getElem (by omega)
    have e := List.take_succ_eq_append_getElem (show n < ss.length by omega)
    have ih := ih (by omega) fun s hs => hcut s (by rw [e]; exact List.mem_append_left _ hs)
    obtain ⟨h1, h2, h3, h4⟩ := hcut ss[n] (by rw [e]; exact List.mem_append_right _ (List.mem_singleton_self _))
    have hold : ∀ sl ∈ ss[n].order (lives B H F P base (ss.take n)), sl.config = .complete :=
      fun sl hsl => ih sl ((hord _ (List.getElem_mem _) _).mem_iff.mp hsl)
    rw [lives_succ F hs]
    unfold Session.leaves
    split
    · exact hold
    · intro sl hsl
      rcases List.mem_append.mp hsl with hsl | hsl
      · exact hold sl hsl
      · split at hsl
        · exact newDir_complete h1 h2 sl hsl
        · rcases List.mem_append.mp hsl with hsl | hsl
          · obtain ⟨S, -, rfl⟩ := List.mem_map.mp hsl
            rfl
          · exact nextDir_complete h3 h4 sl hsl

/-- C87, coming up: if no life so far was killed while the directory of a chunk was being made, the server comes up. -/
theorem C87_opens (B : BinSearch) (H : Hash) (sn : Snappy) (rt : PbRt) (P : Paths) (hP : P.read ≠ P.write) (base : Str) (hb : ∀ b ∈ base, isCont b = false)
    (ss : List Session) (calls : List (List Call)) (hL : FineLives sn rt P ss calls)
    (hH : H.Good fun k => ∃ cs ∈ calls, ∃ m s, Call.write m ∈ cs ∧ s ∈ m ∧ k = sortLabels s.labels)
    (n : Nat) (s : Session) (hs : ss[n]? = some s) (hborn : 3 ≤ s.born)
    (hcut : ∀ s ∈ ss.take n, s.born ≠ 1 ∧ s.born ≠ 2 ∧ s.cut ≠ 1 ∧ s.cut ≠ 2) (sched : List Nat) :
    ∃ c, serverOf B H (pbFormats sn rt) P base ss n sched = some c := by
  obtain ⟨hn, -⟩ := List.getElem?_eq_some_iff.mp hs
  have hok := (lives_ok (B := B) hP hb hL hH n (by omega)).perm (hL.order s (List.mem_of_getElem? hs) _)
  have hall := lives_complete (B := B) (H := H) (F := pbFormats sn rt) (P := P) (base := base) hL.order (by omega : n ≤ ss.length) hcut
  obtain ⟨cs, h⟩ := readChunks_complete hb s.clock (ss := s.order (lives B H (pbFormats sn rt) P base (ss.take n))) fun sl hsl => by
    obtain ⟨lo, hi, e, -⟩ := hok sl hsl
    exact ⟨hall sl ((hL.order s (List.mem_of_getElem? hs) _).mem_iff.mp hsl), lo, hi, e⟩
  exact ⟨_, opened_at _ hs hborn (by unfold readExistingChunks; rw [h]; rfl) sched⟩

theorem never_up {B : BinSearch} {H : Hash} {F : Formats} {P : Paths} {base : Str} (hb : ∀ b ∈ base, isCont b = false) {ss : List Session}
    (hord : ∀ s ∈ ss, ∀ l, (s.order l).Perm l) {n n' : Nat} (hn : n < n') {sl : Slot} (hsl : sl ∈ lives B H F P base (ss.take (n + 1))) (hc : sl.config ≠ .complete)
    {lo hi : U64} (he : sl.name = encodeChunkDir lo hi) (sched : List Nat) : serverOf B H F P base ss n' sched = none := by
  unfold serverOf Session.at
  rcases hs : ss[n']? with _ | s
  · rfl
  · obtain ⟨hn', -⟩ := List.getElem?_eq_some_iff.mp hs
    have h1 := lives_keeps hord F (by omega : n + 1 ≤ n') (by omega) hsl
    have h2 : sl ∈ s.order (lives B H F P base (ss.take n')) := (hord s (List.mem_of_getElem? hs) _).mem_iff.mpr h1
    simp only [Option.bind_some]
    have h3 : readExistingChunks base s.clock (s.order (lives B H F P base (ss.take n'))) = none := by
      unfold readExistingChunks
      rw [readChunks_incomplete hb s.clock h2 hc he]
      rfl
    rw [h3]

/-- Fewer directories are no obstacle. -/
theorem reads_fewer {base : Str} (clock : Str → U64) {clock' : Str → U64} {a b : List Slot} (hsub : ∀ s ∈ a, s ∈ b) {cs : List SChunk}
    (h : readExistingChunks base clock' b = some cs) : ∃ cs, readExistingChunks base clock a = some cs := by
  have hno : ∀ clock : Str → U64, ∀ a : List Slot, (∀ s ∈ a, s.reopen base clock ≠ none) → ∃ cs, readExistingChunks base clock a = some cs := by
    intro clock a ha
    have : ∃ cs, readChunks base clock a = some cs := by
      induction a with
      | nil => exact ⟨[], rfl⟩
      | cons s a ih =>
        obtain ⟨cs, hcs⟩ := ih fun x hx => ha x (by simp [hx])
        unfold readChunks
        rcases hr : s.reopen base clock with _ | (_ | c)
        · exact absurd hr (ha s (by simp))
        · exact ⟨cs, by simp only []; exact hcs⟩
        · exact ⟨c :: cs, by simp only []; rw [hcs]; rfl⟩
    obtain ⟨cs, hcs⟩ := this
    exact ⟨_, by unfold readExistingChunks; rw [hcs]; rfl⟩
  refine hno clock a fun s hs hn => ?_
  unfold readExistingChunks at h
  obtain ⟨cs', h1, -⟩ := Option.map_eq_some_iff.mp h
  have h2 : ∀ b : List Slot, s ∈ b → s.reopen base clock' = none → readChunks base clock' b = none := by
    intro b hsb hr
    induction b with
    | nil => cases hsb
    | cons x b ih =>
      unfold readChunks
      rcases List.mem_cons.mp hsb with rfl | hsb
      · rw [hr]
      · rcases x.reopen base clock' with _ | (_ | c)
        · rfl
        · exact ih hsb
        · simp only []; rw [ih hsb]; rfl
  have h3 : s.reopen base clock' = none := by
    unfold Slot.reopen readEntry at hn ⊢
    generalize dirNameOf (base ++ 47#8 :: s.name) = o at hn ⊢
    rcases o with _ | d
    · rfl
    · simp only [] at hn ⊢
      generalize decodeChunkDir d = o at hn ⊢
      rcases o with _ | ⟨x, y⟩
      · exact hn
      · simp only [] at hn ⊢
        by_cases hc : decide (s.config = .complete) = false
        · rw [if_pos hc]
        · rw [if_neg hc] at hn; cases hn
  rw [h2 b (hsub s hs) h3] at h1
  cases h1

/-- C87: a life that is killed in the middle of making a chunk directory - the first one, before the server is up, or that of a swap - is the last one: the
server never comes up again. -/
theorem C87_stuck (B : BinSearch) (H : Hash) (F : Formats) (P : Paths) (base : Str) (hb : ∀ b ∈ base, isCont b = false) (ss : List Session)
    (hord : ∀ s ∈ ss, ∀ l, (s.order l).Perm l) (n n' : Nat) (hn : n < n') (s : Session) (hs : ss[n]? = some s)
    (h : (s.born = 1 ∨ s.born = 2) ∨
      (∃ c lo hi ops, serverEnd B H F P base ss n = some c ∧ (c.db.threads 0).now = none ∧ (c.db.threads 0).todo = .swap lo hi :: ops ∧ (s.cut = 1 ∨ s.cut = 2)))
    (sched : List Nat) : serverOf B H F P base ss n' sched = none := by
  have hl := lives_succ (B := B) (H := H) (P := P) (base := base) F hs
  rcases hA : readExistingChunks base s.clock (s.order (lives B H F P base (ss.take n))) with _ | A
  · -- an earlier directory is the obstacle
    unfold serverOf Session.at
    rcases hs' : ss[n']? with _ | s'
    · rfl
    · obtain ⟨hn', -⟩ := List.getElem?_eq_some_iff.mp hs'
      simp only [Option.bind_some]
      have h3 : readExistingChunks base s'.clock (s'.order (lives B H F P base (ss.take n'))) = none := by
        by_contra hne
        obtain ⟨A', hA'⟩ := Option.ne_none_iff_exists'.mp hne
        exact absurd hA (by
          obtain ⟨cs, hcs⟩ := reads_fewer s.clock (fun sl hsl => (hord s' (List.mem_of_getElem? hs') _).mem_iff.mpr
            (lives_keeps hord F (by omega : n ≤ n') (by omega) ((hord s (List.mem_of_getElem? hs) _).mem_iff.mp hsl))) hA'
          rw [hcs]; simp)
      rw [h3]
  · rcases h with h | ⟨c, lo, hi, ops, hc, h1, h2, h3⟩
    · obtain ⟨sl, a1, a2, a3⟩ := newDir_half (lo := s.now) (hi := s.now + s.size) h
      refine never_up hb hord hn ?_ a2 a3 sched
      rw [hl]
      unfold Session.leaves
      rw [hA]
      simp only []
      rw [if_pos (by omega)]
      exact List.mem_append_right _ a1
    · obtain ⟨sl, a1, a2, a3⟩ := newDir_half (lo := lo) (hi := hi) h3
      refine never_up hb hord hn ?_ a2 a3 sched
      rw [serverEnd_eq _ hs] at hc
      obtain ⟨hborn, A', hA', rfl⟩ := opened_eq _ hs hc
      rw [hA] at hA'
      obtain rfl := Option.some.inj hA'
      rw [hl]
      unfold Session.leaves
      rw [hA]
      simp only []
      rw [if_neg (by omega)]
      refine List.mem_append_right _ (List.mem_append_right _ ?_)
      unfold SrvConf.nextDir
      rw [h1, h2]
      exact a1

/-- C87, progress: in every life that comes up, whatever it finds: under every infinite schedule that runs the timer and the requests' thread again and again, and every
policy about readers and waiting writers, there is a moment (if no kill comes before) at which every request has been answered and every swap has returned, or a
request has ended the process. -/
theorem C87_answered (W : FPolicy) (hW : W.fine) (B : BinSearch) (H : Hash) (F : Formats) (P : Paths) (base : Str) (ss : List Session) (n : Nat) (s : Session)
    (hs : ss[n]? = some s) (c0 : SrvConf) (hup : serverOf B H F P base ss n [] = some c0) (sch : Nat → Nat) (hfair : ∀ u k, u ≤ 1 → ∃ k', k ≤ k' ∧ sch k' = u) :
    ∃ k s' c, s'.Sublist ((List.range k).map sch) ∧ serverOf B H F P base ss n s' = some c ∧ c0.runUnder W (Kit.sled B) H F P ((List.range k).map sch) = c ∧
      (none ∈ c.sent ∨ c.sent.length = s.reqs.length ∧ (c.db.threads 0).done.map Out.call = s.ticks.map fun w => .swap w.1 w.2) := by
  obtain ⟨hborn, A, hA, rfl⟩ := opened_eq _ hs hup
  obtain ⟨k, s', h1, h2, h3⟩ := C85_answered_on W hW (Kit.sled B) H F P A s.now (s.now + s.size) s.ticks s.reqs sch hfair
  exact ⟨k, s', _, h1, opened_at _ hs hborn hA s', h2, h3⟩

/-! ### Three lives -/

def lvSer : PSeries := ⟨[lbl "c" "3"], [⟨0x4000000000000000#64, 300⟩]⟩
def lvPaths : Paths := ⟨[114#8], [119#8]⟩
def lvBase : Str := ascii "/data/db".toList
/-- The first life: a write is answered, a second one is interrupted; the timer never got a turn. -/
def lvOne (cut : Nat) : Session := ⟨id, fun _ => 0#64, 0#64, 1000#64, 3, [(1001#64, 2001#64)], [⟨[119#8], some (encWrite [scSer])⟩, ⟨[119#8], some (encWrite [lvSer])⟩],
  scS2 ++ List.replicate 8 1, cut⟩
/-- The second: a write into the new chunk, a read. -/
def lvTwo : Session := ⟨List.reverse, fun _ => 3000#64, 3000#64, 1000#64, 3, [], [⟨[119#8], some (encWrite [⟨[lbl "a" "1"], [⟨0x4000000000000000#64, 3500⟩]⟩])⟩,
  ⟨[114#8], some (encRead [scAsk])⟩], List.replicate 60 1, 0⟩
def lvCalls : List (List Call) := [[.write [scSer], .write [lvSer]], [.write [⟨[lbl "a" "1"], [⟨0x4000000000000000#64, 3500⟩]⟩], .read [scAsk]]]
def lvAt (cut n : Nat) (sched : List Nat) : Option SrvConf :=
  serverOf stdBinSearch idealHash (pbFormats exSnappy exRt) lvPaths lvBase [lvOne cut, lvTwo] n sched

attribute [local irreducible] SrvConf.run

theorem lv_first : (lvAt 0 0 (lvOne 0).sched).map (fun c => (c.sent, c.now.isSome, (c.db.threads 1).now.isSome)) = some ([some ⟨200, []⟩], true, true) := by decide +kernel
theorem lv_second : (lvAt 0 1 lvTwo.sched).map (·.sent) = some [some ⟨200, []⟩, some ⟨200, (pbFormats exSnappy exRt).respond
    [[⟨[lbl "a" "1"], [⟨0x4000000000000000#64, 3500⟩]⟩, ⟨[lbl "a" "1", lbl "b" "2"], [⟨0x3ff0000000000000#64, 200⟩]⟩]]⟩] := by decide +kernel

theorem lv_fine (cut : Nat) : FineLives exSnappy exRt lvPaths [lvOne cut, lvTwo] lvCalls := by
  have hw : ∀ m : List PSeries, m.map wireSeries = m → (∀ s ∈ m, ∀ x ∈ s.samples, -2 ^ 63 ≤ x.timestamp ∧ x.timestamp < 2 ^ 63) → (encWrite m).length < 2 ^ 32 →
      IsWrite exRt.utf8 m (encWrite m) := by
    intro m e h hl
    have := encWrite_is (utf8 := exRt.utf8) (m := m) (fun s hs => ⟨fun _ _ => ⟨rfl, rfl⟩, fun x hx => h s hs x hx⟩) hl
    rwa [e] at this
  have hr : ∀ m : List PQuery, (∀ q ∈ m, (-2 ^ 63 ≤ q.start_ ∧ q.start_ < 2 ^ 63) ∧ (-2 ^ 63 ≤ q.end_ ∧ q.end_ < 2 ^ 63)) → (encRead m).length < 2 ^ 32 →
      IsRead exRt.utf8 m (encRead m) := fun m h hl => encRead_is (fun q hq => ⟨(h q hq).1, (h q hq).2, fun _ _ => ⟨rfl, rfl⟩⟩) hl
  refine ⟨.cons (.cons ⟨rfl, _, _, rfl, rfl, hw _ (by decide +kernel) (by decide +kernel) (by decide +kernel)⟩
    (.cons ⟨rfl, _, _, rfl, rfl, hw _ (by decide +kernel) (by decide +kernel) (by decide +kernel)⟩ .nil))
    (.cons (.cons ⟨rfl, _, _, rfl, rfl, hw _ (by decide +kernel) (by decide +kernel) (by decide +kernel)⟩
    (.cons ⟨rfl, _, _, rfl, rfl, hr _ (by decide +kernel) (by decide +kernel)⟩ .nil)) .nil), ?_, ?_, ?_, (by decide +kernel : ([(0#64, 1000#64), (1001#64, 2001#64), (3000#64, 4000#64)] : List (U64 × U64)).Nodup)⟩
  · intro cs hcs
    simp only [lvCalls, List.mem_cons, List.not_mem_nil, or_false] at hcs
    rcases hcs with rfl | rfl
    · refine ⟨⟨?_, fun ls => incr_pointsFor (by unfold SIncr; decide +kernel) ls, by decide +kernel⟩, by simp, by simp⟩
      intro ls ps h
      simp only [List.flatMap_cons, List.flatMap_nil, Call.ops, List.map_cons, List.map_nil, List.cons_append, List.nil_append, List.mem_cons, List.not_mem_nil,
        DbOp.write.injEq, or_false] at h
      rcases h with ⟨rfl, -⟩ | ⟨rfl, -⟩ <;> exact wfSet_of (by decide +kernel)
    · refine ⟨⟨?_, fun ls => incr_pointsFor (by unfold SIncr; decide +kernel) ls, by decide +kernel⟩, by simp, by simp⟩
      intro ls ps h
      simp only [List.flatMap_cons, List.flatMap_nil, Call.ops, List.map_cons, List.map_nil, List.cons_append, List.nil_append, List.mem_cons, List.not_mem_nil,
        DbOp.write.injEq, reduceCtorEq, or_false] at h
      obtain ⟨rfl, -⟩ := h; exact wfSet_of (by decide +kernel)
  · intro s hs l
    simp only [List.mem_cons, List.not_mem_nil, or_false] at hs
    rcases hs with rfl | rfl
    · exact List.Perm.refl _
    · exact List.reverse_perm _
  · intro s hs
    simp only [List.mem_cons, List.not_mem_nil, or_false] at hs
    rcases hs with rfl | rfl
    · exact (by decide +kernel : (scS2 ++ List.replicate 8 1).length + 1 < 2 ^ 64 - 1)
    · decide +kernel

/-- The hypotheses of C87_durable and C87_honest hold: the sample acknowledged by the first life is in the answer of the second, and what is there was sent. -/
example : ∃ c body out, lvAt 0 1 lvTwo.sched = some c ∧ c.sent[1]? = some (some ⟨200, body⟩) ∧ exSnappy.decompress body = some out ∧
    (out.length < 2 ^ 32 → ∃ rs r, (∀ m, IsResponse exRt.utf8 m out ↔ m = rs) ∧ rs[0]? = some r ∧
      (∃ y ∈ r, y.labels = [lbl "a" "1", lbl "b" "2"] ∧ (⟨0x3ff0000000000000#64, 200⟩ : Sample) ∈ y.samples) ∧ (r.map (·.labels)).Nodup) := by
  have hq : ∀ q ∈ [scAsk], (∀ y ∈ q.matchers, WFLabel ⟨y.name, y.value⟩) ∧ (asU64 q.start_).toNat ≤ (asU64 q.end_).toNat := by
    intro q hq
    rw [List.mem_singleton] at hq
    subst hq; exact scAsk_fine
  have hb : ∀ b ∈ lvBase, isCont b = false := by decide
  obtain ⟨c, hc, hcs⟩ := Option.map_eq_some_iff.mp lv_second
  obtain ⟨body, hres⟩ : ∃ body, c.sent[1]? = some (some ⟨200, body⟩) := by rw [hcs]; exact ⟨_, rfl⟩
  have e1 : (lvAt 0 0 []).map (fun c => (c.sent, c.now.isSome, (c.db.threads 0).done)) = some ([], false, []) := by decide +kernel
  have e2 : (lvAt 0 0 scS2).map (fun c => (c.sent, (c.db.threads 0).done)) = some ([some ⟨200, []⟩], []) := by decide +kernel
  obtain ⟨c1, hc1, a1⟩ := Option.map_eq_some_iff.mp e1
  obtain ⟨c2, hc2, a2⟩ := Option.map_eq_some_iff.mp e2
  obtain ⟨c3, hc3, a3⟩ := Option.map_eq_some_iff.mp lv_first
  simp only [Prod.mk.injEq] at a1 a2 a3
  obtain ⟨out, o1, o2⟩ := C87_durable stdBinSearch idealHash exSnappy exRt lvPaths (by decide) lvBase hb [lvOne 0, lvTwo] lvCalls (lv_fine 0) (idealHash_good _)
    0 (lvOne 0) rfl _ rfl [] scS2 (List.replicate 8 1) rfl c1 c2 c3 hc1 hc2 hc3 0 [scSer] rfl (Option.isSome_eq_false_iff.mp a1.2.1) (by rw [a1.1]; rfl)
    (by rw [a2.1]; rfl) scSer (by simp) ⟨0x3ff0000000000000#64, 200⟩ (by simp [scSer])
    (by
      intro k w _ hn hw
      rw [a2.2] at hn
      have : k = 0 := by simpa using hn
      subst this
      simp only [List.getElem?_cons_zero, Option.some.injEq] at hw
      subst hw
      decide +kernel)
    1 (by decide) lvTwo.sched (by decide +kernel) c hc _ rfl 1 [scAsk] rfl _ hres hq 0 (by decide) (by simp [scAsk]) (by decide +kernel) rfl
    (by
      intro cs hcs m hm
      simp only [lvCalls, List.mem_cons, List.not_mem_nil, or_false] at hcs
      rcases hcs with rfl | rfl
      · simp only [List.mem_cons, Call.write.injEq, List.not_mem_nil, or_false] at hm
        rcases hm with rfl | rfl <;> decide +kernel
      · simp only [List.mem_cons, Call.write.injEq, reduceCtorEq, List.not_mem_nil, or_false] at hm
        subst hm; decide +kernel)
    (by
      intro _ m' hm
      rw [a3.1] at hm
      have hm : some (Call.write [lvSer]) = some (.write m') := hm
      simp only [Option.some.injEq, Call.write.injEq] at hm
      subst hm
      decide +kernel)
  obtain ⟨out', q1, q2⟩ := C87_honest stdBinSearch idealHash exSnappy exRt lvPaths (by decide) lvBase hb [lvOne 0, lvTwo] lvCalls (lv_fine 0) (idealHash_good _)
    1 lvTwo.sched (by decide +kernel) c hc _ rfl 1 [scAsk] rfl _ hres hq
  rw [o1, Option.some.injEq] at q1
  subst q1
  refine ⟨c, _, out, hc, hres, o1, fun hl => ?_⟩
  obtain ⟨rs, r, u1, u2, u3⟩ := o2 hl
  obtain ⟨rs', v1, -, v2⟩ := q2 hl
  have : rs' = rs := (u1 rs').mp ((v1 rs').mpr rfl)
  subst this
  have e1 : sortLabels scSer.labels = [lbl "a" "1", lbl "b" "2"] := by decide +kernel
  have e2 : asReported (Sample.point ⟨0x3ff0000000000000#64, 200⟩) = ⟨0x3ff0000000000000#64, 200⟩ := by decide +kernel
  rw [e1, e2] at u3
  exact ⟨rs', r, u1, u2, u3, (v2 0 (by decide) r u2).1⟩

/-- The hypotheses of C87_durable_same hold: the sample of the second life is in its own answer. -/
example : ∃ c body out, lvAt 0 1 lvTwo.sched = some c ∧ c.sent[1]? = some (some ⟨200, body⟩) ∧ exSnappy.decompress body = some out ∧
    (out.length < 2 ^ 32 → ∃ rs r, (∀ m, IsResponse exRt.utf8 m out ↔ m = rs) ∧ rs[0]? = some r ∧
      (∃ y ∈ r, y.labels = [lbl "a" "1"] ∧ (⟨0x4000000000000000#64, 3500⟩ : Sample) ∈ y.samples)) := by
  have hq : ∀ q ∈ [scAsk], (∀ y ∈ q.matchers, WFLabel ⟨y.name, y.value⟩) ∧ (asU64 q.start_).toNat ≤ (asU64 q.end_).toNat := by
    intro q hq
    rw [List.mem_singleton] at hq
    subst hq; exact scAsk_fine
  obtain ⟨c, hc, hcs⟩ := Option.map_eq_some_iff.mp lv_second
  obtain ⟨body, hres⟩ : ∃ body, c.sent[1]? = some (some ⟨200, body⟩) := by rw [hcs]; exact ⟨_, rfl⟩
  have e1 : (lvAt 0 1 []).map (fun c => (c.sent, c.now.isSome, (c.db.threads 0).done)) = some ([], false, []) := by decide +kernel
  have e2 : (lvAt 0 1 (List.replicate 25 1)).map (fun c => (c.sent, (c.db.threads 0).done)) = some ([some ⟨200, []⟩], []) := by decide +kernel
  obtain ⟨c1, hc1, a1⟩ := Option.map_eq_some_iff.mp e1
  obtain ⟨c2, hc2, a2⟩ := Option.map_eq_some_iff.mp e2
  simp only [Prod.mk.injEq] at a1 a2
  obtain ⟨out, o1, o2⟩ := C87_durable_same stdBinSearch idealHash exSnappy exRt lvPaths (by decide) lvBase (by decide) [lvOne 0, lvTwo] lvCalls (lv_fine 0) (idealHash_good _)
    1 lvTwo rfl _ rfl [] (List.replicate 25 1) (List.replicate 35 1) (by decide +kernel) c1 c2 c hc1 hc2 hc 0 1 (by decide) _ rfl
    (Option.isSome_eq_false_iff.mp a1.2.1) (by rw [a1.1]; rfl)
    (by rw [a2.1]; rfl) ⟨[lbl "a" "1"], [⟨0x4000000000000000#64, 3500⟩]⟩ (by simp) ⟨0x4000000000000000#64, 3500⟩ (by simp)
    (by
      intro k w _ hn hw
      rw [a2.2] at hn
      have : k = 0 := by simpa using hn
      subst this
      simp only [List.getElem?_cons_zero, Option.some.injEq] at hw
      subst hw
      decide +kernel)
    [scAsk] rfl _ hres hq 0 (by decide) (by simp [scAsk]) (by decide +kernel) rfl
    (by
      intro m hm
      simp only [List.mem_cons, Call.write.injEq, reduceCtorEq, List.not_mem_nil, or_false] at hm
      subst hm; decide +kernel)
  refine ⟨c, _, out, hc, hres, o1, fun hl => ?_⟩
  obtain ⟨rs, r, u1, u2, u3⟩ := o2 hl
  have e1 : sortLabels [lbl "a" "1"] = [lbl "a" "1"] := by decide +kernel
  have e2 : asReported (Sample.point ⟨0x4000000000000000#64, 3500⟩) = ⟨0x4000000000000000#64, 3500⟩ := by decide +kernel
  rw [e1, e2] at u3
  exact ⟨rs, r, u1, u2, u3⟩

/-- The hypotheses of C87_opens hold; if the first life is killed after one step of the swap that was to come, those of C87_stuck do. -/
example : (∀ sched, ∃ c, lvAt 0 1 sched = some c) ∧ ∀ sched, lvAt 1 1 sched = none := by
  refine ⟨fun sched => C87_opens stdBinSearch idealHash exSnappy exRt lvPaths (by decide) lvBase (by decide) [lvOne 0, lvTwo] lvCalls (lv_fine 0) (idealHash_good _)
    1 lvTwo rfl (by decide) (by decide) sched, fun sched => ?_⟩
  have e : (lvAt 1 0 (lvOne 1).sched).map (fun c => (c.db.threads 0).now.isNone && decide ((c.db.threads 0).todo = [.swap 1001#64 2001#64])) = some true := by decide +kernel
  obtain ⟨c, hc, h⟩ := Option.map_eq_some_iff.mp e
  simp only [Bool.and_eq_true, Option.isNone_iff_eq_none, decide_eq_true_eq] at h
  exact C87_stuck stdBinSearch idealHash (pbFormats exSnappy exRt) lvPaths lvBase (by decide) [lvOne 1, lvTwo] (lv_fine 1).order 0 1 (by decide) (lvOne 1) rfl
    (Or.inr ⟨c, 1001#64, 2001#64, [], hc, h.1, h.2, Or.inl rfl⟩) sched

/-- What the second life finds is as C84_reopened and C85_reopened ask, and contributes. -/
example : ∃ A K, readExistingChunks lvBase lvTwo.clock (lvTwo.order (lives stdBinSearch idealHash (pbFormats exSnappy exRt) lvPaths lvBase [lvOne 0])) = some A ∧
    Forall₂ (Frozen stdKit K) A (A.map (contribution stdKit)) ∧
    A.map (fun c => (contribution stdKit c [lbl "a" "1"] 0#64 10000#64).map fun x => (x.labels, x.points)) = [[([lbl "a" "1", lbl "b" "2"], [⟨200#64, 0x3ff0000000000000#64⟩])]] := by
  have hok := lives_ok (B := stdBinSearch) (H := idealHash) (sn := exSnappy) (rt := exRt) (P := lvPaths) (base := lvBase) (ss := [lvOne 0, lvTwo]) (calls := lvCalls)
    (by decide) (by decide) (lv_fine 0) (idealHash_good _) 1 (by decide)
  have e : (readExistingChunks lvBase lvTwo.clock (lvTwo.order (lives stdBinSearch idealHash (pbFormats exSnappy exRt) lvPaths lvBase [lvOne 0]))).map
      (fun A => A.map fun c => (contribution stdKit c [lbl "a" "1"] 0#64 10000#64).map fun x => (x.labels, x.points)) = some [[([lbl "a" "1", lbl "b" "2"], [⟨200#64, 0x3ff0000000000000#64⟩])]] := by
    decide +kernel
  obtain ⟨A, hA, h⟩ := Option.map_eq_some_iff.mp e
  exact ⟨A, _, hA, ((hok.perm (List.reverse_perm _)).frozen (by decide) hA).1, h⟩

/-- The second life answers its requests. -/
example : ∃ s' c, lvAt 0 1 s' = some c ∧ (none ∈ c.sent ∨ c.sent.length = 2) := by
  obtain ⟨c0, h0⟩ := C87_opens stdBinSearch idealHash exSnappy exRt lvPaths (by decide) lvBase (by decide) [lvOne 0, lvTwo] lvCalls (lv_fine 0) (idealHash_good _)
    1 lvTwo rfl (by decide) (by decide) []
  obtain ⟨k, s', c, -, h1, -, h2⟩ := C87_answered fstrict fstrict_fine stdBinSearch idealHash (pbFormats exSnappy exRt) lvPaths lvBase [lvOne 0, lvTwo] 1 lvTwo rfl c0 h0
    (fun k => k % 2) (fun u k hu => ⟨2 * k + u, by omega, by omega⟩)
  exact ⟨s', c, h1, h2.imp_right fun h => h.1⟩

end Verif
