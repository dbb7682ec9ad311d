import Verif.Lemmas.AgainLives
import Verif.Props.Sessions
/-! C91 over several lives of a server. -/
namespace Verif
open List

/-- C91 across kills and restarts: an answer of life `n`, sent before the kill, reports a sample. Then every answer of every later life to a query from time 0 to a time not before
anything sent, by some of the labels of its series, reports it as well (wherever it came from: this life or an earlier one), unless the kill of this or an earlier life interrupted
a write request with a series with one of the labels asked for. -/
theorem C91_partial_lives (B : BinSearch) (H : Hash) (sn : Snappy) (rt : PbRt) (P : Paths) (hP : P.read ≠ P.write) (base : Str) (hb : ∀ b ∈ base, isCont b = false)
    (ss : List Session) (calls : List (List Call)) (hL : FineLives sn rt P ss calls)
    (hH : H.Good fun k => ∃ cs ∈ calls, ∃ m s, Call.write m ∈ cs ∧ s ∈ m ∧ k = sortLabels s.labels)
    (n : Nat) (s : Session) (hs : ss[n]? = some s) (cs : List Call) (hcs : calls[n]? = some cs)
    (s1 s2 : List Nat) (hsch : s.sched = s1 ++ s2) (c : SrvConf) (hc : serverOf B H (pbFormats sn rt) P base ss n s1 = some c)
    (i : Nat) (qs : List PQuery) (hi : cs[i]? = some (.read qs)) (body : Str) (hres : c.sent[i]? = some (some ⟨200, body⟩))
    (hqs : ∀ q ∈ qs, (∀ y ∈ q.matchers, WFLabel ⟨y.name, y.value⟩) ∧ (asU64 q.start_).toNat ≤ (asU64 q.end_).toNat)
    (out : Str) (ho : sn.decompress body = some out) (hl : out.length < 2 ^ 32) (rs : List (List PSeries)) (hrs : IsResponse rt.utf8 rs out)
    (r : List PSeries) (hr : r ∈ rs) (y : PSeries) (hy : y ∈ r) (z : Sample) (hz : z ∈ y.samples)
    (n2 : Nat) (hn2 : n < n2) (sched : List Nat) (hlen : sched.length < 2 ^ 64 - 1) (d : SrvConf)
    (hd : serverOf B H (pbFormats sn rt) P base ss n2 sched = some d) (cs2 : List Call) (hcs2 : calls[n2]? = some cs2)
    (j : Nat) (qs' : List PQuery) (hj : cs2[j]? = some (.read qs')) (body' : Str) (hres' : d.sent[j]? = some (some ⟨200, body'⟩))
    (hqs' : ∀ q ∈ qs', (∀ y ∈ q.matchers, WFLabel ⟨y.name, y.value⟩) ∧ (asU64 q.start_).toNat ≤ (asU64 q.end_).toNat)
    (k : Nat) (hk : k < qs'.length) (hne : qs'[k].matchers ≠ []) (hsub : ∀ x ∈ qs'[k].matchers, (⟨x.name, x.value⟩ : Label) ∈ y.labels)
    (h0 : qs'[k].start_ = 0)
    (hcov : ∀ cs ∈ calls, ∀ m, Call.write m ∈ cs → ∀ s ∈ m, ∀ x ∈ s.samples, x.point.ts.toNat ≤ (asU64 qs'[k].end_).toNat)
    (hcut : ∀ n' ≤ n, ∀ c' cs', serverEnd B H (pbFormats sn rt) P base ss n' = some c' → calls[n']? = some cs' → c'.now.isSome = true →
      ∀ m', cs'[c'.sent.length]? = some (.write m') → ∀ ser' ∈ m', ∀ x ∈ qs'[k].matchers, (⟨x.name, x.value⟩ : Label) ∉ ser'.labels) :
    ∃ out', sn.decompress body' = some out' ∧ (out'.length < 2 ^ 32 → ∃ rs' r', (∀ m, IsResponse rt.utf8 m out' ↔ m = rs') ∧ rs'[k]? = some r' ∧
      ∃ y' ∈ r', y'.labels = y.labels ∧ z ∈ y'.samples) := by
  have hst := hL.steps s (List.mem_of_getElem? hs)
  obtain ⟨hn, -⟩ := List.getElem?_eq_some_iff.mp hs
  obtain ⟨hn2', -⟩ := List.getElem?_eq_some_iff.mp hcs2
  rw [← hL.means.length_eq] at hn2'
  have hok := lives_ok (B := B) hP hb hL hH n (by omega)
  obtain ⟨hborn, A, hA, rfl⟩ := opened_eq _ hs hc
  have core := life_core hP hb hL hH hs hcs hok hA
  have hl1 := hsch ▸ hst
  have D1 := (core s1 (by simp at hl1; omega)).1
  have hcut' : ∀ n0 ≤ n + 1, ∀ ls, CutBefore B H sn rt P base ss calls n0 ls → ∀ x ∈ qs'[k].matchers, (⟨x.name, x.value⟩ : Label) ∉ ls := by
    rintro n0 hn0 ls ⟨n', c', cs', m', ser', a1, a2, a3, a4, a5, a6, rfl⟩
    exact hcut n' (by omega) c' cs' a2 a3 a4 m' a5 ser' a6
  obtain ⟨n1, hn1, rfl⟩ := List.mem_iff_getElem.mp hr
  rcases shown_from (hL.fine cs (List.mem_of_getElem? hcs)) D1 hi hres hqs ho hl hrs (List.getElem?_eq_getElem hn1) hy hz with
    ⟨p, op, w, p1, p2, p3, p4, p5, rfl⟩ | ⟨q, hq, f, hf, x, hx, p1, p, hp, rfl⟩
  · obtain ⟨-, S3⟩ := core s.sched (by omega)
    have hg := (srv_grow (Kit.sled B) H sn rt P A s.now (s.now + s.size) s.ticks s.reqs s1 s2).1
    rw [← hsch] at hg
    obtain ⟨t, ht⟩ := ((List.prefix_append p [op]).trans p1).trans hg
    obtain ⟨e, he, hwe⟩ : ∃ e ∈ ((SeqDb.fresh s.now (s.now + s.size)).run (srvLin (Kit.sled B) H (pbFormats sn rt) P
        (SrvConf.startOn A s.now (s.now + s.size) s.ticks s.reqs) s.sched)).all, w ∈ e.h := by
      rw [← ht, SeqDb.run_append]
      exact SeqDb.run_keeps p4 t
    obtain ⟨a, S, a1, a2, a3, a4⟩ := S3.stored he hwe
    have hleft := own_left hP hb hL hH hs hcs hborn hA rfl a1 a2
    have hmem : (⟨encodeChunkDir S.store.start_ S.store.end_, .complete, S.store.store⟩ : Slot) ∈ lives B H (pbFormats sn rt) P base (ss.take (n + 1)) := by
      rw [lives_succ _ hs]
      unfold Session.leaves
      rw [hA]
      simp only []
      rw [if_neg (by omega)]
      refine List.mem_append_right _ (List.mem_append_left _ (List.mem_map.mpr ⟨S, ?_, rfl⟩))
      refine List.mem_of_getElem? (i := a - A.length) ?_
      rw [List.getElem?_drop, Nat.add_sub_cancel' a1]
      exact a2
    have hmem2 := lives_keeps (H := H) hL.order (pbFormats sn rt) (by omega : n + 1 ≤ n2) (by omega) hmem
    have hsub' : ∀ x ∈ qs'[k].matchers, (⟨x.name, x.value⟩ : Label) ∈ w.1 := fun x hx => (sortLabels_perm w.1).mem_iff.mp (p5 ▸ hsub x hx)
    have hset : w ∈ S.settled := by
      rcases hleft.keeps.one with e | ⟨v, e⟩
      · have e : S.started = S.settled := e
        rw [← e]; exact a3
      · have e : S.started = S.settled ++ [v] := e
        rw [e] at a3
        rcases List.mem_append.mp a3 with a3 | a3
        · exact a3
        · rw [List.mem_singleton] at a3
          subst a3
          obtain ⟨x, hx⟩ := List.exists_mem_of_ne_nil _ hne
          exact absurd (hsub' x hx) (hcut' _ (Nat.le_refl _) _ (hleft.torn _ e) x hx)
    rw [p5]
    exact left_shown hP hb hL hH hmem2 hleft hset a4 hlen hd hcs2 hj hres' hqs' hk hne hsub' h0 hcov (hcut' _ (Nat.le_refl _))
  · have hq' := hqs q hq
    obtain ⟨sl, lo, hi', m, w, w1, w2, w3, rfl, w5, w6⟩ := past_left hP hb hL hH hs hA hf (by
      intro l hl'
      obtain ⟨x, hx, rfl⟩ := List.mem_map.mp hl'
      exact hq'.1 x hx) hq'.2 hx hp
    rw [← p1, w5] at hsub ⊢
    exact left_shown hP hb hL hH (lives_keeps (H := H) hL.order (pbFormats sn rt) (by omega : n ≤ n2) (by omega) w1) w2 w3 w6 hlen hd hcs2 hj hres' hqs' hk hne
      (fun x hx => (sortLabels_perm w.1).mem_iff.mp (hsub x hx)) h0 hcov (hcut' _ (Nat.le_succ _))

/-- C91 within a life that began on what earlier lives left: a sample in an answer is in every later answer of this life to a query that covers it as above, unless the kill of an
earlier life interrupted a write request with a series with one of the labels asked for. -/
theorem C91_partial_same_life (B : BinSearch) (H : Hash) (sn : Snappy) (rt : PbRt) (P : Paths) (hP : P.read ≠ P.write) (base : Str) (hb : ∀ b ∈ base, isCont b = false)
    (ss : List Session) (calls : List (List Call)) (hL : FineLives sn rt P ss calls)
    (hH : H.Good fun k => ∃ cs ∈ calls, ∃ m s, Call.write m ∈ cs ∧ s ∈ m ∧ k = sortLabels s.labels)
    (n : Nat) (cs : List Call) (hcs : calls[n]? = some cs)
    (sched : List Nat) (hlen : sched.length < 2 ^ 64 - 1) (c : SrvConf) (hc : serverOf B H (pbFormats sn rt) P base ss n sched = some c)
    (i j : Nat) (hij : i < j) (qs qs' : List PQuery) (hi : cs[i]? = some (.read qs)) (hj : cs[j]? = some (.read qs')) (body body' : Str)
    (hres : c.sent[i]? = some (some ⟨200, body⟩)) (hres' : c.sent[j]? = some (some ⟨200, body'⟩))
    (hqs : ∀ q ∈ qs ++ qs', (∀ y ∈ q.matchers, WFLabel ⟨y.name, y.value⟩) ∧ (asU64 q.start_).toNat ≤ (asU64 q.end_).toNat)
    (out : Str) (ho : sn.decompress body = some out) (hl : out.length < 2 ^ 32) (rs : List (List PSeries)) (hrs : IsResponse rt.utf8 rs out)
    (r : List PSeries) (hr : r ∈ rs) (y : PSeries) (hy : y ∈ r) (z : Sample) (hz : z ∈ y.samples)
    (k : Nat) (hk : k < qs'.length) (hne : qs'[k].matchers ≠ []) (hsub : ∀ x ∈ qs'[k].matchers, (⟨x.name, x.value⟩ : Label) ∈ y.labels)
    (h0 : qs'[k].start_ = 0)
    (hcov : ∀ cs ∈ calls, ∀ m, Call.write m ∈ cs → ∀ s ∈ m, ∀ x ∈ s.samples, x.point.ts.toNat ≤ (asU64 qs'[k].end_).toNat)
    (hcut : ∀ n' < n, ∀ c' cs', serverEnd B H (pbFormats sn rt) P base ss n' = some c' → calls[n']? = some cs' → c'.now.isSome = true →
      ∀ m', cs'[c'.sent.length]? = some (.write m') → ∀ ser' ∈ m', ∀ x ∈ qs'[k].matchers, (⟨x.name, x.value⟩ : Label) ∉ ser'.labels) :
    ∃ out', sn.decompress body' = some out' ∧ (out'.length < 2 ^ 32 → ∃ rs' r', (∀ m, IsResponse rt.utf8 m out' ↔ m = rs') ∧ rs'[k]? = some r' ∧
      ∃ y' ∈ r', y'.labels = y.labels ∧ z ∈ y'.samples) := by
  obtain ⟨hn, -⟩ := List.getElem?_eq_some_iff.mp hcs
  rw [← hL.means.length_eq] at hn
  have hs : ss[n]? = some ss[n] := List.getElem?_eq_getElem hn
  have hok := lives_ok (B := B) hP hb hL hH n (by omega)
  have hfc := hL.fine cs (List.mem_of_getElem? hcs)
  obtain ⟨hborn, A, hA, hcA⟩ := opened_eq _ hs hc
  have D := (life_core hP hb hL hH hs hcs hok hA sched hlen).1
  rw [← hcA] at D
  obtain ⟨n1, hn1, rfl⟩ := List.mem_iff_getElem.mp hr
  rcases shown_from hfc D hi hres (fun q hq => hqs q (List.mem_append_left _ hq)) ho hl hrs (List.getElem?_eq_getElem hn1) hy hz with
    ⟨p, op, w, p1, p2, p3, p4, p5, rfl⟩ | ⟨q, hq, f, hf, x, hx, p1, p, hp, rfl⟩
  · rw [p5] at hsub ⊢
    exact held_shown hfc D hij p1 p2 p3 p4 hj hres' (fun q hq => hqs q (List.mem_append_right _ hq)) k hk hne
      (fun x hx => (sortLabels_perm w.1).mem_iff.mp (hsub x hx)) h0 (hcov cs (List.mem_of_getElem? hcs))
  · have hq' := hqs q (List.mem_append_left _ hq)
    obtain ⟨sl, lo, hi', m, w, w1, w2, w3, rfl, w5, w6⟩ := past_left hP hb hL hH hs hA hf (by
      intro l hl'
      obtain ⟨x, hx, rfl⟩ := List.mem_map.mp hl'
      exact hq'.1 x hx) hq'.2 hx hp
    rw [← p1, w5] at hsub ⊢
    refine left_shown hP hb hL hH w1 w2 w3 w6 hlen hc hcs hj hres' (fun q hq => hqs q (List.mem_append_right _ hq)) hk hne
      (fun x hx => (sortLabels_perm w.1).mem_iff.mp (hsub x hx)) h0 hcov ?_
    rintro ls ⟨n', c', cs', m', ser', a1, a2, a3, a4, a5, a6, rfl⟩
    exact hcut n' a1 c' cs' a2 a3 a4 m' a5 ser' a6

/-! ### Two lives -/

def alAskB : PQuery := ⟨0, 10000, [⟨.eq, (lbl "b" "2").key, (lbl "b" "2").value⟩]⟩
/-- Shares a label with the first series. -/
def alSer : PSeries := ⟨[lbl "a" "1"], [⟨0x4000000000000000#64, 300⟩]⟩
/-- The first life: a write, a read; a second write is interrupted. -/
def alOne : Session := ⟨id, fun _ => 0#64, 0#64, 1000#64, 3, [], [⟨[119#8], some (encWrite [scSer])⟩, ⟨[114#8], some (encRead [scAsk])⟩, ⟨[119#8], some (encWrite [alSer])⟩],
  scS2 ++ List.replicate 11 1 ++ List.replicate 11 1, 0⟩
/-- The second: two reads. -/
def alTwo : Session := ⟨List.reverse, fun _ => 3000#64, 3000#64, 1000#64, 3, [], [⟨[114#8], some (encRead [alAskB, scAsk])⟩, ⟨[114#8], some (encRead [alAskB])⟩], List.replicate 80 1, 0⟩
def alCalls : List (List Call) := [[.write [scSer], .read [scAsk], .write [alSer]], [.read [alAskB, scAsk], .read [alAskB]]]
def alAt (n : Nat) (sched : List Nat) : Option SrvConf :=
  serverOf stdBinSearch idealHash (pbFormats exSnappy exRt) lvPaths lvBase [alOne, alTwo] n sched

attribute [local irreducible] SrvConf.run

/-- The series both writes are about, as an answer has it. -/
def alOut : PSeries := ⟨[lbl "a" "1", lbl "b" "2"], [⟨0x3ff0000000000000#64, 200⟩]⟩

theorem al_first : (alAt 0 (scS2 ++ List.replicate 11 1)).map (·.sent) = some [some ⟨200, []⟩, some ⟨200, (pbFormats exSnappy exRt).respond [[alOut]]⟩] := by decide +kernel
theorem al_killed : (alAt 0 alOne.sched).map (fun c => (c.sent.length, c.now.isSome)) = some (2, true) := by decide +kernel
theorem al_second : (alAt 1 alTwo.sched).map (·.sent) = some [some ⟨200, (pbFormats exSnappy exRt).respond [[alOut], []]⟩,
    some ⟨200, (pbFormats exSnappy exRt).respond [[alOut]]⟩] := by decide +kernel

/-- C91 is violated across a kill, even for a client that sends one request at a time: the first life answers `scAsk` (by the label `a=1`) with the sample, is killed during a write of another
series with the label `a=1`, and the second life answers `scAsk` with nothing. The sample is still there: the same answer reports it for `b=2`. -/
theorem C91_violated_lives :
    (∃ c, alAt 0 (scS2 ++ List.replicate 11 1) = some c ∧ c.sent[1]? = some (some ⟨200, (pbFormats exSnappy exRt).respond [[alOut]]⟩)) ∧
    (∃ d, alAt 1 alTwo.sched = some d ∧ d.sent[0]? = some (some ⟨200, (pbFormats exSnappy exRt).respond [[alOut], []]⟩)) := by
  obtain ⟨c, hc, h1⟩ := Option.map_eq_some_iff.mp al_first
  obtain ⟨d, hd, h2⟩ := Option.map_eq_some_iff.mp al_second
  exact ⟨⟨c, hc, by rw [h1]; rfl⟩, ⟨d, hd, by rw [h2]; rfl⟩⟩

theorem al_fine : FineLives exSnappy exRt lvPaths [alOne, alTwo] alCalls := by
  have hw : ∀ m : List PSeries, m.map wireSeries = m → (∀ s ∈ m, ∀ x ∈ s.samples, -2 ^ 63 ≤ x.timestamp ∧ x.timestamp < 2 ^ 63) → (encWrite m).length < 2 ^ 32 →
      IsWrite exRt.utf8 m (encWrite m) := by
    intro m e h hl
    have := encWrite_is (utf8 := exRt.utf8) (m := m) (fun s hs => ⟨fun _ _ => ⟨rfl, rfl⟩, fun x hx => h s hs x hx⟩) hl
    rwa [e] at this
  have hr : ∀ m : List PQuery, (∀ q ∈ m, (-2 ^ 63 ≤ q.start_ ∧ q.start_ < 2 ^ 63) ∧ (-2 ^ 63 ≤ q.end_ ∧ q.end_ < 2 ^ 63)) → (encRead m).length < 2 ^ 32 →
      IsRead exRt.utf8 m (encRead m) := fun m h hl => encRead_is (fun q hq => ⟨(h q hq).1, (h q hq).2, fun _ _ => ⟨rfl, rfl⟩⟩) hl
  refine ⟨.cons (.cons ⟨rfl, _, _, rfl, rfl, hw _ (by decide +kernel) (by decide +kernel) (by decide +kernel)⟩
    (.cons ⟨rfl, _, _, rfl, rfl, hr _ (by decide +kernel) (by decide +kernel)⟩
    (.cons ⟨rfl, _, _, rfl, rfl, hw _ (by decide +kernel) (by decide +kernel) (by decide +kernel)⟩ .nil)))
    (.cons (.cons ⟨rfl, _, _, rfl, rfl, hr _ (by decide +kernel) (by decide +kernel)⟩
    (.cons ⟨rfl, _, _, rfl, rfl, hr _ (by decide +kernel) (by decide +kernel)⟩ .nil)) .nil), ?_, ?_, ?_, (by decide +kernel : ([(0#64, 1000#64), (3000#64, 4000#64)] : List (U64 × U64)).Nodup)⟩
  · intro cs hcs
    simp only [alCalls, List.mem_cons, List.not_mem_nil, or_false] at hcs
    rcases hcs with rfl | rfl
    · refine ⟨⟨?_, fun ls => incr_pointsFor (by unfold SIncr; decide +kernel) ls, by decide +kernel⟩, by simp, by simp⟩
      intro ls ps h
      simp only [List.flatMap_cons, List.flatMap_nil, Call.ops, List.map_cons, List.map_nil, List.cons_append, List.nil_append, List.mem_cons, List.not_mem_nil,
        DbOp.write.injEq, reduceCtorEq, false_or, or_false] at h
      rcases h with ⟨rfl, -⟩ | ⟨rfl, -⟩ <;> exact wfSet_of (by decide +kernel)
    · refine ⟨⟨?_, fun ls => incr_pointsFor (by unfold SIncr; decide +kernel) ls, by decide +kernel⟩, by simp, by simp⟩
      intro ls ps h
      simp [Call.ops] at h
  · intro s hs l
    simp only [List.mem_cons, List.not_mem_nil, or_false] at hs
    rcases hs with rfl | rfl
    · exact List.Perm.refl _
    · exact List.reverse_perm _
  · intro s hs
    simp only [List.mem_cons, List.not_mem_nil, or_false] at hs
    rcases hs with rfl | rfl
    · exact (by decide +kernel : (scS2 ++ List.replicate 11 1 ++ List.replicate 11 1).length + 1 < 2 ^ 64 - 1)
    · exact (by decide +kernel : (List.replicate 80 1).length + 1 < 2 ^ 64 - 1)

theorem alAskB_fine : (∀ y ∈ alAskB.matchers, WFLabel ⟨y.name, y.value⟩) ∧ (asU64 alAskB.start_).toNat ≤ (asU64 alAskB.end_).toNat := by
  refine ⟨?_, by decide +kernel⟩
  intro y hy
  rw [List.mem_singleton.mp hy]
  exact wfLabel_of (by decide +kernel)

theorem al_cov : ∀ cs ∈ alCalls, ∀ m, Call.write m ∈ cs → ∀ s ∈ m, ∀ x ∈ s.samples, x.point.ts.toNat ≤ (asU64 alAskB.end_).toNat := by
  intro cs hcs m hm
  simp only [alCalls, List.mem_cons, List.not_mem_nil, or_false] at hcs
  rcases hcs with rfl | rfl
  · simp only [List.mem_cons, Call.write.injEq, reduceCtorEq, List.not_mem_nil, or_false, false_or] at hm
    rcases hm with rfl | rfl <;> decide +kernel
  · simp at hm

theorem al_resp (rs : List (List PSeries)) (h : rs = [[alOut]] ∨ rs = [[alOut], []]) :
    ∃ out, exSnappy.decompress ((pbFormats exSnappy exRt).respond rs) = some out ∧ out.length < 2 ^ 32 ∧ IsResponse exRt.utf8 rs out := by
  have hok : SeriesOk exRt.utf8 alOut := ⟨fun _ _ => ⟨rfl, rfl⟩, by unfold I64; decide +kernel⟩
  rcases h with rfl | rfl
  · obtain ⟨out, h1, h2⟩ := C60_response_partial exSnappy exRt [[alOut]] (by simp [hok]) (by decide +kernel)
    obtain ⟨o, ho, hl⟩ : ∃ o, exSnappy.decompress ((pbFormats exSnappy exRt).respond [[alOut]]) = some o ∧ o.length < 2 ^ 32 := ⟨_, rfl, by decide +kernel⟩
    rw [h1, Option.some.injEq] at ho
    exact ⟨out, h1, ho ▸ hl, (h2 _).mpr (by decide +kernel)⟩
  · obtain ⟨out, h1, h2⟩ := C60_response_partial exSnappy exRt [[alOut], []] (by simp [hok]) (by decide +kernel)
    obtain ⟨o, ho, hl⟩ : ∃ o, exSnappy.decompress ((pbFormats exSnappy exRt).respond [[alOut], []]) = some o ∧ o.length < 2 ^ 32 := ⟨_, rfl, by decide +kernel⟩
    rw [h1, Option.some.injEq] at ho
    exact ⟨out, h1, ho ▸ hl, (h2 _).mpr (by decide +kernel)⟩

/-- The write that the kill of the first life interrupted has no label `b=2`. -/
theorem al_cut (n : Nat) (hn : n ≤ 1) : ∀ n' < n, ∀ c' cs', serverEnd stdBinSearch idealHash (pbFormats exSnappy exRt) lvPaths lvBase [alOne, alTwo] n' = some c' →
    alCalls[n']? = some cs' → c'.now.isSome = true → ∀ m', cs'[c'.sent.length]? = some (.write m') → ∀ ser' ∈ m', ∀ x ∈ alAskB.matchers,
      (⟨x.name, x.value⟩ : Label) ∉ ser'.labels := by
  intro n' hn' c' cs' hc' hcs' _ m' hm' ser' hser' x hx
  obtain rfl : n' = 0 := by omega
  obtain ⟨c, hc, hcl⟩ := Option.map_eq_some_iff.mp al_killed
  have hc : serverEnd stdBinSearch idealHash (pbFormats exSnappy exRt) lvPaths lvBase [alOne, alTwo] 0 = some c := hc
  rw [hc', Option.some.injEq] at hc
  subst hc
  rw [Prod.mk.injEq] at hcl
  rw [hcl.1] at hm'
  simp only [alCalls, List.getElem?_cons_zero, Option.some.injEq] at hcs'
  subst hcs'
  simp only [List.getElem?_cons_succ, List.getElem?_cons_zero, Option.some.injEq, Call.write.injEq] at hm'
  subst hm'
  rw [List.mem_singleton] at hser'
  subst hser'
  simp only [alAskB, List.mem_singleton] at hx
  subst hx
  decide +kernel

/-- The hypotheses of C91_partial_lives hold: what the first life's answer reports for `a=1`, the second life's second answer reports for `b=2`. -/
example : ∃ d body' out', alAt 1 alTwo.sched = some d ∧ d.sent[1]? = some (some ⟨200, body'⟩) ∧ exSnappy.decompress body' = some out' ∧ (out'.length < 2 ^ 32 →
    ∃ rs' r', (∀ m, IsResponse exRt.utf8 m out' ↔ m = rs') ∧ rs'[0]? = some r' ∧ ∃ y' ∈ r', y'.labels = alOut.labels ∧ (⟨0x3ff0000000000000#64, 200⟩ : Sample) ∈ y'.samples) := by
  obtain ⟨c, hc, hcs⟩ := Option.map_eq_some_iff.mp al_first
  obtain ⟨d, hd, hds⟩ := Option.map_eq_some_iff.mp al_second
  obtain ⟨out, o1, o2, o3⟩ := al_resp [[alOut]] (Or.inl rfl)
  have hres : c.sent[1]? = some (some ⟨200, (pbFormats exSnappy exRt).respond [[alOut]]⟩) := by rw [hcs]; rfl
  have hres' : d.sent[1]? = some (some ⟨200, (pbFormats exSnappy exRt).respond [[alOut]]⟩) := by rw [hds]; rfl
  obtain ⟨out', q1, q2⟩ := C91_partial_lives stdBinSearch idealHash exSnappy exRt lvPaths (by decide) lvBase (by decide) [alOne, alTwo] alCalls al_fine (idealHash_good _)
    0 alOne rfl _ rfl (scS2 ++ List.replicate 11 1) (List.replicate 11 1) rfl c hc 1 [scAsk] rfl _ hres (by intro q hq; rw [List.mem_singleton.mp hq]; exact scAsk_fine)
    out o1 o2 _ o3 [alOut] (by simp) alOut (by simp) ⟨0x3ff0000000000000#64, 200⟩ (by simp [alOut]) 1 (by decide) alTwo.sched
    (by decide +kernel : (List.replicate 80 1).length < 2 ^ 64 - 1) d hd _ rfl 1 [alAskB] rfl _ hres' (by intro q hq; rw [List.mem_singleton.mp hq]; exact alAskB_fine)
    0 (by decide) (by simp [alAskB]) (by decide +kernel) rfl al_cov (fun n' hn' => al_cut 1 (Nat.le_refl _) n' (by omega))
  exact ⟨d, _, out', hd, hres', q1, q2⟩

/-- The hypotheses of C91_partial_same_life hold: the two answers of the second life. -/
example : ∃ d body' out', alAt 1 alTwo.sched = some d ∧ d.sent[1]? = some (some ⟨200, body'⟩) ∧ exSnappy.decompress body' = some out' ∧ (out'.length < 2 ^ 32 →
    ∃ rs' r', (∀ m, IsResponse exRt.utf8 m out' ↔ m = rs') ∧ rs'[0]? = some r' ∧ ∃ y' ∈ r', y'.labels = alOut.labels ∧ (⟨0x3ff0000000000000#64, 200⟩ : Sample) ∈ y'.samples) := by
  obtain ⟨d, hd, hds⟩ := Option.map_eq_some_iff.mp al_second
  obtain ⟨out, o1, o2, o3⟩ := al_resp [[alOut], []] (Or.inr rfl)
  have hres : d.sent[0]? = some (some ⟨200, (pbFormats exSnappy exRt).respond [[alOut], []]⟩) := by rw [hds]; rfl
  have hres' : d.sent[1]? = some (some ⟨200, (pbFormats exSnappy exRt).respond [[alOut]]⟩) := by rw [hds]; rfl
  obtain ⟨out', q1, q2⟩ := C91_partial_same_life stdBinSearch idealHash exSnappy exRt lvPaths (by decide) lvBase (by decide) [alOne, alTwo] alCalls al_fine (idealHash_good _)
    1 _ rfl alTwo.sched (by decide +kernel : (List.replicate 80 1).length < 2 ^ 64 - 1) d hd 0 1 (by decide) [alAskB, scAsk] [alAskB] rfl rfl _ _ hres hres'
    (by
      intro q hq
      simp only [List.cons_append, List.nil_append, List.mem_cons, List.not_mem_nil, or_false] at hq
      rcases hq with rfl | rfl | rfl
      · exact alAskB_fine
      · exact scAsk_fine
      · exact alAskB_fine)
    out o1 o2 _ o3 [alOut] (by simp) alOut (by simp) ⟨0x3ff0000000000000#64, 200⟩ (by simp [alOut])
    0 (by decide) (by simp [alAskB]) (by decide +kernel) rfl al_cov (al_cut 1 (Nat.le_refl _))
  exact ⟨d, _, out', hd, hres', q1, q2⟩

end Verif
