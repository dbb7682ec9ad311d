import Verif.Lemmas.Again
import Verif.Lemmas.Sessions
/-! What one life of a server has shown later lives show again. -/
namespace Verif
open List

/-- A sample in an answer is held by the sequential database that the query was made on, or comes from an older chunk. -/
theorem shown_from {sn : Snappy} {rt : PbRt} {past : Past} {lo hi : U64} {ticks : List (U64 × U64)} {calls : List Call} {c : SrvConf} {L : List DbOp} {N : List Nat}
    (hf : FineCalls rt calls) (D : OneOrder sn rt past lo hi ticks calls c L N) {j : Nat} {qs : List PQuery} (hj : calls[j]? = some (.read qs)) {body : Str}
    (hres : c.sent[j]? = some (some ⟨200, body⟩))
    (hqs : ∀ q ∈ qs, (∀ y ∈ q.matchers, WFLabel ⟨y.name, y.value⟩) ∧ (asU64 q.start_).toNat ≤ (asU64 q.end_).toNat)
    {out : Str} (ho : sn.decompress body = some out) (hl : out.length < 2 ^ 32) {rs : List (List PSeries)} (hrs : IsResponse rt.utf8 rs out)
    {k : Nat} {r : List PSeries} (hr : rs[k]? = some r) {y : PSeries} (hy : y ∈ r) {z : Sample} (hz : z ∈ y.samples) :
    (∃ p op w, p ++ [op] <+: L ∧ op.isSwap = false ∧ (p.filter fun x => !x.isSwap).length < (N.take (j + 1)).sum ∧
      (∃ d ∈ ((SeqDb.fresh lo hi).run p).all, w ∈ d.h) ∧ y.labels = sortLabels w.1 ∧ z = asReported w.2) ∨
    ∃ q ∈ qs, ∃ f ∈ past, ∃ s ∈ f (q.matchers.map fun x => ⟨x.name, x.value⟩) (asU64 q.start_) (asU64 q.end_), s.labels = y.labels ∧
      ∃ p ∈ s.points, z = asReported p := by
  obtain ⟨-, -, d0, d3, -, -, d4⟩ := D
  obtain ⟨hj3, -⟩ := List.getElem?_eq_some_iff.mp hres
  obtain ⟨ps, f1, f2, f3⟩ := d4 j N[j] _ _ hj (List.getElem?_eq_getElem (by omega)) hres
  obtain ⟨body', out', g1, g2, rs', g3, g4, g5, g6⟩ := f3 hqs
  simp only [Option.some.injEq, Response.mk.injEq, true_and] at g1
  subst g1
  rw [ho] at g2
  obtain rfl := Option.some.inj g2
  obtain rfl := (g6 hl rs).mp hrs
  rw [List.length_map] at g3
  have hk' : k < rs.length := (List.getElem?_eq_some_iff.mp hr).1
  have hk : k < qs.length := by omega
  have hkp : k < ps.length := by omega
  obtain ⟨es, u1, u2⟩ := g5 k ((SeqDb.fresh lo hi).run ps[k]) qs[k] r (by rw [List.getElem?_map, List.getElem?_eq_getElem hkp]; rfl) (List.getElem?_eq_getElem hk) hr
  obtain ⟨r1, op', r2, r3⟩ := f2 k ps[k] (List.getElem?_eq_getElem hkp)
  have hNj : N.take (j + 1) = N.take j ++ [N[j]] := List.take_succ_eq_append_getElem (by omega)
  have hfrom : ∀ d ∈ ((SeqDb.fresh lo hi).run ps[k]).all, ∀ w ∈ d.h, WFSet w.1 ∧ inside d.lo d.hi w.2 = true := by
    intro d hd w hw
    obtain ⟨pts, y1, y2, y3⟩ := SeqDb.run_from hd hw
    exact ⟨hf.client.wf _ _ (d0.subset (List.mem_filter.mpr ⟨((List.prefix_append _ _).trans r3).subset y1, rfl⟩)), y3⟩
  have key : ∀ ds : List Desc, (∀ d ∈ ds, d ∈ ((SeqDb.fresh lo hi).run ps[k]).all) → IsMerge ((past.map fun f => f (qs[k].matchers.map fun x => ⟨x.name, x.value⟩)
      (asU64 qs[k].start_) (asU64 qs[k].end_)) ++ ds.map fun d => d.answer sledAccepts
      (qs[k].matchers.map fun x => ⟨x.name, x.value⟩) (asU64 qs[k].start_) (asU64 qs[k].end_)) es →
      (∃ w, (∃ d ∈ ((SeqDb.fresh lo hi).run ps[k]).all, w ∈ d.h) ∧ y.labels = sortLabels w.1 ∧ z = asReported w.2) ∨
      ∃ f ∈ past, ∃ s ∈ f (qs[k].matchers.map fun x => ⟨x.name, x.value⟩) (asU64 qs[k].start_) (asU64 qs[k].end_), s.labels = y.labels ∧
        ∃ p ∈ s.points, z = asReported p := by
    intro ds hds hm
    rw [u2] at hy
    obtain ⟨⟨ls, ps'⟩, he, rfl⟩ := List.mem_map.mp hy
    obtain ⟨p, hpp, rfl⟩ := List.mem_map.mp hz
    obtain ⟨-, rfl⟩ := (hm.entries ls ps').mp he
    obtain ⟨s, hs', hps⟩ := List.mem_flatMap.mp hpp
    obtain ⟨a, ha, hs''⟩ := List.mem_flatMap.mp hs'
    rw [List.mem_filter, decide_eq_true_eq] at hs''
    rcases List.mem_append.mp ha with ha | ha
    · obtain ⟨f, hf', rfl⟩ := List.mem_map.mp ha
      exact Or.inr ⟨f, hf', s, hs''.1, hs''.2, p, hps, rfl⟩
    · obtain ⟨d, hd, rfl⟩ := List.mem_map.mp ha
      obtain ⟨w, hw, v1, v2, -, -⟩ := answer_held (c := ⟨d.lo, d.hi, d.hi, d.h⟩) (fun w hw => hfrom d (hds d hd) w hw) hs''.1 hps
      exact Or.inl ⟨w, ⟨d, hds d hd, hw⟩, hs''.2.symm.trans v2.symm, by rw [v1]⟩
  have hw : (∃ w, (∃ d ∈ ((SeqDb.fresh lo hi).run ps[k]).all, w ∈ d.h) ∧ y.labels = sortLabels w.1 ∧ z = asReported w.2) ∨
      ∃ f ∈ past, ∃ s ∈ f (qs[k].matchers.map fun x => ⟨x.name, x.value⟩) (asU64 qs[k].start_) (asU64 qs[k].end_), s.labels = y.labels ∧
        ∃ p ∈ s.points, z = asReported p := by
    rcases u1 with u1 | ⟨-, u1⟩
    · exact key _ (fun d hd => hd) u1
    · refine key _ (fun d hd => ?_) u1
      rcases List.mem_append.mp hd with hd | hd
      · exact hd
      · rw [List.mem_singleton] at hd; subst hd; simp [SeqDb.all]
  rcases hw with ⟨w, h1, h2, h3⟩ | h
  · refine Or.inl ⟨ps[k], op', w, r3, ops_noSwap (List.mem_of_getElem? r2), ?_, h1, h2, h3⟩
    rw [r1, hNj, List.sum_append, List.sum_singleton]
    omega
  · exact Or.inr ⟨qs[k], List.getElem_mem hk, h⟩

/-- As `Keeping.honest`; the point is inside the window. -/
theorem Keeping.honest_inside {B : Kit} {lo hi shown : U64} {m : Moment} {st : SledStores} (h : Keeping B lo hi m st) (hle : shown.toNat ≤ hi.toNat) {q : Labels} (hq : ∀ l ∈ q, WFLabel l) {a b : U64} (hab : a.toNat ≤ b.toNat)
    {x : Series} (hx : x ∈ contribution B (foundAgain st lo shown) q a b) {p : TimePoint} (hp : p ∈ x.points) :
    ∃ w ∈ m.settled, w.2 = p ∧ x.labels = sortLabels w.1 ∧ inside lo hi w.2 = true := by
  rcases contribution_snap h hle hq hab with e | hs
  · rw [e] at hx; cases hx
  · obtain ⟨g, h1, h2, -, h3, -⟩ := hs.moment x hx
    obtain ⟨w', hw', e'⟩ := hs.named x hx
    rw [h3] at hp
    obtain ⟨hp1, hp2⟩ := List.mem_filter.mp hp
    obtain ⟨w, hw, rfl⟩ := List.mem_map.mp hp1
    obtain ⟨hw1, hw2⟩ := List.mem_filter.mp hw
    have hw3 := h2.subset (List.mem_of_mem_filter hw1)
    have hwf : WFSet w.1 := h.ok.fine.wf w (h.pre.subset hw3)
    have hperm : w.1.Perm w'.1 := by
      have : w.1.Perm x.labels := by simpa using hw2
      rw [e'] at this
      exact this.trans (sortLabels_perm _)
    exact ⟨w, hw3, rfl, by rw [e', sortLabels_perm_eq hwf.distinct hperm], (List.mem_filter.mp hw1).2⟩

section
variable (B : BinSearch) (H : Hash) (sn : Snappy) (rt : PbRt) (P : Paths) (base : Str) (ss : List Session) (calls : List (List Call))

/-- A series with these labels is in a write request that the kill of a life before number `n` interrupted. -/
def CutBefore (n : Nat) (ls : Labels) : Prop :=
  ∃ n' c cs m ser, n' < n ∧ serverEnd B H (pbFormats sn rt) P base ss n' = some c ∧ calls[n']? = some cs ∧ c.now.isSome = true ∧
    cs[c.sent.length]? = some (.write m) ∧ ser ∈ m ∧ ser.labels = ls

/-- A directory that a life before number `n` left, with window `[lo, hi]` and the inserts `m`. -/
structure LeftBy (n : Nat) (sl : Slot) (lo hi : U64) (m : Moment) : Prop where
  name : sl.name = encodeChunkDir lo hi
  keeps : Keeping (Kit.sled B) lo hi m sl.stores
  source : ∀ w ∈ m.started, SentBefore B H sn rt P base ss calls n w.1 w.2
  torn : ∀ v, m.started = m.settled ++ [v] → CutBefore B H sn rt P base ss calls n v.1

variable {B H sn rt P base ss calls}

theorem CutBefore.mono {n n' : Nat} (h : n ≤ n') {ls : Labels} (hs : CutBefore B H sn rt P base ss calls n ls) : CutBefore B H sn rt P base ss calls n' ls := by
  obtain ⟨k, c, cs, m, ser, h1, h2⟩ := hs
  exact ⟨k, c, cs, m, ser, by omega, h2⟩

theorem LeftBy.mono {n n' : Nat} (h : n ≤ n') {sl : Slot} {lo hi : U64} {m : Moment} (hs : LeftBy B H sn rt P base ss calls n sl lo hi m) :
    LeftBy B H sn rt P base ss calls n' sl lo hi m :=
  ⟨hs.name, hs.keeps, fun w hw => (hs.source w hw).mono h, fun v hv => (hs.torn v hv).mono h⟩

/-- An empty directory. -/
theorem LeftBy.of_ok {n : Nat} {slots : List Slot} (h : SlotsOk (Kit.sled B) (fun _ _ => False) slots) {sl : Slot} (hs : sl ∈ slots) (hc : sl.config = .complete) :
    ∃ lo hi m, LeftBy B H sn rt P base ss calls n sl lo hi m := by
  obtain ⟨lo, hi, h1, h2⟩ := h sl hs
  obtain ⟨m, h3, h4⟩ := h2 hc
  exact ⟨lo, hi, m, h1, h3, fun w hw => (h4 w hw).elim, fun v hv => (h4 v (by rw [hv]; simp)).elim⟩

variable (hP : P.read ≠ P.write) (hb : ∀ b ∈ base, isCont b = false) (hL : FineLives sn rt P ss calls)
  (hH : H.Good fun k => ∃ cs ∈ calls, ∃ m s, Call.write m ∈ cs ∧ s ∈ m ∧ k = sortLabels s.labels)

include hP hb hL hH in
theorem own_left {n : Nat} {s : Session} (hs : ss[n]? = some s) {cs : List Call} (hcs : calls[n]? = some cs) (hborn : 3 ≤ s.born) {A : List SChunk}
    (hA : readExistingChunks base s.clock (s.order (lives B H (pbFormats sn rt) P base (ss.take n))) = some A) {c : SrvConf}
    (hc : c = (SrvConf.startOn A s.now (s.now + s.size) s.ticks s.reqs).run (Kit.sled B) H (pbFormats sn rt) P s.sched) {i : Nat} (hi : A.length ≤ i) {S : FChunk}
    (hS : c.db.chunks[i]? = some S) :
    LeftBy B H sn rt P base ss calls (n + 1) ⟨encodeChunkDir S.store.start_ S.store.end_, .complete, S.store.store⟩ S.store.start_ S.store.end_ S.moment := by
  have hst := hL.steps s (List.mem_of_getElem? hs)
  have hn := (List.getElem?_eq_some_iff.mp hs).1
  obtain ⟨-, T⟩ := life_core hP hb hL hH hs hcs (lives_ok (B := B) hP hb hL hH n (by omega)) hA s.sched (by omega)
  have hend : serverEnd B H (pbFormats sn rt) P base ss n = some _ := (serverEnd_eq _ hs).trans (opened_at _ hs hborn hA s.sched)
  rw [← hc] at T hend
  refine ⟨rfl, T.keeping hst hS hi, fun w hw => ⟨n, c, cs, by omega, hend, hcs, T.source hS w hw⟩, fun v hv => ?_⟩
  obtain ⟨h1, m, h2, ser, h3, h4⟩ := T.torn hS hv
  exact ⟨n, c, cs, m, ser, by omega, hend, hcs, h1, h2, h3, h4⟩

include hP hb hL hH in
theorem lives_left (n : Nat) (hn : n ≤ ss.length) : ∀ sl ∈ lives B H (pbFormats sn rt) P base (ss.take n), sl.config = .complete →
    ∃ lo hi m, LeftBy B H sn rt P base ss calls n sl lo hi m := by
  induction n with
  | zero => intro s hs; simp [lives] at hs
  | succ n ih =>
    have ih := ih (by omega)
    obtain ⟨s, hs⟩ : ∃ s, ss[n]? = some s := ⟨_, List.getElem?_eq_getElem (by omega)⟩
    obtain ⟨cs, hcs⟩ : ∃ cs, calls[n]? = some cs := ⟨_, List.getElem?_eq_getElem (by rw [← hL.means.length_eq]; omega)⟩
    have hsm := List.mem_of_getElem? hs
    have hold : ∀ sl ∈ s.order (lives B H (pbFormats sn rt) P base (ss.take n)), sl.config = .complete → ∃ lo hi m, LeftBy B H sn rt P base ss calls (n + 1) sl lo hi m := by
      intro sl hsl hc
      obtain ⟨lo, hi, m, h⟩ := ih sl ((hL.order s hsm _).mem_iff.mp hsl) hc
      exact ⟨lo, hi, m, h.mono (Nat.le_succ n)⟩
    rw [lives_succ _ hs]
    unfold Session.leaves
    rcases hA : readExistingChunks base s.clock (s.order (lives B H (pbFormats sn rt) P base (ss.take n))) with _ | A
    · exact hold
    · intro sl hsl hc
      simp only [] at hsl
      rcases List.mem_append.mp hsl with hsl | hsl
      · exact hold sl hsl hc
      · split at hsl
        · exact LeftBy.of_ok (newDir_ok _ _ _ _ _) hsl hc
        · rename_i hborn
          rcases List.mem_append.mp hsl with hsl | hsl
          · obtain ⟨C, hC, rfl⟩ := List.mem_map.mp hsl
            obtain ⟨i, hi, rfl⟩ := List.mem_iff_getElem.mp hC
            rw [List.length_drop] at hi
            exact ⟨_, _, _, own_left hP hb hL hH hs hcs (by omega) hA rfl (i := A.length + i) (by omega) (by rw [List.getElem_drop]; exact List.getElem?_eq_getElem _)⟩
          · exact LeftBy.of_ok (nextDir_ok _ _ _ _) hsl hc

include hP hb hL hH in
/-- A directory left shows, in every later life, what it holds. -/
theorem left_shown {n2 n0 : Nat} {sl : Slot} (hsl : sl ∈ lives B H (pbFormats sn rt) P base (ss.take n2)) {lo hi : U64} {mo : Moment}
    (hleft : LeftBy B H sn rt P base ss calls n0 sl lo hi mo) {w : Labels × TimePoint} (hw : w ∈ mo.settled) (hin : inside lo hi w.2 = true)
    {sched : List Nat} (hlen : sched.length < 2 ^ 64 - 1) {d : SrvConf}
    (hd : serverOf B H (pbFormats sn rt) P base ss n2 sched = some d) {cs2 : List Call} (hcs2 : calls[n2]? = some cs2)
    {j : Nat} {qs : List PQuery} (hj : cs2[j]? = some (.read qs)) {body : Str} (hres : d.sent[j]? = some (some ⟨200, body⟩))
    (hqs : ∀ q ∈ qs, (∀ y ∈ q.matchers, WFLabel ⟨y.name, y.value⟩) ∧ (asU64 q.start_).toNat ≤ (asU64 q.end_).toNat)
    {k : Nat} (hk : k < qs.length) (hne : qs[k].matchers ≠ []) (hsub : ∀ y ∈ qs[k].matchers, (⟨y.name, y.value⟩ : Label) ∈ w.1)
    (h0 : qs[k].start_ = 0)
    (hcov : ∀ cs ∈ calls, ∀ m, Call.write m ∈ cs → ∀ s ∈ m, ∀ x ∈ s.samples, x.point.ts.toNat ≤ (asU64 qs[k].end_).toNat)
    (hcut : ∀ ls, CutBefore B H sn rt P base ss calls n0 ls → ∀ y ∈ qs[k].matchers, (⟨y.name, y.value⟩ : Label) ∉ ls) :
    ∃ out, sn.decompress body = some out ∧ (out.length < 2 ^ 32 → ∃ rs r, (∀ m, IsResponse rt.utf8 m out ↔ m = rs) ∧ rs[k]? = some r ∧
      ∃ y ∈ r, y.labels = sortLabels w.1 ∧ asReported w.2 ∈ y.samples) := by
  obtain ⟨hn2', -⟩ := List.getElem?_eq_some_iff.mp hcs2
  rw [← hL.means.length_eq] at hn2'
  have hs2 : ss[n2]? = some ss[n2] := List.getElem?_eq_getElem hn2'
  obtain ⟨-, A2, hA2, rfl⟩ := opened_eq _ hs2 hd
  have hok2 := lives_ok (B := B) hP hb hL hH n2 (by omega)
  obtain ⟨D, -⟩ := life_core hP hb hL hH hs2 hcs2 hok2 hA2 sched hlen
  have hperm := hL.order _ (List.getElem_mem hn2') (lives B H (pbFormats sn rt) P base (ss.take n2))
  obtain ⟨-, -, hfound⟩ := existing_found hb _ (fun sl hm => by obtain ⟨lo, hi, e, -⟩ := hok2.perm hperm sl hm; exact ⟨lo, hi, e⟩) hA2
  obtain ⟨shown, b1, b2⟩ := hfound _ (hperm.mem_iff.mpr hsl) _ _ hleft.name
  have hq := hqs qs[k] (List.getElem_mem hk)
  obtain ⟨y, y1, y2, y3⟩ := hleft.keeps.shows b1 (q := qs[k].matchers.map fun x => ⟨x.name, x.value⟩) (by
      intro l hl'
      obtain ⟨y, hy, rfl⟩ := List.mem_map.mp hl'
      exact hq.1 y hy) (by simpa using hne) hw hin (by
      intro l hl'
      obtain ⟨y, hy, rfl⟩ := List.mem_map.mp hl'
      exact hsub y hy) (b := asU64 qs[k].end_) (by
      intro v hv
      obtain ⟨n', c, cs, -, -, u0, u⟩ := hleft.source v hv
      obtain ⟨m', ser', x', u1, u2, u3, -, u4⟩ := takenUp_write u
      rw [← u4]
      exact hcov cs (List.mem_of_getElem? u0) m' u1 ser' u2 x' u3) (by
      intro v hv l hl' hlv
      obtain ⟨y, hy, rfl⟩ := List.mem_map.mp hl'
      exact hcut _ (hleft.torn v hv) y hy hlv)
  obtain ⟨out, g1, g2⟩ := shown_sent (hL.fine cs2 (List.mem_of_getElem? hcs2)) D hj hres hqs
  refine ⟨out, g1, fun hl => ?_⟩
  obtain ⟨rs, g3, g4, g5⟩ := g2 hl
  obtain ⟨r, hr⟩ : ∃ r, rs[k]? = some r := ⟨_, List.getElem?_eq_getElem (by omega)⟩
  obtain ⟨-, g6, -⟩ := g5 k hk r hr
  obtain ⟨z, z1, z2, z3⟩ := g6 _ (List.mem_map_of_mem b2) y (by rw [h0, show asU64 0 = 0#64 from by decide]; exact y1) _ y3
  exact ⟨rs, r, g3, hr, z, z1, by rw [z2, y2], z3⟩

include hP hb hL hH in
/-- A sample in an answer that comes from an older chunk is in a directory. -/
theorem past_left {n : Nat} {s : Session} (hs : ss[n]? = some s) {A : List SChunk}
    (hA : readExistingChunks base s.clock (s.order (lives B H (pbFormats sn rt) P base (ss.take n))) = some A) {f : Labels → U64 → U64 → List Series}
    (hf : f ∈ A.map (contribution (Kit.sled B))) {q : Labels} (hq : ∀ l ∈ q, WFLabel l) {a b : U64} (hab : a.toNat ≤ b.toNat) {x : Series} (hx : x ∈ f q a b)
    {p : TimePoint} (hp : p ∈ x.points) :
    ∃ sl lo hi m w, sl ∈ lives B H (pbFormats sn rt) P base (ss.take n) ∧ LeftBy B H sn rt P base ss calls n sl lo hi m ∧ w ∈ m.settled ∧ w.2 = p ∧
      x.labels = sortLabels w.1 ∧ inside lo hi w.2 = true := by
  have hn := (List.getElem?_eq_some_iff.mp hs).1
  have hok := lives_ok (B := B) hP hb hL hH n (by omega)
  have hperm := hL.order s (List.mem_of_getElem? hs) (lives B H (pbFormats sn rt) P base (ss.take n))
  obtain ⟨c, hc, rfl⟩ := List.mem_map.mp hf
  obtain ⟨h0, hfound, -⟩ := existing_found hb _ (fun sl hm => by obtain ⟨lo, hi, e, -⟩ := hok.perm hperm sl hm; exact ⟨lo, hi, e⟩) hA
  obtain ⟨sl, hsl, h1⟩ := hfound c hc
  have hsl' := hperm.mem_iff.mp hsl
  obtain ⟨lo, hi, m, h2⟩ := lives_left hP hb hL hH n (by omega) sl hsl' (h0 sl hsl)
  obtain ⟨shown, h3, rfl⟩ := h1 lo hi h2.name
  obtain ⟨w, w1, w2, w3, w4⟩ := h2.keeps.honest_inside h3 hq hab hx hp
  exact ⟨sl, lo, hi, m, w, hsl', h2, w1, w2, w3, w4⟩

end

end Verif
