import Verif.Lemmas.SessionsExact
import Verif.Props.Sessions
/-! C87: kills that do not interrupt a write lose nothing and add nothing. -/
namespace Verif
open List

/-- C87, exactness: if the clock goes forward and no earlier life was killed while it handled a write, the requests of a life are answered as by a sequential
database (as in C85) that has been opened on exactly what the earlier lives have stored: for each life `i` there is an order `L i` in which its calls and its swaps have taken
effect; what earlier lives have put into their chunks in this order is what the chunks found contribute to the answers of the life `n`, merged with what life `n` itself
has stored. -/
theorem C87_exact (B : BinSearch) (H : Hash) (sn : Snappy) (rt : PbRt) (P : Paths) (hP : P.read ≠ P.write) (base : Str) (hb : ∀ b ∈ base, isCont b = false)
    (ss : List Session) (calls : List (List Call)) (hL : FineLives sn rt P ss calls) (hC : FineClocks ss calls)
    (hH : H.Good fun k => ∃ cs ∈ calls, ∃ m s, Call.write m ∈ cs ∧ s ∈ m ∧ k = sortLabels s.labels) :
    ∃ (L : Nat → List Nat → List DbOp) (N : Nat → List Nat → List Nat), ∀ (n : Nat) (s : Session) (cs : List Call) (sched : List Nat) (c : SrvConf),
      ss[n]? = some s → calls[n]? = some cs → NotTorn (serverEnd B H (pbFormats sn rt) P base ss) calls n → sched.length < 2 ^ 64 - 1 →
      serverOf B H (pbFormats sn rt) P base ss n sched = some c →
      (∀ later, L n sched <+: L n (sched ++ later) ∧ N n sched <+: N n (sched ++ later)) ∧
      (L n sched).filter DbOp.isSwap = (c.db.threads 0).done.map Out.call ∧ (L n sched).filter DbOp.isSwap <+: s.ticks.map (fun w => .swap w.1 w.2) ∧
      ((L n sched).filter fun x => !x.isSwap).Sublist (cs.flatMap Call.ops) ∧
      (N n sched).length = c.sent.length ∧ (N n sched).sum ≤ ((L n sched).filter fun x => !x.isSwap).length ∧
      ((L n sched).filter fun x => !x.isSwap).drop (N n sched).sum <+: c.handling cs ∧
      ∀ (i k : Nat) (q : Call) (x : Option Response), cs[i]? = some q → (N n sched)[i]? = some k → c.sent[i]? = some x →
        ∃ ps : List (List DbOp), ps.length = k ∧
          (∀ (j : Nat) (p : List DbOp), ps[j]? = some p → (p.filter fun x => !x.isSwap).length = ((N n sched).take i).sum + j ∧
            ∃ op, q.ops[j]? = some op ∧ p ++ [op] <+: L n sched) ∧
          HandledOn sn rt ((storedBefore (serverEnd B H (pbFormats sn rt) P base ss) ss (fun i => L i (((ss[i]?).map Session.sched).getD [])) n).map
            fun d => d.answer sledAccepts) c.db.begun (ps.map fun p => (SeqDb.fresh s.now (s.now + s.size)).run p) q x :=
  ⟨lifeOrder B H sn rt P base ss, lifeCounts B H sn rt P base ss, fun n s cs sched c hs hcs hclean hl hc =>
    ⟨fun later => by
      unfold lifeOrder lifeCounts
      have h := srv_grow (Kit.sled B) H sn rt P (foundBy B H sn rt P base ss n) s.now (s.now + s.size) s.ticks s.reqs sched later
      have e : startOf B H sn rt P base ss n = SrvConf.startOn (foundBy B H sn rt P base ss n) s.now (s.now + s.size) s.ticks s.reqs := by
        unfold startOf; rw [hs]
      rw [e]
      exact h, life_exact hP hb hL hH hC hs hcs hclean hl hc⟩⟩

/-! ### Two lives -/

/-- The first life: a write is answered; the server is killed while it waits. -/
def lvCalm : Session := { lvOne 0 with sched := scS2 }

theorem lvCalm_fine : FineLives exSnappy exRt lvPaths [lvCalm, lvTwo] lvCalls := by
  have h := lv_fine 0
  refine ⟨?_, h.fine, ?_, ?_, h.windows⟩
  · obtain ⟨h1, h2⟩ := List.forall₂_cons.mp h.means
    exact .cons h1 h2
  · intro s hs
    simp only [List.mem_cons, List.not_mem_nil, or_false] at hs
    rcases hs with rfl | rfl
    · exact h.order (lvOne 0) (by simp)
    · exact h.order lvTwo (by simp)
  · intro s hs
    simp only [List.mem_cons, List.not_mem_nil, or_false] at hs
    rcases hs with rfl | rfl
    · exact (by decide +kernel : scS2.length + 1 < 2 ^ 64 - 1)
    · decide +kernel

theorem lvCalm_clocks : FineClocks [lvCalm, lvTwo] lvCalls := by
  refine ⟨(by decide +kernel : ([0#64, 1001#64, 3000#64] : List U64).Pairwise fun a b => a.toNat < b.toNat), ?_⟩
  intro n' n s cs hn hs hcs
  match n, n', hn with
  | 1, 0, _ =>
    have hs : lvTwo = s := Option.some.inj hs
    have hcs : [Call.write [scSer], Call.write [lvSer]] = cs := Option.some.inj hcs
    subst hs hcs
    intro m hm
    simp only [List.mem_cons, Call.write.injEq, List.not_mem_nil, or_false] at hm
    rcases hm with rfl | rfl
    · intro ser hser x hx name
      revert x ser
      show ∀ ser ∈ [scSer], ∀ x ∈ ser.samples, x.point.ts.toNat ≤ (3000#64 : U64).toNat
      decide +kernel
    · intro ser hser x hx name
      revert x ser
      show ∀ ser ∈ [lvSer], ∀ x ∈ ser.samples, x.point.ts.toNat ≤ (3000#64 : U64).toNat
      decide +kernel
  | n + 2, _, _ => simp at hs

attribute [local irreducible] SrvConf.run

/-- The hypotheses of C87_exact hold for the second life, which finds a chunk with a sample. -/
example : ∃ (L : Nat → List DbOp) (c : SrvConf) (body : Str), serverOf stdBinSearch idealHash (pbFormats exSnappy exRt) lvPaths lvBase [lvCalm, lvTwo] 1 lvTwo.sched = some c ∧
    c.sent[1]? = some (some ⟨200, body⟩) ∧
    (storedBefore (serverEnd stdBinSearch idealHash (pbFormats exSnappy exRt) lvPaths lvBase [lvCalm, lvTwo]) [lvCalm, lvTwo] L 1 =
      ((SeqDb.fresh 0#64 1000#64).run (L 0)).all) ∧ (∀ op ∈ (L 0).filter (fun x => !x.isSwap), op ∈ [.write scSer.labels (scSer.samples.map Sample.point), .write lvSer.labels (lvSer.samples.map Sample.point)]) ∧
    ∃ Gs, HandledOn exSnappy exRt ((storedBefore (serverEnd stdBinSearch idealHash (pbFormats exSnappy exRt) lvPaths lvBase [lvCalm, lvTwo]) [lvCalm, lvTwo] L 1).map
      fun d => d.answer sledAccepts) c.db.begun Gs (.read [scAsk]) (some ⟨200, body⟩) := by
  obtain ⟨L, N, h⟩ := C87_exact stdBinSearch idealHash exSnappy exRt lvPaths (by decide) lvBase (by decide) [lvCalm, lvTwo] lvCalls lvCalm_fine lvCalm_clocks (idealHash_good _)
  have e0 : (serverOf stdBinSearch idealHash (pbFormats exSnappy exRt) lvPaths lvBase [lvCalm, lvTwo] 0 lvCalm.sched).map (fun c => (c.sent, c.now.isSome)) =
      some ([some ⟨200, []⟩], false) := by decide +kernel
  have e1 : (serverOf stdBinSearch idealHash (pbFormats exSnappy exRt) lvPaths lvBase [lvCalm, lvTwo] 1 lvTwo.sched).map (·.sent) = some [some ⟨200, []⟩, some ⟨200, (pbFormats exSnappy exRt).respond
    [[⟨[lbl "a" "1"], [⟨0x4000000000000000#64, 3500⟩]⟩, ⟨[lbl "a" "1", lbl "b" "2"], [⟨0x3ff0000000000000#64, 200⟩]⟩]]⟩] := by decide +kernel
  obtain ⟨c0, hc0, a0⟩ := Option.map_eq_some_iff.mp e0
  obtain ⟨c1, hc1, a1⟩ := Option.map_eq_some_iff.mp e1
  simp only [Prod.mk.injEq] at a0
  have hend : serverEnd stdBinSearch idealHash (pbFormats exSnappy exRt) lvPaths lvBase [lvCalm, lvTwo] 0 = some c0 := hc0
  have hclean : ∀ n ≤ 1, NotTorn (serverEnd stdBinSearch idealHash (pbFormats exSnappy exRt) lvPaths lvBase [lvCalm, lvTwo]) lvCalls n := by
    intro n hn n' hn' c cs hc hcs hs
    have : n' = 0 := by omega
    subst this
    rw [hend] at hc
    have hc := Option.some.inj hc
    subst hc
    rw [a0.2] at hs
    cases hs
  have h0 := h 0 lvCalm _ lvCalm.sched c0 rfl rfl (hclean 0 (by omega)) (by decide +kernel) hc0
  obtain ⟨body, hres⟩ : ∃ body, c1.sent[1]? = some (some ⟨200, body⟩) := by rw [a1]; exact ⟨_, rfl⟩
  obtain ⟨-, -, -, -, h1, -, -, h2⟩ := h 1 lvTwo _ lvTwo.sched c1 rfl rfl (hclean 1 (by omega)) (by decide +kernel) hc1
  obtain ⟨k, hk⟩ : ∃ k, (N 1 lvTwo.sched)[1]? = some k := ⟨_, List.getElem?_eq_getElem (by rw [h1, a1]; decide)⟩
  obtain ⟨ps, -, -, h3⟩ := h2 1 k (.read [scAsk]) _ rfl hk hres
  refine ⟨fun i => L i ((([lvCalm, lvTwo][i]?).map Session.sched).getD []), c1, body, hc1, hres, ?_, ?_, _, h3⟩
  · simp only [storedBefore, hend]
    rfl
  · intro op hop
    exact h0.2.2.2.1.subset hop

end Verif
