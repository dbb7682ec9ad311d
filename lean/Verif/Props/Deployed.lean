import Verif.Lemmas.DeployedClient
import Verif.Props.DbFineProgress
/-! Property C84: requests to the running server, handled one at a time while the timer swaps chunks, behave as calls made one after the other. -/
namespace Verif
open List

section
variable {client : List DbOp} {ticks : List (U64 × U64)}

theorem FineClient.progs (h : FineClient client) : FineProgs (deployed client ticks) := by
  refine ⟨?_, ?_⟩
  · intro u ls ps hu
    match u with
    | 0 => simp [deployed] at hu
    | 1 => exact h.wf ls ps hu
    | k + 2 => simp [deployed] at hu
  · intro u lo hi hu
    match u with
    | 0 => rfl
    | 1 => have := h.noSwap _ hu; cases this
    | k + 2 => simp [deployed] at hu

theorem FineClient.single (h : FineClient client) : SingleWriter (deployed client ticks) := by
  intro ls
  refine ⟨1, ?_, h.incr ls⟩
  intro v ls' ps hv _
  match v with
  | 0 => simp [deployed] at hv
  | 1 => rfl
  | k + 2 => simp [deployed] at hv

theorem deployed_good {H : Hash} {K : Labels → Prop} (h : H.Good fun k => (∃ ls ps, DbOp.write ls ps ∈ client ∧ k = sortLabels ls) ∨ K k) :
    H.Good fun k => Written (deployed client ticks) k ∨ K k := by
  have hw : ∀ k, Written (deployed client ticks) k → ∃ ls ps, DbOp.write ls ps ∈ client ∧ k = sortLabels ls := by
    rintro k ⟨u, ls, ps, hu, rfl⟩
    match u with
    | 0 => simp [deployed] at hu
    | 1 => exact ⟨ls, ps, hu, rfl⟩
    | k + 2 => simp [deployed] at hu
  intro x y hx hy
  exact h x y (hx.imp (hw x) id) (hy.imp (hw y) id)

/-- Any schedule of calls on a database opened on the older chunks `F`. -/
def runOn (B : Kit) (H : Hash) (F : List SChunk) (lo hi : U64) (progs : Nat → List DbOp) (sched : List Nat) : FConf :=
  (FConf.startOn F lo hi progs).run B H sched

theorem deployed_depOn (B : Kit) (H : Hash) {F : List SChunk} {past : Past} {K : Labels → Prop} (hP : Forall₂ (Frozen B K) F past) (lo hi : U64) (h : FineClient client)
    (hH : H.Good fun k => (∃ ls ps, DbOp.write ls ps ∈ client ∧ k = sortLabels ls) ∨ K k) (sched : List Nat) (hb : sched.length < 2 ^ 64 - 1) :
    Dep F past B H (SeqDb.behind F.length lo hi) (runOn B H F lo hi (deployed client ticks) sched) (lin B H (FConf.startOn F lo hi (deployed client ticks)) sched) ∧
    FInv F B (deployed client ticks) sched.length (runOn B H F lo hi (deployed client ticks) sched) := by
  have := Dep.run (B := B) (F := F) (past := past) (K := K) (G0 := SeqDb.behind F.length lo hi) h.progs h.single hP (deployed_good (ticks := ticks) hH)
    (by simp [SeqDb.behind]) (by intro op ho; obtain ⟨w, -, rfl⟩ := List.mem_map.mp ho; rfl) sched
    (Dep.startOn B H lo hi (by intro u hu; match u with | k + 2 => rfl)) (FInv.startOn F B _ lo hi) (by omega)
  rw [List.nil_append, Nat.zero_add] at this
  exact this

theorem pendQ_call (now : Option FPhase) : pendQ now <+: (now.map FPhase.call).toList := by
  rcases now with _ | ph
  · simp [pendQ]
  · cases ph <;> simp [pendQ, FPhase.call]

theorem Out.call_notSwap {o : Out} {client : List DbOp} (hc : ∀ op ∈ client, op.isSwap = false) (h : o.call ∈ client) : o.call.isSwap = false := hc _ h

end

theorem Dep.fitsOn {F : List SChunk} {past : Past} {B : Kit} {H : Hash} {lo hi : U64} {progs : Nat → List DbOp} {n : Nat} {c : FConf} {L : List DbOp}
    (_ : Dep F past B H (SeqDb.behind F.length lo hi) c L) (hI : FInv F B progs n c) (hFp : F.length = past.length) {pre : List DbOp} {o : Out} (ho : o ∈ (c.threads 1).done)
    (h3 : Fits0 past ((SeqDb.behind F.length lo hi).run pre) c.begun o) : FitsOn past ((SeqDb.fresh lo hi).run pre) c.begun o := by
  rw [SeqDb.behind_run] at h3
  rcases o with ⟨ls, ps, r, wlo, whi⟩ | ⟨q, a, b, r⟩ | ⟨lo', hi'⟩
  · have := hI.wrote ho
    exact ⟨h3.1, h3.2, this.2.1, this.2.2⟩
  · intro hq hab
    obtain ⟨v, hv, h⟩ := h3 hq hab
    refine ⟨v, hv, ?_⟩
    unfold parts SeqDb.all at h
    simp only [List.length_append, List.length_replicate, List.append_assoc] at h
    rw [List.drop_left' (by simp [hFp])] at h
    rcases h with h | ⟨h', h⟩
    · exact Or.inl h
    · refine Or.inr ⟨by omega, ?_⟩
      unfold SeqDb.all
      simp only [List.map_append, List.map_cons, List.map_nil, List.append_assoc] at h ⊢
      exact h
  · trivial

/-- As `C84_one_order`, for a database opened on older chunks `F` of earlier runs, whatever they hold: what they contribute to queries is `past`. -/
theorem C84_reopened (B : Kit) (H : Hash) (F : List SChunk) (past : Past) (K : Labels → Prop) (hP : Forall₂ (Frozen B K) F past) (lo hi : U64)
    (client : List DbOp) (ticks : List (U64 × U64)) (hc : FineClient client)
    (hH : H.Good fun k => (∃ ls ps, DbOp.write ls ps ∈ client ∧ k = sortLabels ls) ∨ K k) :
    ∃ L : List Nat → List DbOp, ∀ sched : List Nat, sched.length < 2 ^ 64 - 1 →
      let c := runOn B H F lo hi (deployed client ticks) sched
      (∀ later, L sched <+: L (sched ++ later)) ∧
      (L sched).filter DbOp.isSwap = (c.threads 0).done.map Out.call ∧
      (c.threads 1).done.map Out.call <+: (L sched).filter (fun x => !x.isSwap) ∧
      (L sched).filter (fun x => !x.isSwap) <+: (c.threads 1).done.map Out.call ++ ((c.threads 1).now.map FPhase.call).toList ∧
      ∀ j o, (c.threads 1).done[j]? = some o → ∃ pre post, L sched = pre ++ o.call :: post ∧ (pre.filter fun x => !x.isSwap).length = j ∧
        FitsOn past ((SeqDb.fresh lo hi).run pre) c.begun o := by
  refine ⟨lin B H (FConf.startOn F lo hi (deployed client ticks)), fun sched hb => ?_⟩
  obtain ⟨hd, hI⟩ := deployed_depOn (ticks := ticks) B H hP lo hi hc hH sched hb
  have hFp : F.length = past.length := hP.length_eq
  refine ⟨fun later => by rw [lin_append]; exact List.prefix_append _ _, hd.swaps, by rw [hd.calls]; exact List.prefix_append _ _, ?_, ?_⟩
  · rw [hd.calls]; exact (List.prefix_append_right_inj _).mpr (pendQ_call _)
  · intro j o ho
    obtain ⟨pre, post, h1, h2, h3⟩ := hd.results j o ho
    exact ⟨pre, post, h1, h2, hd.fitsOn hI hFp (List.mem_of_getElem? ho) h3⟩

/-- The requests' calls and the timer's swaps, interrupted anywhere, take effect in one order `L`: it only grows; the swaps in it are those that have
returned; the requests' calls in it, in their order, are those that have returned and perhaps the one under way. Every result is that of the call
made at its place in this order on a database that is used by nobody else (`Fits`). -/
theorem C84_one_order (B : Kit) (H : Hash) (lo hi : U64) (client : List DbOp) (ticks : List (U64 × U64)) (hc : FineClient client)
    (hH : H.Good fun k => ∃ ls ps, DbOp.write ls ps ∈ client ∧ k = sortLabels ls) :
    ∃ L : List Nat → List DbOp, ∀ sched : List Nat, sched.length < 2 ^ 64 - 1 →
      let c := runFine B H lo hi (deployed client ticks) sched
      (∀ later, L sched <+: L (sched ++ later)) ∧
      (L sched).filter DbOp.isSwap = (c.threads 0).done.map Out.call ∧
      (c.threads 1).done.map Out.call <+: (L sched).filter (fun x => !x.isSwap) ∧
      (L sched).filter (fun x => !x.isSwap) <+: (c.threads 1).done.map Out.call ++ ((c.threads 1).now.map FPhase.call).toList ∧
      ∀ j o, (c.threads 1).done[j]? = some o → ∃ pre post, L sched = pre ++ o.call :: post ∧ (pre.filter fun x => !x.isSwap).length = j ∧
        Fits ((SeqDb.fresh lo hi).run pre) c.begun o := by
  obtain ⟨L, hL⟩ := C84_reopened B H [] [] (fun _ => False) .nil lo hi client ticks hc (by
    intro x y hx hy; exact hH x y (by simpa using hx) (by simpa using hy))
  refine ⟨L, fun sched hb => ?_⟩
  obtain ⟨h1, h2, h3, h4, h5⟩ := hL sched hb
  refine ⟨h1, h2, h3, h4, fun j o ho => ?_⟩
  obtain ⟨pre, post, e1, e2, e3⟩ := h5 j o ho
  exact ⟨pre, post, e1, e2, by cases o <;> exact e3⟩

/-- A query during which the timer does nothing is answered with exactly what all the requests before it have stored. -/
theorem C84_exact (B : Kit) (H : Hash) (lo hi : U64) (client : List DbOp) (ticks : List (U64 × U64)) (hc : FineClient client)
    (hH : H.Good fun k => ∃ ls ps, DbOp.write ls ps ∈ client ∧ k = sortLabels ls) (s1 s2 : List Nat) (hb : (s1 ++ s2).length < 2 ^ 64 - 1)
    (hidle : ((runFine B H lo hi (deployed client ticks) s1).threads 0).now = none) (hs2 : 0 ∉ s2)
    (hnow : ((runFine B H lo hi (deployed client ticks) s1).threads 1).now = none)
    (q : Labels) (hq : ∀ l ∈ q, WFLabel l) (a b : U64) (hab : a.toNat ≤ b.toNat) (r : Res (List (Labels × List TimePoint)))
    (hr : ((runFine B H lo hi (deployed client ticks) (s1 ++ s2)).threads 1).done[((runFine B H lo hi (deployed client ticks) s1).threads 1).done.length]? =
      some (.answered q a b r)) :
    ∃ L v, r = .ok v ∧ IsMerge (((SeqDb.fresh lo hi).run L).all.map fun d => d.answer sledAccepts q a b) v ∧
      L.filter DbOp.isSwap = ((runFine B H lo hi (deployed client ticks) s1).threads 0).done.map Out.call ∧
      L.filter (fun x => !x.isSwap) = ((runFine B H lo hi (deployed client ticks) s1).threads 1).done.map Out.call := by
  obtain ⟨L, hL⟩ := C84_one_order B H lo hi client ticks hc hH
  obtain ⟨m1, sw1, cl1, cu1, -⟩ := hL s1 (by simp at hb; omega)
  obtain ⟨-, sw2, -, -, res⟩ := hL (s1 ++ s2) hb
  obtain ⟨pre, post, e1, e2, e3⟩ := res _ _ hr
  have h0 : (runFine B H lo hi (deployed client ticks) (s1 ++ s2)).threads 0 = (runFine B H lo hi (deployed client ticks) s1).threads 0 := by
    rw [runFine_append]
    generalize runFine B H lo hi (deployed client ticks) s1 = c
    clear * - hs2
    induction s2 generalizing c with
    | nil => rfl
    | cons t s ih =>
      simp only [List.mem_cons, not_or] at hs2
      have : c.run B H (t :: s) = (c.step B H t).run B H s := rfl
      rw [this, ih hs2.2, step_fother t 0 hs2.1]
  rw [hnow] at cu1
  simp only [Option.map_none, Option.toList_none, List.append_nil] at cu1
  have hcl : (L s1).filter (fun x => !x.isSwap) = ((runFine B H lo hi (deployed client ticks) s1).threads 1).done.map Out.call :=
    cu1.eq_of_length (by have := cl1.length_le; have := cu1.length_le; omega)
  have hpre : L s1 <+: pre := by
    have h1 : L s1 <+: pre ++ (Out.answered q a b r).call :: post := by rw [← e1]; exact m1 s2
    have h2 : pre ++ [(Out.answered q a b r).call] <+: pre ++ (Out.answered q a b r).call :: post := (List.prefix_append_right_inj _).mpr (by simp)
    by_cases hle : (L s1).length ≤ pre.length
    · exact List.prefix_of_prefix_length_le h1 (List.prefix_append _ _) hle
    · exfalso
      have h3 : pre ++ [(Out.answered q a b r).call] <+: L s1 := List.prefix_of_prefix_length_le h2 h1 (by simp; omega)
      have h4 := (h3.filter (fun x => !x.isSwap)).length_le
      rw [List.filter_append, List.length_append, e2, hcl, List.length_map] at h4
      simp [Out.call, DbOp.isSwap] at h4
  have hsw : pre.filter DbOp.isSwap = (L s1).filter DbOp.isSwap := by
    have h1 := hpre.filter DbOp.isSwap
    have h2 : pre.filter DbOp.isSwap <+: (L (s1 ++ s2)).filter DbOp.isSwap := by rw [e1]; exact (List.prefix_append _ _).filter _
    rw [sw2, h0, ← sw1] at h2
    exact (h1.eq_of_length (by have := h1.length_le; have := h2.length_le; omega)).symm
  obtain ⟨v, hv, hm⟩ := e3 hq hab
  refine ⟨pre, v, hv, ?_, by rw [hsw, sw1], ?_⟩
  · rcases hm with hm | ⟨hlt, -⟩
    · exact hm
    · exfalso
      rw [SeqDb.run_old, hsw, sw1, FConf.begun, h0, hidle] at hlt
      simp [SeqDb.fresh] at hlt
  · rw [← hcl]
    have h1 := hpre.filter (fun x => !x.isSwap)
    exact (h1.eq_of_length (by rw [e2, hcl, List.length_map])).symm

/-! ### Executions -/

/-- Two batches, each followed by a query; the timer ticks twice. -/
def dpClient : List DbOp := [.write [lbl "a" "1"] [⟨10#64, 5#64⟩, ⟨20#64, 6#64⟩], .query [lbl "a" "1"] 0#64 3000#64,
  .write [lbl "a" "1", lbl "b" "2"] [⟨1500#64, 7#64⟩, ⟨2000#64, 8#64⟩], .query [lbl "a" "1"] 0#64 3000#64]
def dpTicks : List (U64 × U64) := [(1001#64, 2000#64), (2001#64, 3000#64)]

theorem dpClient_fine : FineClient dpClient := by
  refine ⟨?_, ?_, by decide⟩
  · intro ls ps h
    simp only [dpClient, List.mem_cons, DbOp.write.injEq, reduceCtorEq, false_or, List.not_mem_nil, or_false] at h
    rcases h with ⟨rfl, -⟩ | ⟨rfl, -⟩ <;> exact wfSet_of (by decide +kernel)
  · intro ls
    exact incr_pointsFor (by unfold SIncr; decide +kernel) ls

attribute [local irreducible] runFine

/-- The first swap has pushed the chunk when the first query reads the older chunks; it ends when the query has returned. The second batch is written. -/
def dpS1 : List Nat := List.replicate 27 1 ++ [0, 0] ++ List.replicate 8 1 ++ [0] ++ List.replicate 19 1
/-- The second query, while the timer does nothing. -/
def dpS2 : List Nat := List.replicate 15 1

/-- The points of the first query come twice (C43): the second alternative of `Fits` is real. The second batch has a point on the edge of the window of
the chunk made by the swap. -/
theorem dp_s1 : ((runFine stdKit idealHash 0#64 1000#64 (deployed dpClient dpTicks) dpS1).threads 1).done =
    [.wrote [lbl "a" "1"] [⟨10#64, 5#64⟩, ⟨20#64, 6#64⟩] (.ok ()) 0#64 1000#64,
     .answered [lbl "a" "1"] 0#64 3000#64 (.ok [([lbl "a" "1"], [⟨10#64, 5#64⟩, ⟨20#64, 6#64⟩, ⟨10#64, 5#64⟩, ⟨20#64, 6#64⟩])]),
     .wrote [lbl "a" "1", lbl "b" "2"] [⟨1500#64, 7#64⟩, ⟨2000#64, 8#64⟩] (.err .internal) 1001#64 2000#64] := by decide +kernel

/-- The second query is answered exactly. -/
theorem dp_s2 : ((runFine stdKit idealHash 0#64 1000#64 (deployed dpClient dpTicks) (dpS1 ++ dpS2)).threads 1).done[3]? =
    some (.answered [lbl "a" "1"] 0#64 3000#64 (.ok [([lbl "a" "1", lbl "b" "2"], [⟨1500#64, 7#64⟩]), ([lbl "a" "1"], [⟨10#64, 5#64⟩, ⟨20#64, 6#64⟩])])) := by decide +kernel

/-- The hypotheses of the theorems hold. -/
example : ∃ (L : List DbOp) (v : List (Labels × List TimePoint)), IsMerge (((SeqDb.fresh 0#64 1000#64).run L).all.map fun d => d.answer sledAccepts [lbl "a" "1"] 0#64 3000#64) v ∧
    L.filter DbOp.isSwap = [.swap 1001#64 2000#64] ∧ (L.filter fun x => !x.isSwap) = dpClient.take 3 ∧
    v = [([lbl "a" "1", lbl "b" "2"], [⟨1500#64, 7#64⟩]), ([lbl "a" "1"], [⟨10#64, 5#64⟩, ⟨20#64, 6#64⟩])] := by
  have hlen : ((runFine stdKit idealHash 0#64 1000#64 (deployed dpClient dpTicks) dpS1).threads 1).done.length = 3 := by rw [dp_s1]; rfl
  have hidle : ((runFine stdKit idealHash 0#64 1000#64 (deployed dpClient dpTicks) dpS1).threads 0).now = none := by
    rw [← Option.isNone_iff_eq_none]; decide +kernel
  have hnow : ((runFine stdKit idealHash 0#64 1000#64 (deployed dpClient dpTicks) dpS1).threads 1).now = none := by
    rw [← Option.isNone_iff_eq_none]; decide +kernel
  have hsw : ((runFine stdKit idealHash 0#64 1000#64 (deployed dpClient dpTicks) dpS1).threads 0).done = [.swapped 1001#64 2000#64] := by decide +kernel
  obtain ⟨L, v, h1, h2, h3, h4⟩ := C84_exact stdKit idealHash 0#64 1000#64 dpClient dpTicks dpClient_fine (idealHash_good _) dpS1 dpS2 (by decide +kernel) hidle (by decide)
    hnow [lbl "a" "1"] (by intro l hl; rw [List.mem_singleton.mp hl]; exact wfLabel_of (by decide +kernel)) 0#64 3000#64 (by decide) _ (by rw [hlen]; exact dp_s2)
  obtain ⟨L', hL'⟩ := C84_one_order stdKit idealHash 0#64 1000#64 dpClient dpTicks dpClient_fine (idealHash_good _)
  have := hL' dpS1 (by decide +kernel)
  refine ⟨L, v, h2, ?_, ?_, ?_⟩
  · rw [h3, hsw]; rfl
  · rw [h4, dp_s1]; rfl
  · simpa using h1.symm

end Verif
