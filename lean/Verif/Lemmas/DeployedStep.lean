import Verif.Lemmas.Deployed
/-! One client thread and the swapping thread: every step keeps the invariant. -/
namespace Verif
open List

variable {B : Kit} {H : Hash} {progs : Nat → List DbOp} {n : Nat} {c c' : FConf} {G0 : SeqDb} {L : List DbOp} {F : List SChunk} {past : Past} {K : Labels → Prop}

/-- The calls that take their place in the order by a step. -/
def linStep (c : FConf) (t : Nat) : List DbOp :=
  match (c.threads t).now with
  | some (.writing ls ps [] _) => [.write ls ps]
  | some (.reading1 q a b (.ret _)) => [.query q a b]
  | some (.s2 lo hi) => if c.curR = [] then [.swap lo hi] else []
  | _ => []

/-! ### Moves -/

theorem fWin_grow (h : FGrow c c') {i : Nat} (hi : i < c.chunks.length) : fWin c'.chunks i = fWin c.chunks i := by
  obtain ⟨S', h1, -, h2, h3⟩ := h.chunk i _ (List.getElem?_eq_getElem hi)
  simp only [fWin, h1, List.getElem?_eq_getElem hi, Option.map_some, h2, h3]

theorem QHead.mono {q : Labels} {a b : U64} {pre post x : List DbOp} {m0 : HMap} (h : QHead B H G0 c L q a b pre post m0)
    (hx : ∀ y ∈ x, y.isSwap = true) (hdone : (c'.threads 1).done = (c.threads 1).done)
    (hst : vAt B c' (G0.run pre).old.length = vAt B c (G0.run pre).old.length) : QHead B H G0 c' (L ++ x) q a b pre (post ++ x) m0 := by
  refine ⟨by rw [h.split]; simp, ?_, by rw [hdone]; exact h.nth, by rw [hst]; exact h.first⟩
  intro y hy
  rcases List.mem_append.mp hy with hy | hy
  · exact h.swaps y hy
  · exact hx y hy

theorem map_vAt {ids : List Nat} (h : ∀ i ∈ ids, vAt B c' i = vAt B c i) : ids.map (vAt B c') = ids.map (vAt B c) := List.map_congr_left h

theorem QHead.lt (hd : Dep F past B H G0 c L) (hI : FInv F B progs n c) {q : Labels} {a b : U64} {pre post : List DbOp} {m0 : HMap}
    (h : QHead B H G0 c L q a b pre post m0) : (G0.run pre).old.length < c.chunks.length := by
  have h1 := hd.glen
  rw [h.split, SeqDb.run_append, SeqDb.run_old] at h1
  rw [hI.len]; omega

theorem QTail.mono (hd : Dep F past B H G0 c L) (hI : FInv F B progs n c) {q : Labels} {a b : U64} {ids : List Nat} {m : HMap} {x : List DbOp}
    (h : QTail F B H G0 c L q a b ids m) (hx : ∀ y ∈ x, y.isSwap = true) (hdone : (c'.threads 1).done = (c.threads 1).done)
    (hst : ∀ i, i < c.chunks.length → storeAt c' i = storeAt c i) (hlen : c.chunks.length ≤ c'.chunks.length) (hbeg : c.begun ≤ c'.begun) :
    QTail F B H G0 c' (L ++ x) q a b ids m := by
  obtain ⟨pre, post, m0, k, h1, h2, h3, h4, h5⟩ := h
  have hv : ∀ i, i < c.chunks.length → vAt B c' i = vAt B c i := fun i hi => by unfold vAt; rw [hst i hi]
  refine ⟨pre, post ++ x, m0, k, h1.mono hx hdone (hv _ (h1.lt hd hI)), ?_, by omega, fun i hi => by have := h4 i hi; omega, ?_⟩
  · rw [map_vAt fun i hi => hv i (by have := List.mem_range.mp (List.mem_reverse.mp hi); omega), map_vAt fun i hi => hv i (h4 i hi)]
    exact h2
  · rcases h5 with h5 | ⟨h5, h6⟩
    · exact Or.inl h5
    · exact Or.inr ⟨h5, by omega⟩

theorem Fits0.mono {G : SeqDb} {k k' : Nat} (hk : k ≤ k') {o : Out} (h : Fits0 past G k o) : Fits0 past G k' o := by
  cases o with
  | wrote ls ps r lo hi => exact h
  | swapped lo hi => exact h
  | answered q a b r =>
    intro hq hab
    obtain ⟨v, hv, h⟩ := h hq hab
    refine ⟨v, hv, ?_⟩
    rcases h with h | ⟨h1, h2⟩
    · exact Or.inl h
    · exact Or.inr ⟨by omega, h2⟩

/-- A move of the client. -/
theorem Dep.move1 (hd : Dep F past B H G0 c L) (th : FThread) (x : List DbOp) (outs : List Out)
    (hth : c'.threads = fun u => if u = 1 then th else c.threads u) (hcur : c'.current = c.current) (hx : ∀ y ∈ x, y.isSwap = false)
    (hdone : th.done = (c.threads 1).done ++ outs)
    (hcalls : (c.threads 1).done.map Out.call ++ pendQ (c.threads 1).now ++ x = th.done.map Out.call ++ pendQ th.now)
    (hcont : ∃ pre, (∀ lo hi, fWin c'.chunks c'.current = some (lo, hi) → Link lo hi pre th.now) ∧
      ∀ i lo hi, F.length ≤ i → fWin c'.chunks i = some (lo, hi) → ∃ d, (G0.run (L ++ x)).all[i]? = some d ∧ d.lo = lo ∧ d.hi = hi ∧
        insideOnly lo hi (histOf c'.log i) = d.h ++ if i = c'.current then insideOnly lo hi pre else [])
    (hq : QPhase F B H G0 c' (L ++ x) th.now)
    (hres : ∀ o ∈ outs, outs = [o] ∧ ∃ pre post, L ++ x = pre ++ o.call :: post ∧
      (pre.filter fun y => !y.isSwap).length = (c.threads 1).done.length ∧ Fits0 past (G0.run pre) c.begun o) :
    Dep F past B H G0 c' (L ++ x) := by
  have e0 : c'.threads 0 = c.threads 0 := by rw [hth]; rfl
  have e1 : c'.threads 1 = th := by rw [hth]; rfl
  have hbeg : c'.begun = c.begun := by unfold FConf.begun; rw [e0]
  have hx' : x.filter DbOp.isSwap = [] := List.filter_eq_nil_iff.mpr fun y hy => by rw [hx y hy]; simp
  have hx'' : x.filter (fun y => !y.isSwap) = x := List.filter_eq_self.mpr fun y hy => by rw [hx y hy]; rfl
  refine ⟨?_, by rw [e0]; exact hd.t0, ?_, ?_, ?_, by rw [e1]; exact hcont, by rw [e1]; exact hq, ?_⟩
  · intro u hu
    have : c'.threads u = c.threads u := by rw [hth]; simp [show u ≠ 1 by omega]
    rw [this]; exact hd.idle u hu
  · rw [List.filter_append, hx', List.append_nil, e0]; exact hd.swaps
  · rw [List.filter_append, hx'', hd.calls, e1]; exact hcalls
  · rw [SeqDb.run_append, SeqDb.run_old, hx', hd.glen, hcur]; rfl
  · intro j o ho
    rw [e1, hdone] at ho
    rw [hbeg]
    by_cases hj : j < (c.threads 1).done.length
    · rw [List.getElem?_append_left hj] at ho
      obtain ⟨pre, post, h1, h2, h3⟩ := hd.results j o ho
      exact ⟨pre, post ++ x, by rw [h1]; simp, h2, h3⟩
    · rw [List.getElem?_append_right (by omega)] at ho
      have ho' := List.mem_of_getElem? ho
      obtain ⟨e, pre, post, h1, h2, h3⟩ := hres o ho'
      rw [e] at ho
      have hj' : j = (c.threads 1).done.length := by
        by_contra hne
        rw [List.getElem?_eq_none (by simp; omega)] at ho
        cases ho
      exact ⟨pre, post, h1, by rw [h2, hj'], h3⟩

/-- The contents when nothing is written. -/
theorem Dep.cont_same (hd : Dep F past B H G0 c L) {ph : Option FPhase} (h1 : ∀ i, fWin c'.chunks i = fWin c.chunks i) (h2 : c'.log = c.log)
    (h3 : c'.current = c.current) (x : List DbOp) (hx : G0.run (L ++ x) = G0.run L) (hn : notWriting (c.threads 1).now = true)
    (hl : ∀ lo hi, fWin c'.chunks c'.current = some (lo, hi) → Link lo hi [] ph) (hex : ∃ w, fWin c.chunks c.current = some w) :
    ∃ pre, (∀ lo hi, fWin c'.chunks c'.current = some (lo, hi) → Link lo hi pre ph) ∧
      ∀ i lo hi, F.length ≤ i → fWin c'.chunks i = some (lo, hi) → ∃ d, (G0.run (L ++ x)).all[i]? = some d ∧ d.lo = lo ∧ d.hi = hi ∧
        insideOnly lo hi (histOf c'.log i) = d.h ++ if i = c'.current then insideOnly lo hi pre else [] := by
  obtain ⟨pre, g1, g2⟩ := hd.cont
  obtain ⟨⟨lo, hi⟩, hw⟩ := hex
  have := (g1 lo hi hw).nil hn
  subst this
  refine ⟨[], hl, ?_⟩
  intro i lo hi hF hi'
  rw [h1] at hi'
  obtain ⟨d, hd⟩ := g2 i lo hi hF hi'
  rw [hx, h2, h3]
  exact ⟨d, hd⟩

/-- A move of the swapping thread. -/
theorem Dep.move0 (hd : Dep F past B H G0 c L) (hI : FInv F B progs n c) (th : FThread) (x : List DbOp) (outs : List Out)
    (hth : c'.threads = fun u => if u = 0 then th else c.threads u) (hx : ∀ y ∈ x, y.isSwap = true)
    (hdone : th.done = (c.threads 0).done ++ outs) (hxo : x = outs.map Out.call) (hnow : th.now = none ∨ fIsSwap th.now = true)
    (hbeg : (c.threads 0).now.toList.length ≤ outs.length + th.now.toList.length)
    (hlen : c.chunks.length ≤ c'.chunks.length) (hst : ∀ i, i < c.chunks.length → storeAt c' i = storeAt c i)
    (hcur : c'.current = c.current + outs.length) (hc1 : fHoldsCur (c.threads 1).now = true → c'.current = c.current)
    (hcont : ∃ pre, (∀ lo hi, fWin c'.chunks c'.current = some (lo, hi) → Link lo hi pre (c.threads 1).now) ∧
      ∀ i lo hi, F.length ≤ i → fWin c'.chunks i = some (lo, hi) → ∃ d, (G0.run (L ++ x)).all[i]? = some d ∧ d.lo = lo ∧ d.hi = hi ∧
        insideOnly lo hi (histOf c'.log i) = d.h ++ if i = c'.current then insideOnly lo hi pre else []) :
    Dep F past B H G0 c' (L ++ x) := by
  have e0 : c'.threads 0 = th := by rw [hth]; rfl
  have e1 : c'.threads 1 = c.threads 1 := by rw [hth]; rfl
  have hbeg : c.begun ≤ c'.begun := by unfold FConf.begun; rw [e0, hdone, List.length_append]; omega
  have hx' : x.filter DbOp.isSwap = x := List.filter_eq_self.mpr fun y hy => hx y hy
  have hx'' : x.filter (fun y => !y.isSwap) = [] := List.filter_eq_nil_iff.mpr fun y hy => by rw [hx y hy]; simp
  have hcl : c.current < c.chunks.length := by rw [hI.len]; omega
  refine ⟨?_, by rw [e0]; exact hnow, ?_, ?_, ?_, by rw [e1]; exact hcont, ?_, ?_⟩
  · intro u hu
    have : c'.threads u = c.threads u := by rw [hth]; simp [show u ≠ 0 by omega]
    rw [this]; exact hd.idle u hu
  · rw [List.filter_append, hx', hd.swaps, e0, hdone, hxo, List.map_append]
  · rw [List.filter_append, hx'', List.append_nil, e1]; exact hd.calls
  · rw [SeqDb.run_append, SeqDb.run_old, hx', hd.glen, hcur, hxo]; simp
  · rw [e1]
    have hq := hd.qphase
    have hc1' := hc1
    revert hq hc1'
    generalize (c.threads 1).now = ph
    intro hq hc1'
    rcases ph with _ | ph
    · trivial
    · cases ph with
      | writing => trivial
      | inserting => trivial
      | q1 => trivial
      | s1 => trivial
      | s2 => trivial
      | reading1 q a b p =>
        show (p.run (storeAt c' c'.current)).1 = (storeAt c' c'.current).query (kitComp B) q a b
        rw [hc1' rfl, hst _ hcl]; exact hq
      | q2 q a b m =>
        obtain ⟨pre, post, h⟩ := hq
        exact ⟨pre, post ++ x, h.mono hx (by rw [e1]) (by unfold vAt; rw [hst _ (h.lt hd hI)])⟩
      | q3 q a b ids m => exact QTail.mono hd hI hq hx (by rw [e1]) hst hlen hbeg
      | reading3 q a b i ids m p =>
        obtain ⟨h1, h2, h3⟩ := hq
        have hi : i < c.chunks.length := by
          obtain ⟨_, _, _, _, _, _, _, h4, _⟩ := h1
          exact h4 i (by simp)
        refine ⟨QTail.mono hd hI h1 hx (by rw [e1]) hst hlen hbeg, ?_, ?_⟩
        · rw [hst i hi]; exact h2
        · rw [hst i hi]; exact h3
  · intro j o ho
    rw [e1] at ho
    obtain ⟨pre, post, h1, h2, h3⟩ := hd.results j o ho
    exact ⟨pre, post ++ x, by rw [h1]; simp, h2, h3.mono hbeg⟩

/-! ### The swapping thread -/

theorem fWin_storeAt (hI : FInv F B progs n c) {i : Nat} {lo hi : U64} (h : fWin c.chunks i = some (lo, hi)) : i < c.chunks.length ∧ lo = (storeAt c i).start_ ∧ hi = (storeAt c i).end_ := by
  unfold fWin at h
  rcases hS : c.chunks[i]? with _ | S
  · rw [hS] at h; cases h
  · rw [hS] at h
    simp only [Option.map_some, Option.some.injEq, Prod.mk.injEq] at h
    have : i < c.chunks.length := by
      by_contra hge
      rw [List.getElem?_eq_none (by omega)] at hS; cases hS
    rw [storeAt_eq hS]
    exact ⟨this, h.1.symm, h.2.symm⟩

theorem Dep.step0 (hd : Dep F past B H G0 c L) (hI : FInv F B progs n c) (hb : n + 1 < 2 ^ 64 - 1) (hp0 : ∀ op ∈ progs 0, op.isSwap = true) :
    Dep F past B H G0 (c.step B H 0) (L ++ linStep c 0) := by
  obtain ⟨S, hS⟩ := hI.getCur
  have hsame : Dep F past B H G0 c (L ++ []) := by rw [List.append_nil]; exact hd
  have hcont : ∃ pre, (∀ lo hi, fWin c.chunks c.current = some (lo, hi) → Link lo hi pre (c.threads 1).now) ∧
      ∀ i lo hi, F.length ≤ i → fWin c.chunks i = some (lo, hi) → ∃ d, (G0.run (L ++ [])).all[i]? = some d ∧ d.lo = lo ∧ d.hi = hi ∧
        insideOnly lo hi (histOf c.log i) = d.h ++ if i = c.current then insideOnly lo hi pre else [] := by rw [List.append_nil]; exact hd.cont
  rcases hn : (c.threads 0).now with _ | ph
  · have hl : linStep c 0 = [] := by unfold linStep; rw [hn]
    rw [hl]
    unfold FConf.step
    rw [hn]
    simp only []
    unfold FConf.begin
    rcases ht : (c.threads 0).todo with _ | ⟨op, todo⟩
    · exact hsame
    · rw [hS]
      have hop := hp0 op ((hI.thr 0).todo.subset (by rw [ht]; simp))
      rcases op with _ | _ | ⟨lo, hi⟩
      · cases hop
      · cases hop
      · refine hd.move0 hI ⟨todo, some (.s1 lo hi), (c.threads 0).done⟩ [] [] ?_ (by simp) (by simp) rfl (Or.inr rfl) (by rw [hn]; simp) (le_refl _) (fun i _ => rfl) rfl (fun _ => rfl) hcont
        funext u; by_cases hu : u = 0 <;> simp [FConf.goto, FConf.setThread, hu]
  · have hsw : fIsSwap (c.threads 0).now = true := by
      rcases hd.t0 with e | e
      · rw [hn] at e; cases e
      · exact e
    rw [hn] at hsw
    cases ph with
    | s1 lo hi =>
      have hl : linStep c 0 = [] := by unfold linStep; rw [hn]
      rw [hl]
      unfold FConf.step
      rw [hn]
      simp only []
      split
      · exact hsame
      · refine hd.move0 hI ⟨(c.threads 0).todo, some (.s2 lo hi), (c.threads 0).done⟩ [] [] ?_ (by simp) (by simp) rfl (Or.inr rfl) (by rw [hn]; simp) (le_refl _) (fun i _ => rfl) rfl (fun _ => rfl) hcont
        funext u; by_cases hu : u = 0 <;> simp [FConf.goto, FConf.setThread, FConf.dropCur, hu]
    | s2 lo hi =>
      unfold FConf.step linStep
      rw [hn]
      simp only []
      unfold FConf.stepS2
      by_cases hc : c.curR = []
      · rw [if_neg (by simp [hc]), if_pos hc, hS]
        simp only []
        have h1 : fHoldsCur (c.threads 1).now = false := by
          by_contra hh
          have := (hI.curR 1).mpr (eq_true_of_ne_false hh)
          rw [hc] at this; cases this
        have hnw : notWriting (c.threads 1).now = true := by
          revert h1; generalize (c.threads 1).now = ph; intro h1
          rcases ph with _ | ph
          · rfl
          · cases ph <;> simp_all [notWriting, fHoldsCur]
        have hni : insOf (c.threads 1).now = none := by
          revert h1; generalize (c.threads 1).now = ph; intro h1
          rcases ph with _ | ph
          · rfl
          · cases ph <;> simp_all [insOf, fHoldsCur]
        rw [hd.unlocked hI hni hS]
        simp only []
        refine hd.move0 hI ⟨(c.threads 0).todo, none, (c.threads 0).done ++ [.swapped lo hi]⟩ [.swap lo hi] [.swapped lo hi] ?_ (by simp [DbOp.isSwap]) rfl rfl (Or.inl rfl)
          (by rw [hn]; simp) (by simp [FConf.finish, FConf.setThread]) ?_ ?_ (by rw [h1]; simp) ?_
        · funext u; by_cases hu : u = 0 <;> simp [FConf.finish, FConf.setThread, hu]
        · intro i hi
          unfold storeAt
          simp only [FConf.finish, FConf.setThread]
          rw [List.getElem?_append_left hi]
        · simp only [FConf.finish, FConf.setThread, List.length_singleton]; exact hI.len
        · obtain ⟨pre, g1, g2⟩ := hd.cont
          have := (g1 S.store.start_ S.store.end_ (by simp only [fWin, hS, Option.map_some])).nil hnw
          subst this
          refine ⟨[], fun lo hi _ => ?_, ?_⟩
          · have g := g1 S.store.start_ S.store.end_ (by simp only [fWin, hS, Option.map_some])
            revert hnw; generalize (c.threads 1).now = ph; intro hnw
            rcases ph with _ | ph
            · rfl
            · cases ph <;> first | rfl | cases hnw
          · intro i lo' hi' hF hw
            have hfin : ∀ (i : Nat) (lo hi : U64), (if i = c.chunks.length then insideOnly lo hi [] else []) = [] := by
              intro i lo hi; split <;> rfl
            simp only [FConf.finish, FConf.setThread, hfin] at hw ⊢
            rw [SeqDb.run_snoc]
            have hall : ((G0.run L).after (.swap lo hi)).all = (G0.run L).all ++ [⟨lo, hi, []⟩] := rfl
            rw [hall]
            have hlen : (G0.run L).all.length = c.chunks.length := by rw [SeqDb.len_all, hd.glen, hI.len]
            by_cases hil : i < c.chunks.length
            · unfold fWin at hw
              rw [List.getElem?_append_left hil] at hw
              obtain ⟨d, e1, e2, e3, e4⟩ := g2 i lo' hi' hF hw
              refine ⟨d, ?_, e2, e3, ?_⟩
              · rw [List.getElem?_append_left (by omega)]; exact e1
              · rw [e4]; split
                · simp [insideOnly]
                · rfl
            · by_cases hie : i = c.chunks.length
              · subst hie
                unfold fWin at hw
                rw [List.getElem?_append_right (le_refl _)] at hw
                simp only [Nat.sub_self, List.getElem?_cons_zero, Option.map_some, Option.some.injEq, Prod.mk.injEq] at hw
                refine ⟨⟨lo, hi, []⟩, ?_, hw.1, hw.2, ?_⟩
                · rw [← hlen, List.getElem?_append_right (le_refl _)]; simp
                · have : histOf c.log c.chunks.length = [] := by
                    unfold histOf
                    rw [List.filter_eq_nil_iff.mpr]
                    · rfl
                    · intro e he
                      have := (hI.ev e he).2
                      have := hI.len
                      simp; omega
                  rw [this]; rfl
              · unfold fWin at hw
                rw [List.getElem?_eq_none (by simp; omega)] at hw
                cases hw
      · rw [if_pos (by simpa using hc), if_neg hc]
        exact hsame
    | _ => cases hsw

end Verif
