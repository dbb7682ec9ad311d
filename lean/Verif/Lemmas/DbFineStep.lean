import Verif.Lemmas.DbFine
namespace Verif
open List

section
variable {F : List SChunk} {B : Kit} {progs : Nat → List DbOp} {n : Nat} {c : FConf}

theorem inside_keep {lo hi : U64} {p : TimePoint} (hin : inside lo hi p = true) : keepPoint lo hi p = true := by
  simp only [inside, Bool.and_eq_true, decide_eq_true_eq] at hin
  simp only [keepPoint, Bool.and_eq_true, decide_eq_true_eq]
  refine ⟨⟨by omega, by omega⟩, ?_⟩
  intro e0
  rw [e0] at hin
  simp at hin

theorem edges_append (lo hi : U64) (a b : List TimePoint) : edges lo hi (a ++ b) = edges lo hi a + edges lo hi b := by
  unfold edges; rw [List.filter_append, List.length_append]

theorem FInv.begin (hf : FineProgs progs) (h : FInv F B progs n c) (t : Nat) (hn : (c.threads t).now = none) :
    FInv F B progs (n + 1) (c.begin t) := by
  obtain ⟨S, hS⟩ := h.getCur
  have hT := h.thr t
  unfold FConf.begin
  rcases ht : (c.threads t).todo with _ | ⟨op, todo⟩
  · exact h.same
  · rw [hS]
    simp only []
    have hsuf := suffix_tail (ht ▸ hT.todo)
    have hsub := hT.sub
    rw [hn, ht] at hsub
    simp only [fPhasePoints, List.nil_append, progPoints, List.flatMap_cons] at hsub
    have hs0 : fIsS2 (c.threads t).now = false := by rw [hn]; rfl
    have hmv : ∀ ph, fHoldsCur (some ph) = true → fIsS2 (some ph) = false → insOf (some ph) = none →
        FTInv (progs t) (fWin c.chunks) (fFin c.chunks) c.current c.log t ⟨todo, some ph, (c.threads t).done⟩ →
        FInv F B progs (n + 1) (({ c.setThread t { c.threads t with todo := todo } with curR := t :: c.curR } : FConf).goto t ph) := by
      intro ph h1 h2 h3 hT'
      have hth : ((({ c.setThread t { c.threads t with todo := todo } with curR := t :: c.curR } : FConf).goto t ph)).threads =
          fun u => if u = t then ⟨todo, some ph, (c.threads t).done⟩ else c.threads u := by
        funext u; by_cases hu : u = t <;> simp [FConf.goto, FConf.setThread, hu]
      refine h.move t ⟨todo, some ph, (c.threads t).done⟩ _ rfl rfl rfl hth ?_ ?_ (by rw [hn]; rfl) h3 hT'
      · rw [hth]; exact h.sec_same (t := t) (th := ⟨todo, some ph, (c.threads t).done⟩) h2 hs0
      · intro u
        rw [hth]
        exact fcur_add h.curR (t := t) (th := ⟨todo, some ph, (c.threads t).done⟩) h1 u
    rcases op with ⟨ls, ps⟩ | ⟨q, a, b⟩ | ⟨lo, hi⟩
    · refine hmv _ rfl rfl rfl ⟨hsuf.2, ?_, ?_, by simp, hT.done, by simp [fIsSwap], by simp [fReads]⟩
      · refine List.Sublist.trans (List.Sublist.append (List.Sublist.refl _) (List.Sublist.append ?_ (List.Sublist.refl _))) hsub
        exact List.filter_sublist.map _
      · intro ls' ps' rest f e
        simp only [Option.some.injEq, FPhase.writing.injEq] at e
        obtain ⟨rfl, rfl, rfl, rfl⟩ := e
        exact ⟨hsuf.1, S.store.start_, S.store.end_, by simp [fWin, hS], [], rfl, by simp, rfl⟩
    · exact hmv _ rfl rfl rfl ⟨hsuf.2, by simpa [fPhasePoints, opPoints, progPoints] using hsub, by simp, by simp, hT.done, by simp [fIsSwap], by simp [fReads]⟩
    · exact hmv _ rfl rfl rfl ⟨hsuf.2, by simpa [fPhasePoints, opPoints, progPoints] using hsub, by simp, by simp, hT.done,
        fun h0 => absurd (hf.swap t lo hi hsuf.1) h0, by simp [fReads]⟩

theorem FInv.win_eq (h : FInv F B progs n c) {S : FChunk} (hS : c.chunks[c.current]? = some S) {lo hi : U64}
    (hw : fWin c.chunks c.current = some (lo, hi)) : lo = S.store.start_ ∧ hi = S.store.end_ := by
  simp only [fWin, hS, Option.map_some, Option.some.injEq, Prod.mk.injEq] at hw
  exact ⟨hw.1.symm, hw.2.symm⟩

theorem FInv.writing (hf : FineProgs progs) (h : FInv F B progs n c) (t : Nat) {ls : Labels} {ps rest : List TimePoint} {f : Nat}
    (hn : (c.threads t).now = some (.writing ls ps rest f)) : FInv F B progs (n + 1) (c.stepWriting B t ls ps rest f) := by
  obtain ⟨S, hS⟩ := h.getCur
  have hT := h.thr t
  obtain ⟨hop, lo, hi, hw, pre, hpre, hall, hfs⟩ := hT.writing ls ps rest f hn
  obtain ⟨rfl, rfl⟩ := h.win_eq hS hw
  have hs0 : fIsS2 (c.threads t).now = false := by rw [hn]; rfl
  unfold FConf.stepWriting
  rw [hS]
  rcases rest with _ | ⟨p, rest⟩
  · simp only []
    let th : FThread := ⟨(c.threads t).todo, none, (c.threads t).done ++ [.wrote ls ps (if f = 0 then .ok () else .err .internal) S.store.start_ S.store.end_]⟩
    have hth : ((c.dropCur t).finish t (.wrote ls ps (if f = 0 then .ok () else .err .internal) S.store.start_ S.store.end_)).threads =
        fun u => if u = t then th else c.threads u := by
      funext u; by_cases hu : u = t <;> simp [FConf.finish, FConf.setThread, FConf.dropCur, hu, th]
    refine h.move t th _ rfl rfl rfl hth ?_ ?_ (by rw [hn]; rfl) rfl ⟨hT.todo, ?_, by simp [th], by simp [th], ?_, by simp [th, fIsSwap], by simp [th, fReads]⟩
    · rw [hth]; exact h.sec_same (t := t) (th := th) rfl hs0
    · intro u; rw [hth]; exact fcur_drop h.curR (t := t) (th := th) rfl u
    · have := hT.sub
      rw [hn] at this
      simpa [fPhasePoints, th] using this
    · intro ls' ps' r lo' hi' hd
      rcases List.mem_append.mp hd with hd | hd
      · exact hT.done ls' ps' r lo' hi' hd
      · simp only [List.mem_singleton, Out.wrote.injEq] at hd
        obtain ⟨rfl, rfl, rfl, rfl, rfl⟩ := hd
        rw [List.append_nil] at hpre
        exact ⟨hop, by rw [hpre, ← hfs], c.current, le_refl _, hw, by rw [hpre]; exact hall⟩
  · simp only []
    rcases hl : S.lock with _ | x
    swap
    · exact h.same
    simp only []
    let th : FThread := ⟨(c.threads t).todo, some (.inserting ls ps p rest f), (c.threads t).done⟩
    have hth : (({ c.setChunk c.current { S with lock := some (t, (ls, p), (kitInsert B) (ls, p)) } with log := c.log ++ [⟨t, c.current, ls, p⟩] } : FConf).goto t
        (.inserting ls ps p rest f)).threads = fun u => if u = t then th else c.threads u := by
      funext u; by_cases hu : u = t <;> simp [FConf.goto, FConf.setThread, FConf.setChunk, hu, th]
    have hpp : p ∈ ps := by
      have : p ∈ ps.filter (keepPoint S.store.start_ S.store.end_) := by rw [hpre]; simp
      exact List.mem_of_mem_filter this
    obtain ⟨todo0, hs⟩ := h.sys _ _ hS h.base
    refine h.update t th hS [⟨t, c.current, ls, p⟩] _ rfl rfl rfl hth ?_ ?_ ?_ (by simp) ⟨rfl, rfl⟩ (hs.take hl t (ls, p)) ?_ (List.prefix_refl _) ?_ ?_
    · rw [hth]; exact h.sec_same (t := t) (th := th) rfl hs0
    · intro u; rw [hth]; exact fcur_same h.curR (t := t) (th := th) (by rw [hn]; rfl) u
    · intro e he
      rw [List.mem_singleton] at he
      subst he
      exact ⟨rfl, rfl, hf.wf t ls ps hop, ps, hop, hpp⟩
    · simp [Sys.started, hl]
    · intro u w
      rw [hth]
      have hno : ∀ w, insOf (c.threads u).now ≠ some w := by
        intro w e
        obtain ⟨pr, he⟩ := (h.lock _ _ hS u w).mpr ⟨rfl, e⟩
        rw [hl] at he; cases he
      by_cases hu : u = t
      · subst hu; simp [th, insOf]
      · have hu' : ¬ t = u := fun e => hu e.symm
        simp [hu, hu', hno w]
    · refine ⟨hT.todo, ?_, by simp [th], ?_, ?_, by simp [th, fIsSwap], by simp [th, fReads]⟩
      · have := hT.sub
        rw [hn] at this
        rw [byThread_append, if_pos rfl]
        simpa [fPhasePoints, th] using this
      · intro ls' ps' p' rest' f' e
        simp only [th, Option.some.injEq, FPhase.inserting.injEq] at e
        obtain ⟨rfl, rfl, rfl, rfl, rfl⟩ := e
        refine ⟨hop, _, _, hw, pre, hpre, fun q hq => ?_, hfs⟩
        exact fFin_set (S' := { S with lock := some (t, (ls, p), (kitInsert B) (ls, p)) }) hS (List.prefix_refl _) _ _ (hall q hq)
      · intro ls' ps' r lo' hi' hd
        obtain ⟨h1, h0, i, hle, h2, h3⟩ := hT.done ls' ps' r lo' hi' hd
        exact ⟨h1, h0, i, hle, h2, fun p' hp => fFin_set (S' := { S with lock := some (t, (ls, p), (kitInsert B) (ls, p)) }) hS (List.prefix_refl _) _ _ (h3 p' hp)⟩

theorem FInv.inserting (hb : n + 1 < 2 ^ 64 - 1) (h : FInv F B progs n c) (t : Nat) {ls : Labels} {ps : List TimePoint} {p : TimePoint} {rest : List TimePoint}
    {f : Nat} (hn : (c.threads t).now = some (.inserting ls ps p rest f)) : FInv F B progs (n + 1) (c.stepInserting t ls ps rest f) := by
  obtain ⟨S, hS⟩ := h.getCur
  have hT := h.thr t
  obtain ⟨hop, lo, hi, hw, pre, hpre, hall, hfs⟩ := hT.inserting ls ps p rest f hn
  obtain ⟨rfl, rfl⟩ := h.win_eq hS hw
  have hs0 : fIsS2 (c.threads t).now = false := by rw [hn]; rfl
  obtain ⟨pr, hl⟩ := (h.lock _ _ hS t (ls, p)).mpr ⟨rfl, by rw [hn]; rfl⟩
  obtain ⟨todo0, hs⟩ := h.sys _ _ hS h.base
  have hfine := h.fine hb c.current
  rw [← h.started _ _ hS] at hfine
  have hsub := hT.sub
  rw [hn] at hsub
  have hothers : ∀ u w, u ≠ t → insOf (c.threads u).now ≠ some w := by
    intro u w hu e
    obtain ⟨pr', he⟩ := (h.lock _ _ hS u w).mpr ⟨rfl, e⟩
    rw [hl] at he
    simp only [Option.some.injEq, Prod.mk.injEq] at he
    exact hu he.1.symm
  unfold FConf.stepInserting
  rw [hS]
  simp only [hl, if_true]
  have hstep := hs.step t
  rcases pr with r | ⟨u, k⟩
  · -- the end of the insert
    have e : S.step (kitInsert B) t = { S with lock := none, finished := S.finished ++ [(t, (ls, p), r)] } := by simp only [Sys.step, hl, if_true]
    rw [e] at hstep
    have hst' : ({ S with lock := none, finished := S.finished ++ [(t, (ls, p), r)] } : FChunk).started = S.started := by
      simp [Sys.started, hl]
    have hr := hs.result hfine hl
    have hfin : S.finished <+: S.finished ++ [(t, (ls, p), r)] := List.prefix_append _ _
    have hgo : ∀ f', f' = edges S.store.start_ S.store.end_ (pre ++ [p]) → FInv F B progs (n + 1)
        ((c.setChunk c.current { S with lock := none, finished := S.finished ++ [(t, (ls, p), r)] }).goto t (.writing ls ps rest f')) := by
      intro f' hf'
      let th : FThread := ⟨(c.threads t).todo, some (.writing ls ps rest f'), (c.threads t).done⟩
      have hth : ((c.setChunk c.current { S with lock := none, finished := S.finished ++ [(t, (ls, p), r)] }).goto t (.writing ls ps rest f')).threads =
          fun u => if u = t then th else c.threads u := by
        funext u; by_cases hu : u = t <;> simp [FConf.goto, FConf.setThread, FConf.setChunk, hu, th]
      refine h.update t th hS [] _ rfl rfl (by simp [FConf.goto, FConf.setThread, FConf.setChunk]) hth ?_ ?_ (by simp) (by simp) ⟨rfl, rfl⟩ ⟨todo0, hstep⟩ ?_ hfin ?_ ?_
      · rw [hth]; exact h.sec_same (t := t) (th := th) rfl hs0
      · intro u; rw [hth]; exact fcur_same h.curR (t := t) (th := th) (by rw [hn]; rfl) u
      · rw [hst']; simp
      · intro u w
        rw [hth]
        by_cases hu : u = t
        · subst hu; simp [th, insOf]
        · simp [hu, hothers u w hu]
      · rw [List.append_nil]
        refine ⟨hT.todo, by simpa [fPhasePoints, th] using hsub, ?_, by simp [th], ?_, by simp [th, fIsSwap], by simp [th, fReads]⟩
        · intro ls' ps' rest' f'' e
          simp only [th, Option.some.injEq, FPhase.writing.injEq] at e
          obtain ⟨rfl, rfl, rfl, rfl⟩ := e
          refine ⟨hop, _, _, hw, pre ++ [p], by rw [hpre]; simp, ?_, hf'⟩
          intro q hq
          rcases List.mem_append.mp hq with hq | hq
          · exact fFin_set hS hfin _ _ (hall q hq)
          · rw [List.mem_singleton.mp hq]
            have hlt : c.current < c.chunks.length := by rw [h.len]; omega
            show (ls, p) ∈ fFin (c.chunks.set c.current _) c.current
            simp only [fFin, List.getElem?_set, hlt, if_true, Option.map_some, Option.getD_some, List.map_append, List.map_cons, List.map_nil]
            simp
        · intro ls' ps' r' lo' hi' hd
          obtain ⟨h1, h0, i, hle, h2, h3⟩ := hT.done ls' ps' r' lo' hi' hd
          exact ⟨h1, h0, i, hle, h2, fun p hp => fFin_set hS hfin _ _ (h3 p hp)⟩
    by_cases hin : inside S.store.start_ S.store.end_ p = true
    · rw [if_pos hin] at hr
      subst hr
      exact hgo f (by rw [edges_append, hfs]; simp [edges, hin])
    · rw [if_neg hin] at hr
      subst hr
      exact hgo (f + 1) (by rw [edges_append, hfs]; simp [edges, hin])
  · -- one operation
    have e : S.step (kitInsert B) t = { S with store := u S.store, lock := some (t, (ls, p), k S.store) } := by simp only [Sys.step, hl, if_true]
    rw [e] at hstep
    have hst' : ({ S with store := u S.store, lock := some (t, (ls, p), k S.store) } : FChunk).started = S.started := by
      simp [Sys.started, hl]
    have hwin := hstep.win (by rw [hst']; exact hfine)
    have hth : (c.setChunk c.current { S with store := u S.store, lock := some (t, (ls, p), k S.store) }).threads =
        fun u => if u = t then c.threads t else c.threads u := by
      funext u; by_cases hu : u = t <;> simp [FConf.setChunk, hu]
    refine h.update t (c.threads t) hS [] _ rfl rfl (by simp [FConf.setChunk]) hth ?_ ?_ (by simp) (by simp) ⟨hwin.1, hwin.2.1⟩ ⟨todo0, hstep⟩ ?_ (List.prefix_refl _) ?_ ?_
    · rw [hth]; exact h.sec_same (t := t) (th := c.threads t) hs0 hs0
    · intro u; rw [hth]; exact fcur_same h.curR (t := t) (th := c.threads t) rfl u
    · rw [hst']; simp
    · intro u w
      rw [hth]
      by_cases hu : u = t
      · subst hu; simp [hn, insOf]
      · have hu' : ¬ t = u := fun e => hu e.symm
        simp [hu, hu', hothers u w hu]
    · rw [List.append_nil]
      exact hT.mono rfl (fun i => by exact fFin_set (S' := { S with store := u S.store, lock := some (t, (ls, p), k S.store) }) hS (List.prefix_refl _) i) rfl

/-- A query thread moves on; it keeps or drops the read lock of the current chunk. -/
theorem FInv.query (h : FInv F B progs n c) (t : Nat) (now : Option FPhase) (outs : List Out) (c' : FConf) (e1 : c'.chunks = c.chunks)
    (e2 : c'.current = c.current) (e3 : c'.log = c.log) (e4 : c'.secondary = c.secondary)
    (hth : c'.threads = fun u => if u = t then ⟨(c.threads t).todo, now, (c.threads t).done ++ outs⟩ else c.threads u)
    (hcur : ∀ u, u ∈ c'.curR ↔ fHoldsCur (c'.threads u).now = true)
    (hi0 : insOf (c.threads t).now = none) (hp0 : fPhasePoints (c.threads t).now = []) (hs0 : fIsSwap (c.threads t).now = false)
    (hi1 : insOf now = none) (hp1 : fPhasePoints now = []) (hs1 : fIsSwap now = false) (hw1 : ∀ ls ps rest f, now ≠ some (.writing ls ps rest f))
    (hro : ∀ p, fReads now = some p → ReadOnly p) (hout : ∀ ls ps r lo hi, Out.wrote ls ps r lo hi ∉ outs) : FInv F B progs (n + 1) c' := by
  have hT := h.thr t
  have sw : ∀ x : Option FPhase, fIsSwap x = false → fIsS2 x = false := by
    intro x; rcases x with _ | x
    · simp [fIsS2]
    · cases x <;> simp [fIsS2, fIsSwap]
  refine h.move t _ c' e1 e2 e3 hth ?_ hcur hi0 hi1 ⟨hT.todo, ?_, fun ls ps rest f e => absurd e (hw1 ls ps rest f), ?_, ?_, fun _ => hs1, hro⟩
  · rw [e4, hth]; exact h.sec_same (t := t) (th := ⟨(c.threads t).todo, now, (c.threads t).done ++ outs⟩) (sw _ hs1) (sw _ hs0)
  · have := hT.sub
    rw [hp0] at this
    simpa [hp1] using this
  · intro ls ps p rest f e
    simp only at e
    rw [e] at hi1; cases hi1
  · intro ls ps r lo hi hd
    rcases List.mem_append.mp hd with hd | hd
    · exact hT.done ls ps r lo hi hd
    · exact absurd hd (hout ls ps r lo hi)

theorem FInv.setSame (h : FInv F B progs n c) {i : Nat} {S : FChunk} (hS : c.chunks[i]? = some S) {u : SChunk → SChunk} (hu : ∀ s, u s = s) :
    c.setChunk i { S with store := u S.store } = c := by
  rw [hu]
  unfold FConf.setChunk
  rw [set_self hS]

/-- Keep the lock. -/
theorem FInv.qkeep (h : FInv F B progs n c) (t : Nat) (ph : FPhase) 
    (hh : fHoldsCur (some ph) = fHoldsCur (c.threads t).now)
    (hi0 : insOf (c.threads t).now = none) (hp0 : fPhasePoints (c.threads t).now = []) (hs0 : fIsSwap (c.threads t).now = false)
    (hi1 : insOf (some ph) = none) (hp1 : fPhasePoints (some ph) = []) (hs1 : fIsSwap (some ph) = false) (hw1 : ∀ ls ps rest f, ph ≠ .writing ls ps rest f)
    (hro : ∀ p, fReads (some ph) = some p → ReadOnly p) (sR : List Nat) : FInv F B progs (n + 1) (({ c with secR := sR } : FConf).goto t ph) := by
  have hth : (({ c with secR := sR } : FConf).goto t ph).threads = fun u => if u = t then ⟨(c.threads t).todo, some ph, (c.threads t).done ++ []⟩ else c.threads u := by
    funext u; by_cases hu : u = t <;> simp [FConf.goto, FConf.setThread, hu]
  refine h.query t (some ph) [] _ rfl rfl rfl rfl hth ?_ hi0 hp0 hs0 hi1 hp1 hs1 (by intro ls ps rest f e; exact hw1 ls ps rest f (Option.some.inj e)) hro (by simp)
  intro u
  rw [hth]
  exact fcur_same h.curR (t := t) (th := ⟨(c.threads t).todo, some ph, (c.threads t).done ++ []⟩) hh u

/-- Drop the lock. -/
theorem FInv.qdrop (h : FInv F B progs n c) (t : Nat) (now : Option FPhase) (outs : List Out) (c' : FConf) (e1 : c'.chunks = c.chunks)
    (e2 : c'.current = c.current) (e3 : c'.log = c.log) (e4 : c'.secondary = c.secondary)
    (hth : c'.threads = fun u => if u = t then ⟨(c.threads t).todo, now, (c.threads t).done ++ outs⟩ else c.threads u)
    (hc : c'.curR = c.curR.filter (· ≠ t) ∨ (c'.curR = c.curR ∧ fHoldsCur (c.threads t).now = false)) (hh : fHoldsCur now = false)
    (hi0 : insOf (c.threads t).now = none) (hp0 : fPhasePoints (c.threads t).now = []) (hs0 : fIsSwap (c.threads t).now = false)
    (hi1 : insOf now = none) (hp1 : fPhasePoints now = []) (hs1 : fIsSwap now = false) (hw1 : ∀ ls ps rest f, now ≠ some (.writing ls ps rest f))
    (hro : ∀ p, fReads now = some p → ReadOnly p) (hout : ∀ ls ps r lo hi, Out.wrote ls ps r lo hi ∉ outs) : FInv F B progs (n + 1) c' := by
  refine h.query t now outs c' e1 e2 e3 e4 hth ?_ hi0 hp0 hs0 hi1 hp1 hs1 hw1 hro hout
  intro u
  rw [hth]
  rcases hc with hc | ⟨hc, h0⟩
  · rw [hc]
    exact fcur_drop h.curR (t := t) (th := ⟨(c.threads t).todo, now, (c.threads t).done ++ outs⟩) hh u
  · rw [hc]
    exact fcur_same h.curR (t := t) (th := ⟨(c.threads t).todo, now, (c.threads t).done ++ outs⟩) (hh.trans h0.symm) u

theorem beginQuery_ro {S : FChunk} {q : Labels} {a b : U64} {p : Proc SChunk (Res (List Series))} (h : FChunk.beginQuery B S q a b = some p) : ReadOnly p := by
  unfold FChunk.beginQuery at h
  split at h
  · cases h
  · simp only [Option.some.injEq] at h
    subst h
    split
    · exact .ret _
    · exact kitQuery_readOnly B _ _ _

theorem FInv.q1 (h : FInv F B progs n c) (t : Nat) {q : Labels} {a b : U64} (hn : (c.threads t).now = some (.q1 q a b)) :
    FInv F B progs (n + 1) (c.stepQ1 B t q a b) := by
  obtain ⟨S, hS⟩ := h.getCur
  unfold FConf.stepQ1
  rw [hS]
  simp only []
  rcases hp : FChunk.beginQuery B S q a b with _ | p
  · exact h.same
  · simp only []
    exact h.qkeep t (.reading1 q a b p) (by rw [hn]; rfl) (by rw [hn]; rfl) (by rw [hn]; rfl) (by rw [hn]; rfl) rfl rfl rfl (by simp)
      (by intro p' e; simp only [fReads, Option.some.injEq] at e; subst e; exact beginQuery_ro hp) c.secR

theorem FInv.reading1 {H : Hash} (h : FInv F B progs n c) (t : Nat) {q : Labels} {a b : U64} {p : Proc SChunk (Res (List Series))}
    (hn : (c.threads t).now = some (.reading1 q a b p)) : FInv F B progs (n + 1) (c.stepReading1 H t q a b p) := by
  obtain ⟨S, hS⟩ := h.getCur
  have hro := (h.thr t).ro p (by rw [hn]; rfl)
  rcases p with r | ⟨u, k⟩
  · simp only [FConf.stepReading1]
    split
    · refine h.qdrop t none [.answered q a b .panic] _ rfl rfl rfl rfl ?_ (Or.inl rfl) rfl (by rw [hn]; rfl) (by rw [hn]; rfl) (by rw [hn]; rfl) rfl rfl rfl (by simp) (by simp [fReads]) (by simp)
      funext u; by_cases hu : u = t <;> simp [FConf.finish, FConf.setThread, FConf.dropCur, hu]
    · rename_i m _
      refine h.qdrop t (some (.q2 q a b m)) [] _ rfl rfl rfl rfl ?_ (Or.inl rfl) rfl (by rw [hn]; rfl) (by rw [hn]; rfl) (by rw [hn]; rfl) rfl rfl rfl (by simp) (by simp [fReads]) (by simp)
      funext u; by_cases hu : u = t <;> simp [FConf.goto, FConf.setThread, FConf.dropCur, hu]
  · simp only [FConf.stepReading1, hS]
    cases hro with
    | act hu hk =>
      rw [h.setSame hS hu]
      exact h.qkeep t (.reading1 q a b (k S.store)) (by rw [hn]; rfl) (by rw [hn]; rfl) (by rw [hn]; rfl) (by rw [hn]; rfl) rfl rfl rfl (by simp)
        (by intro p' e; simp only [fReads, Option.some.injEq] at e; subst e; exact hk _) c.secR

theorem FInv.q3 {H : Hash} (h : FInv F B progs n c) (t : Nat) {q : Labels} {a b : U64} {ids : List Nat} {m : HMap}
    (hn : (c.threads t).now = some (.q3 q a b ids m)) : FInv F B progs (n + 1) (c.stepQ3 B H t q a b ids m) := by
  unfold FConf.stepQ3
  rcases ids with _ | ⟨i, ids⟩
  · simp only []
    refine h.qdrop t none [.answered q a b (Res.ofPanic (collectKeys H m (H.order (m.map (·.1)))))] _ rfl rfl rfl rfl ?_ (Or.inr ⟨rfl, by rw [hn]; rfl⟩) rfl (by rw [hn]; rfl) (by rw [hn]; rfl) (by rw [hn]; rfl) rfl rfl rfl (by simp) (by simp [fReads]) (by simp)
    funext u; by_cases hu : u = t <;> simp [FConf.finish, FConf.setThread, FConf.dropSec, hu]
  · simp only []
    split
    · exact h.same
    · rename_i S hS
      split
      · split
        · exact h.same
        · rename_i p hp
          exact h.qkeep t (.reading3 q a b i ids m p) (by rw [hn]; rfl) (by rw [hn]; rfl) (by rw [hn]; rfl) (by rw [hn]; rfl) rfl rfl rfl (by simp)
            (by intro p' e; simp only [fReads, Option.some.injEq] at e; subst e; exact beginQuery_ro hp) c.secR
      · exact h.qkeep t (.q3 q a b ids m) (by rw [hn]; rfl) (by rw [hn]; rfl) (by rw [hn]; rfl) (by rw [hn]; rfl) rfl rfl rfl (by simp)
          (by simp [fReads]) c.secR

theorem FInv.reading3 {H : Hash} (h : FInv F B progs n c) (t : Nat) {q : Labels} {a b : U64} {i : Nat} {ids : List Nat} {m : HMap} {p : Proc SChunk (Res (List Series))}
    (hn : (c.threads t).now = some (.reading3 q a b i ids m p)) : FInv F B progs (n + 1) (c.stepReading3 H t q a b i ids m p) := by
  have hro := (h.thr t).ro p (by rw [hn]; rfl)
  rcases p with r | ⟨u, k⟩
  · simp only [FConf.stepReading3]
    split
    · refine h.qdrop t none [.answered q a b .panic] _ rfl rfl rfl rfl ?_ (Or.inr ⟨rfl, by rw [hn]; rfl⟩) rfl (by rw [hn]; rfl) (by rw [hn]; rfl) (by rw [hn]; rfl) rfl rfl rfl (by simp) (by simp [fReads]) (by simp)
      funext u; by_cases hu : u = t <;> simp [FConf.finish, FConf.setThread, FConf.dropSec, hu]
    · rename_i m' _
      exact h.qkeep t (.q3 q a b ids m') (by rw [hn]; rfl) (by rw [hn]; rfl) (by rw [hn]; rfl) (by rw [hn]; rfl) rfl rfl rfl (by simp)
          (by simp [fReads]) c.secR
  · simp only [FConf.stepReading3]
    rcases hS : c.chunks[i]? with _ | S
    · exact h.same
    · simp only []
      cases hro with
      | act hu hk =>
        rw [h.setSame hS hu]
        exact h.qkeep t (.reading3 q a b i ids m (k S.store)) (by rw [hn]; rfl) (by rw [hn]; rfl) (by rw [hn]; rfl) (by rw [hn]; rfl) rfl rfl rfl (by simp)
          (by intro p' e; simp only [fReads, Option.some.injEq] at e; subst e; exact hk _) c.secR

theorem FInv.s1 (h : FInv F B progs n c) (t : Nat) {lo hi : U64} (hn : (c.threads t).now = some (.s1 lo hi)) :
    FInv F B progs (n + 1) ((({ c with secondary := c.secondary ++ [c.current] } : FConf).dropCur t).goto t (.s2 lo hi)) := by
  have hT := h.thr t
  have ht : t = 0 := by
    by_contra h0
    have := hT.swaps h0
    rw [hn] at this; cases this
  subst ht
  let th : FThread := ⟨(c.threads 0).todo, some (.s2 lo hi), (c.threads 0).done⟩
  have hth : ((({ c with secondary := c.secondary ++ [c.current] } : FConf).dropCur 0).goto 0 (.s2 lo hi)).threads = fun u => if u = 0 then th else c.threads u := by
    funext u; by_cases hu : u = 0 <;> simp [FConf.goto, FConf.setThread, FConf.dropCur, hu, th]
  refine h.move 0 th _ rfl rfl rfl hth ?_ ?_ (by rw [hn]; rfl) rfl ⟨hT.todo, ?_, by simp [th], by simp [th], hT.done, by simp, by simp [th, fReads]⟩
  · have := h.sec
    rw [hn] at this
    simp only [fIsS2, Bool.false_eq_true, if_false] at this
    rw [hth]
    simp [FConf.goto, FConf.setThread, FConf.dropCur, this, fIsS2, List.range_succ, th]
  · intro u
    rw [hth]
    exact fcur_drop h.curR (t := 0) (th := th) rfl u
  · have := hT.sub
    rw [hn] at this
    exact this

theorem FInv.s2 (h : FInv F B progs n c) (t : Nat) {lo hi : U64} (hn : (c.threads t).now = some (.s2 lo hi)) :
    FInv F B progs (n + 1) (c.stepS2 t lo hi) := by
  obtain ⟨S, hS⟩ := h.getCur
  have hT := h.thr t
  have ht : t = 0 := by
    by_contra h0
    have := hT.swaps h0
    rw [hn] at this; cases this
  subst ht
  unfold FConf.stepS2
  by_cases hcur : c.curR ≠ []
  · rw [if_pos hcur]; exact h.same
  · rw [if_neg hcur, hS]
    simp only [ne_eq, not_not] at hcur
    simp only []
    rcases hl : S.lock with _ | x
    swap
    · exact h.same
    simp only []
    have hlen := h.len
    let th : FThread := ⟨(c.threads 0).todo, none, (c.threads 0).done ++ [.swapped lo hi]⟩
    let c' : FConf := ({ c with
      chunks := c.chunks ++ [Sys.init (Chunk.new ⟨KV.empty, KV.empty⟩ lo hi) (fun _ => [])]
      closed := c.closed ++ [c.current]
      current := c.chunks.length } : FConf).finish 0 (.swapped lo hi)
    show FInv F B progs (n + 1) c'
    have hth : ∀ u, c'.threads u = if u = 0 then th else c.threads u := by
      intro u; by_cases hu : u = 0 <;> simp [c', FConf.finish, FConf.setThread, hu, th]
    have e1 : c'.chunks = c.chunks ++ [Sys.init (newSled lo hi) (fun _ => [])] := rfl
    have e2 : c'.current = c.chunks.length := rfl
    have e3 : c'.log = c.log := rfl
    have e4 : c'.secondary = c.secondary := rfl
    have e5 : c'.curR = c.curR := rfl
    have hget : ∀ (i : Nat) (X : FChunk), c'.chunks[i]? = some X → (i = c.chunks.length ∧ X = Sys.init (newSled lo hi) (fun _ => [])) ∨ (i ≤ c.current ∧ c.chunks[i]? = some X) := by
      intro i X hX
      rw [e1] at hX
      by_cases hi : i < c.chunks.length
      · rw [List.getElem?_append_left hi] at hX
        exact Or.inr ⟨by omega, hX⟩
      · rw [List.getElem?_append_right (by omega)] at hX
        have hi' : i = c.chunks.length := by
          by_contra hne
          obtain ⟨m, hm⟩ := Nat.exists_eq_succ_of_ne_zero (show i - c.chunks.length ≠ 0 by omega)
          rw [hm] at hX; simp at hX
        subst hi'
        simp only [Nat.sub_self, List.getElem?_cons_zero, Option.some.injEq] at hX
        exact Or.inl ⟨rfl, hX.symm⟩
    have hold : ∀ i, i ≤ c.current → c'.chunks[i]? = c.chunks[i]? := by
      intro i hi
      rw [e1, List.getElem?_append_left (by omega)]
    have hno : ∀ u, fHoldsCur (c.threads u).now = false := by
      intro u
      have := (h.curR u).not.mp (by rw [hcur]; simp)
      simpa using this
    have hnoi : ∀ u w, insOf (c.threads u).now ≠ some w := by
      intro u w e
      have := hno u
      rcases hx : (c.threads u).now with _ | ph
      · rw [hx] at e; cases e
      · rw [hx] at e this
        cases ph <;> simp [insOf, fHoldsCur] at e this
    have key : ∀ u, ∀ th', fHoldsCur th'.now = false → FTInv (progs u) (fWin c.chunks) (fFin c.chunks) c.current c.log u th' →
        FTInv (progs u) (fWin c'.chunks) (fFin c'.chunks) c'.current c'.log u th' := by
      intro u th' hw hT'
      refine ⟨hT'.todo, by rw [e3]; exact hT'.sub, ?_, ?_, ?_, hT'.swaps, hT'.ro⟩
      · intro ls ps rest f e; rw [e] at hw; cases hw
      · intro ls ps p rest f e; rw [e] at hw; cases hw
      · intro ls ps r lo' hi' hd
        obtain ⟨a1, a0, i, hle, a2, a3⟩ := hT'.done ls ps r lo' hi' hd
        exact ⟨a1, a0, i, by rw [e2, hlen]; omega, by unfold fWin; rw [hold i hle]; exact a2, by unfold fFin; rw [hold i hle]; exact a3⟩
    refine ⟨?_, ?_, ?_, by rw [e2, hlen]; have := h.base; omega, ?_, ?_, ?_, ?_, ?_, ?_, ?_, ?_⟩
    · rw [e1, e2, List.length_append, List.length_singleton]
    · rw [e4, e2, hth 0, h.sec, hn]
      simp [fIsS2, th, hlen]
    · intro u
      rw [e5, hcur, hth u]
      by_cases hu : u = 0
      · simp [hu, th, fHoldsCur]
      · simp [hu, hno u]
    · intro i s hs
      have hi : i < F.length := (List.getElem?_eq_some_iff.mp hs).1
      have := h.base
      rw [hold i (by omega)]
      exact h.froz i s hs
    · intro i X hX hge
      rcases hget i X hX with ⟨rfl, rfl⟩ | ⟨-, hX⟩
      · exact ⟨_, SysInv.init B lo hi _⟩
      · exact h.sys i X hX hge
    · intro i X hX
      rw [e3]
      rcases hget i X hX with ⟨rfl, rfl⟩ | ⟨-, hX⟩
      · have hnil : histOf c.log c.chunks.length = [] := by
          unfold histOf
          rw [List.map_eq_nil_iff, List.filter_eq_nil_iff]
          intro e he
          have := (h.ev e he).2
          simp only [decide_eq_true_eq]; omega
        rw [hnil]
        simp [Sys.started, Sys.init]
      · exact h.started i X hX
    · intro i X hX u w
      rw [hth u, e2]
      have hr : insOf (if u = 0 then th else c.threads u).now ≠ some w := by
        by_cases hu : u = 0
        · simp [hu, th, insOf]
        · simp [hu, hnoi u w]
      rcases hget i X hX with ⟨rfl, rfl⟩ | ⟨hi, hX⟩
      · simp [Sys.init, hr]
      · rw [h.lock i X hX u w]
        simp [hr, hnoi u w]
    · intro e he
      rw [e3] at he
      obtain ⟨b1, b2⟩ := h.ev e he
      exact ⟨b1, by rw [e2, hlen]; omega⟩
    · rw [e3]; exact h.own
    · rw [e3]; have := h.count; omega
    · intro u
      rw [hth u]
      by_cases hu : u = 0
      · subst hu
        rw [if_pos rfl]
        refine key 0 th rfl ⟨hT.todo, ?_, by simp [th], by simp [th], ?_, by simp, by simp [th, fReads]⟩
        · have := hT.sub
          rw [hn] at this
          exact this
        · intro ls ps r lo' hi' hd
          rcases List.mem_append.mp hd with hd | hd
          · exact hT.done ls ps r lo' hi' hd
          · simp at hd
      · rw [if_neg hu]
        exact key u _ (hno u) (h.thr u)

theorem FInv.step {H : Hash} (hf : FineProgs progs) (hb : n + 1 < 2 ^ 64 - 1) (h : FInv F B progs n c) (t : Nat) : FInv F B progs (n + 1) (c.step B H t) := by
  unfold FConf.step
  rcases hn : (c.threads t).now with _ | ph
  · exact h.begin hf t hn
  · rcases ph with ⟨ls, ps, rest, f⟩ | ⟨ls, ps, p, rest, f⟩ | ⟨q, a, b⟩ | ⟨q, a, b, p⟩ | ⟨q, a, b, m⟩ | ⟨q, a, b, ids, m⟩ | ⟨q, a, b, i, ids, m, p⟩ | ⟨lo, hi⟩ | ⟨lo, hi⟩
    · exact h.writing hf t hn
    · exact h.inserting hb t hn
    · exact h.q1 t hn
    · exact h.reading1 t hn
    · exact h.qkeep t (.q3 q a b c.secondary.reverse m) (by rw [hn]; rfl) (by rw [hn]; rfl) (by rw [hn]; rfl) (by rw [hn]; rfl) rfl rfl rfl (by simp)
          (by simp [fReads]) (t :: c.secR)
    · exact h.q3 t hn
    · exact h.reading3 t hn
    · simp only []
      split
      · exact h.same
      · exact h.s1 t hn
    · exact h.s2 t hn

theorem FInv.run {H : Hash} (hf : FineProgs progs) (sched : List Nat) : ∀ {n : Nat} {c : FConf},
    n + sched.length < 2 ^ 64 - 1 → FInv F B progs n c → FInv F B progs (n + sched.length) (c.run B H sched) := by
  induction sched with
  | nil => intro n c _ h; exact h
  | cons t ts ih =>
    intro n c hb h
    rw [List.length_cons] at hb ⊢
    have := ih (n := n + 1) (by omega) (h.step hf (by omega) t (H := H))
    rw [show n + (ts.length + 1) = n + 1 + ts.length by omega]
    exact this

end
end Verif
