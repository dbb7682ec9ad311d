import Verif.Lemmas.DeployedStep
/-! One client thread and the swapping thread: the steps of the client, and runs. -/
namespace Verif
open List

variable {B : Kit} {H : Hash} {progs : Nat → List DbOp} {n : Nat} {c c' : FConf} {G0 : SeqDb} {L : List DbOp} {F : List SChunk} {past : Past} {K : Labels → Prop}

theorem querySecondary_first {v : View} {q : Labels} {a b : U64} {vs : List View} {m : HMap} {r : Res (List Series)} (hw : v.within a b = true)
    (hr : v.query q a b = r) : querySecondary H q a b (v :: vs) m = (querySecondary H q a b [viewOf r] m).bind (querySecondary H q a b vs) := by
  simp only [querySecondary, hw, if_true, hr, viewOf]
  rcases r with ss | e | _
  · simp only []
    cases addSeries (HMap.append H) m ss <;> rfl
  · rfl
  · rfl

theorem Dep.prefix_len (hd : Dep F past B H G0 c L) (hp : pendQ (c.threads 1).now = []) : (L.filter fun y => !y.isSwap).length = (c.threads 1).done.length := by
  rw [hd.calls, hp]; simp

theorem Dep.cur (hd : Dep F past B H G0 c L) (hB : F.length ≤ c.current) {S : FChunk} (hS : c.chunks[c.current]? = some S) :
    (G0.run L).cur.lo = S.store.start_ ∧ (G0.run L).cur.hi = S.store.end_ := by
  obtain ⟨pre, -, g2⟩ := hd.cont
  obtain ⟨d, e1, e2, e3, -⟩ := g2 c.current S.store.start_ S.store.end_ hB (by simp only [fWin, hS, Option.map_some])
  rw [SeqDb.all, ← hd.glen, List.getElem?_append_right (le_refl _)] at e1
  simp only [Nat.sub_self, List.getElem?_cons_zero, Option.some.injEq] at e1
  subst e1
  exact ⟨e2, e3⟩

theorem insideOnly_kept (lo hi : U64) (ls : Labels) (ps : List TimePoint) :
    insideOnly lo hi ((ps.filter (keepPoint lo hi)).map fun p => (ls, p)) = (ps.filter (inside lo hi)).map fun p => (ls, p) := by
  unfold insideOnly
  rw [List.filter_map, List.filter_filter]
  congr 1
  apply List.filter_congr
  intro p _
  rcases h : inside lo hi p
  · simp [h]
  · simp [h, inside_keep h]

/-- A query returns. -/
theorem Dep.answers (hd : Dep F past B H G0 c L) (hI : FInv F B progs n c) (hb : n + 1 < 2 ^ 64 - 1) (hs : SingleWriter progs) (hP : Forall₂ (Frozen B K) F past)
    (hH : H.Good fun k => Written progs k ∨ K k) (hG0 : G0.old.length = F.length) (hn : notWriting (c.threads 1).now = true) {q : Labels} {a b : U64} {pre post : List DbOp} {m0 : HMap} (hq : QHead B H G0 c L q a b pre post m0) {k : Nat}
    (hk : k ≤ c.chunks.length) (hcase : k = (G0.run pre).old.length ∨ (G0.run pre).old.length < k ∧ (G0.run pre).old.length < F.length + c.begun) :
    Fits0 past (G0.run pre) c.begun (.answered q a b (match querySecondary H q a b ((List.range k).reverse.map (vAt B c)) m0 with
      | none => .panic
      | some m' => Res.ofPanic (collectKeys H m' (H.order (m'.map (·.1)))))) := by
  refine hd.fits hI hb hs hP hH hG0 hn ?_ hq.swaps hk hcase ?_
  · rw [hq.split, SeqDb.run_append]; rfl
  · unfold dbQuery
    rw [hq.first, ← List.map_reverse]
    rfl

theorem Dep.step1 (hd : Dep F past B H G0 c L) (hI : FInv F B progs n c) (hb : n + 1 < 2 ^ 64 - 1) (hf : FineProgs progs) (hs : SingleWriter progs) (hP : Forall₂ (Frozen B K) F past)
    (hH : H.Good fun k => Written progs k ∨ K k) (hG0 : G0.old.length = F.length) : Dep F past B H G0 (c.step B H 1) (L ++ linStep c 1) := by
  obtain ⟨S, hS⟩ := hI.getCur
  have hex : fWin c.chunks c.current = some (S.store.start_, S.store.end_) := by simp only [fWin, hS, Option.map_some]
  have hsame : Dep F past B H G0 c (L ++ []) := by rw [List.append_nil]; exact hd
  have hT := hI.thr 1
  have hgoto : ∀ (c : FConf) ph, (c.goto 1 ph).threads = fun u => if u = 1 then ⟨(c.threads 1).todo, some ph, (c.threads 1).done⟩ else c.threads u := by
    intro c ph; funext u; by_cases hu : u = 1 <;> simp [FConf.goto, FConf.setThread, hu]
  have hfinish : ∀ (c : FConf) o, (c.finish 1 o).threads = fun u => if u = 1 then ⟨(c.threads 1).todo, none, (c.threads 1).done ++ [o]⟩ else c.threads u := by
    intro c o; funext u; by_cases hu : u = 1 <;> simp [FConf.finish, FConf.setThread, hu]
  rcases hn : (c.threads 1).now with _ | ph
  · have hl : linStep c 1 = [] := by unfold linStep; rw [hn]
    rw [hl]
    unfold FConf.step
    rw [hn]
    simp only []
    unfold FConf.begin
    rcases ht : (c.threads 1).todo with _ | ⟨op, todo⟩
    · exact hsame
    · rw [hS]
      rcases op with ⟨ls, ps⟩ | ⟨q, a, b⟩ | ⟨lo, hi⟩
      · refine hd.move1 ⟨todo, some (.writing ls ps (ps.filter (keepPoint S.store.start_ S.store.end_)) 0), (c.threads 1).done⟩ [] [] ?_ rfl (by simp) (by simp) (by rw [hn]; simp [pendQ])
          (hd.cont_same (fun _ => rfl) rfl rfl [] (by simp) (by rw [hn]; rfl) ?_ ⟨_, hex⟩) trivial (by simp)
        · funext u; by_cases hu : u = 1 <;> simp [FConf.goto, FConf.setThread, hu]
        · intro lo hi hw
          obtain ⟨rfl, rfl⟩ := hI.win_eq hS hw
          exact ⟨[], rfl, rfl⟩
      · refine hd.move1 ⟨todo, some (.q1 q a b), (c.threads 1).done⟩ [] [] ?_ rfl (by simp) (by simp) (by rw [hn]; simp [pendQ])
          (hd.cont_same (fun _ => rfl) rfl rfl [] (by simp) (by rw [hn]; rfl) (fun _ _ _ => rfl) ⟨_, hex⟩) trivial (by simp)
        funext u; by_cases hu : u = 1 <;> simp [FConf.goto, FConf.setThread, hu]
      · have := hf.swap 1 lo hi (hT.todo.subset (by rw [ht]; simp))
        omega
  · cases ph with
    | writing ls ps rest f =>
      unfold FConf.step linStep
      rw [hn]
      simp only []
      unfold FConf.stepWriting
      rw [hS]
      obtain ⟨pre, g1, g2⟩ := hd.cont
      obtain ⟨ps1, k1, k2⟩ := by have := g1 _ _ hex; rw [hn] at this; exact this
      rcases rest with _ | ⟨p, rest⟩
      · simp only []
        rw [List.append_nil] at k1
        refine hd.move1 ⟨(c.threads 1).todo, none, (c.threads 1).done ++ [.wrote ls ps (if f = 0 then .ok () else .err .internal) S.store.start_ S.store.end_]⟩ [.write ls ps]
          [.wrote ls ps (if f = 0 then .ok () else .err .internal) S.store.start_ S.store.end_] (hfinish _ _) rfl (by simp [DbOp.isSwap]) rfl ?_ ?_ trivial ?_
        · rw [hn]; simp [pendQ, Out.call]
        · refine ⟨[], fun _ _ _ => rfl, ?_⟩
          intro i lo hi hF hw
          obtain ⟨d, e1, e2, e3, e4⟩ := g2 i lo hi hF hw
          rw [SeqDb.run_snoc]
          show ∃ d, ((G0.run L).after (.write ls ps)).all[i]? = some d ∧ d.lo = lo ∧ d.hi = hi ∧ insideOnly lo hi (histOf c.log i) = d.h ++ if i = c.current then insideOnly lo hi [] else []
          unfold SeqDb.after SeqDb.all
          simp only []
          by_cases hic : i = c.current
          · subst hic
            rw [if_pos rfl] at e4 ⊢
            rw [SeqDb.all, ← hd.glen, List.getElem?_append_right (le_refl _)] at e1
            simp only [Nat.sub_self, List.getElem?_cons_zero, Option.some.injEq] at e1
            obtain ⟨rfl, rfl⟩ := hI.win_eq hS hw
            refine ⟨_, by rw [← hd.glen, List.getElem?_append_right (le_refl _)]; simp; rfl, by rw [e1]; exact e2, by rw [e1]; exact e3, ?_⟩
            simp only [e1, e2, e3]
            rw [e4, k2, ← k1, insideOnly_kept]
            simp [insideOnly]
          · rw [if_neg hic] at e4 ⊢
            have hil : i < (G0.run L).old.length := by
              have h1 := (fWin_storeAt hI hw).1
              rw [hI.len] at h1
              rw [hd.glen]; omega
            rw [SeqDb.all, List.getElem?_append_left hil] at e1
            exact ⟨d, by rw [List.getElem?_append_left hil]; exact e1, e2, e3, e4⟩
        · intro o ho
          rw [List.mem_singleton] at ho
          subst ho
          exact ⟨rfl, L, [], rfl, hd.prefix_len (by rw [hn]; rfl), (hd.cur hI.base hS).1.symm, (hd.cur hI.base hS).2.symm⟩
      · simp only []
        rw [hd.unlocked hI (by rw [hn]; rfl) hS]
        simp only []
        have hwin : ∀ i, fWin (c.chunks.set c.current { S with lock := some (1, (ls, p), (kitInsert B) (ls, p)) }) i = fWin c.chunks i :=
          fun i => congrFun (fWin_set (S' := { S with lock := some (1, (ls, p), (kitInsert B) (ls, p)) }) hS rfl rfl) i
        refine hd.move1 ⟨(c.threads 1).todo, some (.inserting ls ps p rest f), (c.threads 1).done⟩ [] [] (hgoto _ _) rfl (by simp) (by simp) (by rw [hn]; simp [pendQ]) ?_ trivial (by simp)
        refine ⟨pre ++ [(ls, p)], ?_, ?_⟩
        · intro lo hi hw
          have hw' : fWin c.chunks c.current = some (lo, hi) := by rw [← hwin]; exact hw
          obtain ⟨rfl, rfl⟩ := hI.win_eq hS hw'
          exact ⟨ps1 ++ [p], by rw [k1]; simp, by rw [k2]; simp⟩
        · intro i lo hi hF hw
          have hw' : fWin c.chunks i = some (lo, hi) := by rw [← hwin]; exact hw
          obtain ⟨d, e1, e2, e3, e4⟩ := g2 i lo hi hF hw'
          rw [List.append_nil]
          refine ⟨d, e1, e2, e3, ?_⟩
          show insideOnly lo hi (histOf (c.log ++ [⟨1, c.current, ls, p⟩]) i) = d.h ++ if i = c.current then insideOnly lo hi (pre ++ [(ls, p)]) else []
          by_cases hic : i = c.current
          · subst hic
            rw [if_pos rfl] at e4 ⊢
            rw [histOf_these (by simp)]
            unfold insideOnly at e4 ⊢
            rw [List.filter_append, List.filter_append, e4, List.append_assoc]
            rfl
          · rw [if_neg hic] at e4 ⊢
            rw [histOf_other (by simpa using fun e => hic e.symm)]
            exact e4
    | inserting ls ps p rest f =>
      have hl : linStep c 1 = [] := by unfold linStep; rw [hn]
      rw [hl]
      have hg := step_fgrow (H := H) hb hI 1
      obtain ⟨pr, hlk⟩ := (hI.lock _ _ hS 1 (ls, p)).mpr ⟨rfl, by rw [hn]; rfl⟩
      obtain ⟨todo0, hsys⟩ := hI.sys _ _ hS hI.base
      have hfine := hI.fine hb c.current
      rw [← hI.started _ _ hS] at hfine
      obtain ⟨pre, g1, g2⟩ := hd.cont
      obtain ⟨ps1, k1, k2⟩ := by have := g1 _ _ hex; rw [hn] at this; exact this
      -- what every step of an insert does
      have key : ∀ (th : FThread) (c' : FConf), c.step B H 1 = c' → c'.chunks.length = c.chunks.length → c'.threads = (fun u => if u = 1 then th else c.threads u) → c'.current = c.current →
          c'.log = c.log → th.done = (c.threads 1).done → pendQ th.now = [] → (Link S.store.start_ S.store.end_ pre th.now) → QPhase F B H G0 c' (L ++ []) th.now →
          Dep F past B H G0 c' (L ++ []) := by
        intro th c' e0 elen eth ecur elog edone epend elink eq
        subst e0
        have hwin : ∀ i, fWin (c.step B H 1).chunks i = fWin c.chunks i := by
          intro i
          by_cases hi : i < c.chunks.length
          · exact fWin_grow hg hi
          · unfold fWin
            rw [List.getElem?_eq_none (by omega), List.getElem?_eq_none (by omega)]
        refine hd.move1 th [] [] eth ecur (by simp) (by simp [edone]) (by rw [hn, epend, edone]; simp [pendQ]) ⟨pre, ?_, ?_⟩ eq (by simp)
        · intro lo hi hw
          rw [hwin, ecur] at hw
          obtain ⟨rfl, rfl⟩ := hI.win_eq hS hw
          exact elink
        · intro i lo hi hF hw
          rw [hwin] at hw
          rw [List.append_nil, elog, ecur]
          exact g2 i lo hi hF hw
      have hst : c.step B H 1 = c.stepInserting 1 ls ps rest f := by unfold FConf.step; rw [hn]
      rcases pr with r | ⟨u, k⟩
      · have hr := hsys.result hfine hlk
        have hgo : ∀ f', c.stepInserting 1 ls ps rest f =
            (c.setChunk c.current { S with lock := none, finished := S.finished ++ [(1, (ls, p), r)] }).goto 1 (.writing ls ps rest f') →
            Dep F past B H G0 (c.step B H 1) (L ++ []) := by
          intro f' e
          refine key ⟨(c.threads 1).todo, some (.writing ls ps rest f'), (c.threads 1).done⟩ _ rfl ?_ ?_ ?_ ?_ rfl rfl ⟨ps1, k1, k2⟩ trivial
          · rw [hst, e]; simp [FConf.goto, FConf.setThread, FConf.setChunk]
          · rw [hst, e]; exact hgoto _ _
          · rw [hst, e]; rfl
          · rw [hst, e]; rfl
        by_cases hin : inside S.store.start_ S.store.end_ p = true
        · rw [if_pos hin] at hr
          refine hgo f ?_
          unfold FConf.stepInserting
          rw [hS]; simp only [hlk, if_true, hr]
        · rw [if_neg hin] at hr
          refine hgo (f + 1) ?_
          unfold FConf.stepInserting
          rw [hS]; simp only [hlk, if_true, hr]
      · have e : c.stepInserting 1 ls ps rest f = c.setChunk c.current { S with store := u S.store, lock := some (1, (ls, p), k S.store) } := by
          unfold FConf.stepInserting
          rw [hS]; simp only [hlk, if_true]
        refine key (c.threads 1) _ rfl ?_ ?_ ?_ ?_ rfl (by rw [hn]; rfl) (by rw [hn]; exact ⟨ps1, k1, k2⟩) (by rw [hn]; trivial)
        · rw [hst, e]; simp [FConf.setChunk]
        · rw [hst, e]; funext u; by_cases hu : u = 1 <;> simp [FConf.setChunk, hu]
        · rw [hst, e]; rfl
        · rw [hst, e]; rfl
    | q1 q a b =>
      have hl : linStep c 1 = [] := by unfold linStep; rw [hn]
      rw [hl]
      have hulk := hd.unlocked hI (by rw [hn]; rfl) hS
      obtain ⟨todo0, hsys⟩ := hI.sys _ _ hS hI.base
      have hfine := hI.fine hb c.current
      rw [← hI.started _ _ hS] at hfine
      have hpz := (hsys.win hfine).2.2 hulk
      have hst : c.step B H 1 = c.goto 1 (.reading1 q a b (kitQuery B q a b)) := by
        unfold FConf.step
        rw [hn]
        simp only []
        unfold FConf.stepQ1 FChunk.beginQuery
        rw [hS]
        simp only [hulk, hpz, Bool.false_eq_true, if_false]
      rw [hst]
      refine hd.move1 ⟨(c.threads 1).todo, some (.reading1 q a b (kitQuery B q a b)), (c.threads 1).done⟩ [] [] (hgoto _ _) rfl (by simp) (by simp) (by rw [hn]; simp [pendQ])
        (hd.cont_same (fun _ => rfl) rfl rfl [] (by simp) (by rw [hn]; rfl) (fun _ _ _ => rfl) ⟨_, hex⟩) ?_ (by simp)
      show ((kitQuery B q a b).run (storeAt c c.current)).1 = (storeAt c c.current).query (kitComp B) q a b
      rw [storeAt_eq hS, kitQuery_run B q a b _ hpz]
    | reading1 q a b p =>
      have hro := hT.ro p (by rw [hn]; rfl)
      have hq := hd.qphase
      rw [hn] at hq
      have hq' : (p.run (storeAt c c.current)).1 = (storeAt c c.current).query (kitComp B) q a b := hq
      rcases p with r | ⟨u, k⟩
      · have hl : linStep c 1 = [.query q a b] := by unfold linStep; rw [hn]
        rw [hl]
        unfold FConf.step
        rw [hn]
        simp only [FConf.stepReading1]
        have hqc : queryCurrent H (vAt B c c.current) q a b = queryCurrent H (viewOf r) q a b := by
          unfold queryCurrent
          have : (vAt B c c.current).query q a b = (viewOf r).query q a b := hq'.symm
          rw [this]
        have hrun : G0.run (L ++ [.query q a b]) = G0.run L := by rw [SeqDb.run_snoc]; rfl
        rcases hqq : queryCurrent H (viewOf r) q a b with _ | m
        · simp only []
          refine hd.move1 ⟨(c.threads 1).todo, none, (c.threads 1).done ++ [.answered q a b .panic]⟩ [.query q a b] [.answered q a b .panic] (hfinish _ _) rfl (by simp [DbOp.isSwap]) rfl
            (by rw [hn]; simp [pendQ, Out.call])
            (hd.cont_same (fun _ => rfl) rfl rfl _ hrun (by rw [hn]; rfl) (fun _ _ _ => rfl) ⟨_, hex⟩) trivial ?_
          intro o ho
          rw [List.mem_singleton] at ho
          subst ho
          refine ⟨rfl, L, [], rfl, hd.prefix_len (by rw [hn]; rfl), ?_⟩
          refine hd.fits (post := []) (m := (G0.run L).old.length) hI hb hs hP hH hG0 (by rw [hn]; rfl) rfl (by simp) (by rw [hd.glen, hI.len]; omega) (Or.inl rfl) ?_
          unfold dbQuery
          rw [hd.glen, hqc, hqq]
        · simp only []
          refine hd.move1 ⟨(c.threads 1).todo, some (.q2 q a b m), (c.threads 1).done⟩ [.query q a b] [] (hgoto _ _) rfl (by simp [DbOp.isSwap]) (by simp)
            (by rw [hn]; simp [pendQ])
            (hd.cont_same (fun _ => rfl) rfl rfl _ hrun (by rw [hn]; rfl) (fun _ _ _ => rfl) ⟨_, hex⟩) ?_ (by simp)
          refine ⟨L, [], rfl, by simp, ?_, ?_⟩
          · rw [hd.prefix_len (by rw [hn]; rfl)]; simp [FConf.goto, FConf.setThread, FConf.dropCur]
          · show queryCurrent H (vAt B c (G0.run L).old.length) q a b = some m
            rw [hd.glen, hqc, hqq]
      · have hl : linStep c 1 = [] := by unfold linStep; rw [hn]
        rw [hl]
        cases hro with
        | act hu hk =>
          have hst : c.step B H 1 = c.goto 1 (.reading1 q a b (k S.store)) := by
            unfold FConf.step
            rw [hn]
            simp only [FConf.stepReading1, hS]
            rw [hI.setSame hS hu]
          rw [hst]
          refine hd.move1 ⟨(c.threads 1).todo, some (.reading1 q a b (k S.store)), (c.threads 1).done⟩ [] [] (hgoto _ _) rfl (by simp) (by simp) (by rw [hn]; simp [pendQ])
            (hd.cont_same (fun _ => rfl) rfl rfl [] (by simp) (by rw [hn]; rfl) (fun _ _ _ => rfl) ⟨_, hex⟩) ?_ (by simp)
          show ((k S.store).run (storeAt c c.current)).1 = (storeAt c c.current).query (kitComp B) q a b
          rw [← hq', storeAt_eq hS]
          simp only [Proc.run, hu]
    | q2 q a b m =>
      have hl : linStep c 1 = [] := by unfold linStep; rw [hn]
      rw [hl]
      have hq := hd.qphase
      rw [hn] at hq
      obtain ⟨pre, post, hh⟩ := hq
      unfold FConf.step
      rw [hn]
      simp only []
      refine hd.move1 ⟨(c.threads 1).todo, some (.q3 q a b c.secondary.reverse m), (c.threads 1).done⟩ [] [] (hgoto _ _) rfl (by simp) (by simp) (by rw [hn]; simp [pendQ])
        (hd.cont_same (fun _ => rfl) rfl rfl [] (by simp) (by rw [hn]; rfl) (fun _ _ _ => rfl) ⟨_, hex⟩) ?_ (by simp)
      have hk := hd.glen
      rw [hh.split, SeqDb.run_append, SeqDb.run_old] at hk
      have hsec := hI.sec
      have hc0 : (G0.run pre).old.length ≤ c.current := by omega
      have hdone0 : (c.threads 0).done.length = (G0.run L).old.length - G0.old.length := by
        rw [SeqDb.run_old, hd.swaps]; simp
      refine ⟨pre, post, m, (if fIsS2 (c.threads 0).now then c.current + 1 else c.current), ?_, ?_, ?_, ?_, ?_⟩
      · rw [List.append_nil]
        refine ⟨hh.split, hh.swaps, by rw [hh.nth]; simp [FConf.goto, FConf.setThread], hh.first⟩
      · show querySecondary H q a b ((List.range (if fIsS2 (c.threads 0).now then c.current + 1 else c.current)).reverse.map (vAt B c)) m = querySecondary H q a b (c.secondary.reverse.map (vAt B c)) m
        rw [hsec]
      · show (if fIsS2 (c.threads 0).now then c.current + 1 else c.current) ≤ c.chunks.length
        rw [hI.len]; split <;> omega
      · intro i hi
        show i < c.chunks.length
        rw [hsec, List.mem_reverse, List.mem_range] at hi
        rw [hI.len]; split at hi <;> omega
      · show (if fIsS2 (c.threads 0).now then c.current + 1 else c.current) = (G0.run pre).old.length ∨
          (G0.run pre).old.length < (if fIsS2 (c.threads 0).now then c.current + 1 else c.current) ∧
          (G0.run pre).old.length < F.length + ((c.threads 0).done.length + (c.threads 0).now.toList.length)
        have hbase := hI.base
        rw [hd.glen, hG0] at hdone0
        rw [hdone0]
        rcases hn0 : (c.threads 0).now with _ | ph0
        · simp only [fIsS2, Bool.false_eq_true, if_false, Option.toList_none, List.length_nil]
          omega
        · simp only [Option.toList_some, List.length_singleton]
          split <;> omega
    | q3 q a b ids m =>
      have hl : linStep c 1 = [] := by unfold linStep; rw [hn]
      rw [hl]
      have hq := hd.qphase
      rw [hn] at hq
      have hq' : QTail F B H G0 c L q a b ids m := hq
      obtain ⟨pre, post, m0, k, h1, h2, h3, h4, h5⟩ := hq'
      unfold FConf.step
      rw [hn]
      simp only []
      unfold FConf.stepQ3
      rcases ids with _ | ⟨i, ids⟩
      · simp only []
        have ha := hd.answers hI hb hs hP hH hG0 (by rw [hn]; rfl) h1 h3 h5
        rw [h2] at ha
        simp only [List.map_nil, querySecondary] at ha
        refine hd.move1 ⟨(c.threads 1).todo, none, (c.threads 1).done ++ [.answered q a b (Res.ofPanic (collectKeys H m (H.order (m.map (·.1)))))]⟩ []
          [.answered q a b (Res.ofPanic (collectKeys H m (H.order (m.map (·.1)))))] (hfinish _ _) rfl (by simp) rfl
          (by rw [hn]; simp [pendQ, Out.call])
          (hd.cont_same (fun _ => rfl) rfl rfl [] (by simp) (by rw [hn]; rfl) (fun _ _ _ => rfl) ⟨_, hex⟩) trivial ?_
        intro o ho
        rw [List.mem_singleton] at ho
        subst ho
        exact ⟨rfl, pre, post, by rw [List.append_nil]; exact h1.split, h1.nth, ha⟩
      · simp only []
        have hil := h4 i (by simp)
        have hSi : c.chunks[i]? = some c.chunks[i] := List.getElem?_eq_getElem hil
        rw [hSi]
        simp only []
        have hulk := hd.unlocked hI (by rw [hn]; rfl) hSi
        have hpz : c.chunks[i].store.poisoned = false := by
          by_cases hiF : i < F.length
          · have hfz : Frozen B K F[i] (past[i]'(by have := hP.length_eq; omega)) := (List.forall₂_iff_get.mp hP).2 i hiF (by have := hP.length_eq; omega)
            have e : c.chunks[i].store = F[i] := by rw [← storeAt_eq hSi]; exact Dep.frozen hI (List.getElem?_eq_getElem hiF)
            rw [e]; exact hfz.quiet
          · obtain ⟨todo0, hsys⟩ := hI.sys _ _ hSi (by omega)
            have hfine := hI.fine hb i
            rw [← hI.started _ _ hSi] at hfine
            exact (hsys.win hfine).2.2 hulk
        by_cases hr : c.chunks[i].store.isWithRange a b = true
        · rw [if_pos hr]
          unfold FChunk.beginQuery
          simp only [hulk, hpz, Bool.false_eq_true, if_false]
          refine hd.move1 ⟨(c.threads 1).todo, some (.reading3 q a b i ids m (kitQuery B q a b)), (c.threads 1).done⟩ [] [] (hgoto _ _) rfl (by simp) (by simp) (by rw [hn]; simp [pendQ])
            (hd.cont_same (fun _ => rfl) rfl rfl [] (by simp) (by rw [hn]; rfl) (fun _ _ _ => rfl) ⟨_, hex⟩) ?_ (by simp)
          refine ⟨QTail.mono hd hI hq (by simp) (by simp [FConf.goto, FConf.setThread]) (fun _ _ => rfl) (le_refl _) (le_refl _), ?_, ?_⟩
          · show (storeAt c i).isWithRange a b = true
            rw [storeAt_eq hSi]; exact hr
          · show ((kitQuery B q a b).run (storeAt c i)).1 = (storeAt c i).query (kitComp B) q a b
            rw [storeAt_eq hSi, kitQuery_run B q a b _ hpz]
        · rw [if_neg hr]
          refine hd.move1 ⟨(c.threads 1).todo, some (.q3 q a b ids m), (c.threads 1).done⟩ [] [] (hgoto _ _) rfl (by simp) (by simp) (by rw [hn]; simp [pendQ])
            (hd.cont_same (fun _ => rfl) rfl rfl [] (by simp) (by rw [hn]; rfl) (fun _ _ _ => rfl) ⟨_, hex⟩) ?_ (by simp)
          refine QTail.mono (c := c) hd hI ⟨pre, post, m0, k, h1, ?_, h3, fun j hj => h4 j (by simp [hj]), h5⟩ (by simp) (by simp [FConf.goto, FConf.setThread]) (fun _ _ => rfl) (le_refl _) (le_refl _)
          rw [h2, List.map_cons]
          have : (vAt B c i).within a b = false := by
            show (storeAt c i).isWithRange a b = false
            rw [storeAt_eq hSi]; simpa using hr
          simp only [querySecondary, this, Bool.false_eq_true, if_false]
    | reading3 q a b i ids m p =>
      have hl : linStep c 1 = [] := by unfold linStep; rw [hn]
      rw [hl]
      have hro := hT.ro p (by rw [hn]; rfl)
      have hq := hd.qphase
      rw [hn] at hq
      obtain ⟨hqt, hr1, hr2⟩ := hq
      obtain ⟨pre, post, m0, k, h1, h2, h3, h4, h5⟩ := hqt
      have hil := h4 i (by simp)
      have hSi : c.chunks[i]? = some c.chunks[i] := List.getElem?_eq_getElem hil
      rcases p with r | ⟨u, f⟩
      · unfold FConf.step
        rw [hn]
        simp only [FConf.stepReading3]
        have e2 : querySecondary H q a b ((List.range k).reverse.map (vAt B c)) m0 = (querySecondary H q a b [viewOf r] m).bind (querySecondary H q a b (ids.map (vAt B c))) := by
          rw [h2, List.map_cons]
          exact querySecondary_first hr1 hr2.symm
        rcases hqq : querySecondary H q a b [viewOf r] m with _ | m'
        · simp only []
          have ha := hd.answers hI hb hs hP hH hG0 (by rw [hn]; rfl) h1 h3 h5
          rw [e2, hqq] at ha
          simp only [Option.bind_none] at ha
          refine hd.move1 ⟨(c.threads 1).todo, none, (c.threads 1).done ++ [.answered q a b .panic]⟩ [] [.answered q a b .panic] (hfinish _ _) rfl (by simp) rfl
            (by rw [hn]; simp [pendQ, Out.call])
            (hd.cont_same (fun _ => rfl) rfl rfl [] (by simp) (by rw [hn]; rfl) (fun _ _ _ => rfl) ⟨_, hex⟩) trivial ?_
          intro o ho
          rw [List.mem_singleton] at ho
          subst ho
          exact ⟨rfl, pre, post, by rw [List.append_nil]; exact h1.split, h1.nth, ha⟩
        · simp only []
          refine hd.move1 ⟨(c.threads 1).todo, some (.q3 q a b ids m'), (c.threads 1).done⟩ [] [] (hgoto _ _) rfl (by simp) (by simp) (by rw [hn]; simp [pendQ])
            (hd.cont_same (fun _ => rfl) rfl rfl [] (by simp) (by rw [hn]; rfl) (fun _ _ _ => rfl) ⟨_, hex⟩) ?_ (by simp)
          refine QTail.mono (c := c) hd hI ⟨pre, post, m0, k, h1, ?_, h3, fun j hj => h4 j (by simp [hj]), h5⟩ (by simp) (by simp [FConf.goto, FConf.setThread]) (fun _ _ => rfl) (le_refl _) (le_refl _)
          rw [e2, hqq]; rfl
      · cases hro with
        | act hu hk =>
          have hst : c.step B H 1 = c.goto 1 (.reading3 q a b i ids m (f c.chunks[i].store)) := by
            unfold FConf.step
            rw [hn]
            simp only [FConf.stepReading3, hSi]
            rw [hI.setSame hSi hu]
          rw [hst]
          refine hd.move1 ⟨(c.threads 1).todo, some (.reading3 q a b i ids m (f c.chunks[i].store)), (c.threads 1).done⟩ [] [] (hgoto _ _) rfl (by simp) (by simp) (by rw [hn]; simp [pendQ])
            (hd.cont_same (fun _ => rfl) rfl rfl [] (by simp) (by rw [hn]; rfl) (fun _ _ _ => rfl) ⟨_, hex⟩) ?_ (by simp)
          refine ⟨QTail.mono (c := c) hd hI ⟨pre, post, m0, k, h1, h2, h3, h4, h5⟩ (by simp) (by simp [FConf.goto, FConf.setThread]) (fun _ _ => rfl) (le_refl _) (le_refl _), hr1, ?_⟩
          show ((f c.chunks[i].store).run (storeAt c i)).1 = (storeAt c i).query (kitComp B) q a b
          rw [← hr2, storeAt_eq hSi]
          simp only [Proc.run, hu]
    | s1 lo hi => have := hT.swaps (by omega); rw [hn] at this; cases this
    | s2 lo hi => have := hT.swaps (by omega); rw [hn] at this; cases this

/-! ### Runs -/

/-- The order of the calls found by a schedule. -/
def lin (B : Kit) (H : Hash) : FConf → List Nat → List DbOp
  | _, [] => []
  | c, t :: s => linStep c t ++ lin B H (c.step B H t) s

theorem lin_append (B : Kit) (H : Hash) (c : FConf) (s s' : List Nat) : lin B H c (s ++ s') = lin B H c s ++ lin B H (c.run B H s) s' := by
  induction s generalizing c with
  | nil => rfl
  | cons t s ih => simp only [List.cons_append, lin, ih, List.append_assoc]; rfl

theorem Dep.step (hd : Dep F past B H G0 c L) (hI : FInv F B progs n c) (hb : n + 1 < 2 ^ 64 - 1) (hf : FineProgs progs) (hs : SingleWriter progs) (hP : Forall₂ (Frozen B K) F past)
    (hH : H.Good fun k => Written progs k ∨ K k) (hG0 : G0.old.length = F.length) (hp0 : ∀ op ∈ progs 0, op.isSwap = true) (t : Nat) : Dep F past B H G0 (c.step B H t) (L ++ linStep c t) := by
  match t with
  | 0 => exact hd.step0 hI hb hp0
  | 1 => exact hd.step1 hI hb hf hs hP hH hG0
  | k + 2 =>
    obtain ⟨h1, h2⟩ := hd.idle (k + 2) (by omega)
    have e1 : c.step B H (k + 2) = c := by
      unfold FConf.step FConf.begin
      rw [h1]
      simp only [h2]
    have e2 : linStep c (k + 2) = [] := by unfold linStep; rw [h1]
    rw [e1, e2, List.append_nil]
    exact hd

/-- A new database behind `k` older chunks (whose descriptions are not used). -/
def SeqDb.behind (k : Nat) (lo hi : U64) : SeqDb := ⟨List.replicate k ⟨0#64, 0#64, []⟩, ⟨lo, hi, []⟩⟩

theorem SeqDb.run_behind (x : List Desc) (G : SeqDb) (ops : List DbOp) :
    (SeqDb.mk (x ++ G.old) G.cur).run ops = ⟨x ++ (G.run ops).old, (G.run ops).cur⟩ := by
  induction ops generalizing G with
  | nil => rfl
  | cons o ops ih =>
    rw [SeqDb.run_cons, SeqDb.run_cons]
    cases o with
    | write ls ps => exact ih ⟨G.old, { G.cur with h := G.cur.h ++ (ps.filter (inside G.cur.lo G.cur.hi)).map fun p => (ls, p) }⟩
    | query q a b => exact ih G
    | swap lo hi =>
      have := ih ⟨G.old ++ [G.cur], ⟨lo, hi, []⟩⟩
      simp only [SeqDb.after, List.append_assoc] at this ⊢
      exact this

theorem SeqDb.behind_run (k : Nat) (lo hi : U64) (ops : List DbOp) : (SeqDb.behind k lo hi).run ops =
    ⟨List.replicate k ⟨0#64, 0#64, []⟩ ++ ((SeqDb.fresh lo hi).run ops).old, ((SeqDb.fresh lo hi).run ops).cur⟩ := by
  have := SeqDb.run_behind (List.replicate k ⟨0#64, 0#64, []⟩) (SeqDb.fresh lo hi) ops
  simp only [SeqDb.fresh, List.append_nil] at this
  exact this

theorem Dep.startOn (B : Kit) (H : Hash) (lo hi : U64) (hp : ∀ u, 2 ≤ u → progs u = []) :
    Dep F past B H (SeqDb.behind F.length lo hi) (FConf.startOn F lo hi progs) [] := by
  refine ⟨fun u hu => ⟨rfl, hp u hu⟩, Or.inl rfl, rfl, rfl, by simp [SeqDb.run, SeqDb.behind, FConf.startOn], ⟨[], fun _ _ _ => rfl, ?_⟩, trivial, by intro j o ho; cases ho⟩
  intro i lo' hi' hF hw
  unfold fWin at hw
  simp only [FConf.startOn] at hw
  rw [List.getElem?_append_right (by simpa using hF), List.length_map] at hw
  rcases hd : i - F.length with _ | k
  · have hi : i = F.length := by omega
    subst hi
    rw [hd] at hw
    simp only [List.getElem?_cons_zero, Option.map_some, Option.some.injEq, Prod.mk.injEq] at hw
    refine ⟨⟨lo, hi, []⟩, ?_, hw.1, hw.2, ?_⟩
    · show (List.replicate F.length (Desc.mk 0#64 0#64 []) ++ [Desc.mk lo hi []])[F.length]? = _
      rw [List.getElem?_append_right (by simp)]; simp
    · show insideOnly lo' hi' (histOf [] _) = _
      simp [histOf, insideOnly]
  · rw [hd] at hw; simp at hw

theorem Dep.run (hf : FineProgs progs) (hs : SingleWriter progs) (hP : Forall₂ (Frozen B K) F past) (hH : H.Good fun k => Written progs k ∨ K k) (hG0 : G0.old.length = F.length)
    (hp0 : ∀ op ∈ progs 0, op.isSwap = true) (sched : List Nat) : ∀ {n : Nat} {c : FConf} {L : List DbOp}, Dep F past B H G0 c L → FInv F B progs n c →
    n + sched.length < 2 ^ 64 - 1 → Dep F past B H G0 (c.run B H sched) (L ++ lin B H c sched) ∧ FInv F B progs (n + sched.length) (c.run B H sched) := by
  induction sched with
  | nil => intro n c L hd hI _; exact ⟨by rw [lin, List.append_nil]; exact hd, hI⟩
  | cons t s ih =>
    intro n c L hd hI hb
    simp only [List.length_cons] at hb
    have h1 := hd.step hI (by omega) hf hs hP hH hG0 hp0 t
    obtain ⟨r1, r2⟩ := ih h1 (hI.step hf (by omega) t) (by omega)
    refine ⟨?_, ?_⟩
    · rw [List.append_assoc] at r1; exact r1
    · rw [List.length_cons, show n + (s.length + 1) = n + 1 + s.length by omega]; exact r2

end Verif
