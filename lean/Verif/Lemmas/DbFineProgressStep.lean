import Verif.Lemmas.DbFineProgress
namespace Verif
open List

/-- How a list of lock holders changes with thread `t`. -/
def Holders (l l' : List Nat) (t : Nat) (was is_ : Bool) : Prop :=
  (l' = t :: l ∧ is_ = true) ∨ (l' = l ∧ is_ = was) ∨ (l' = l.filter (· ≠ t) ∧ is_ = false)

theorem Holders.iff {l l' : List Nat} {t : Nat} {P P' : Nat → Bool} (hh : Holders l l' t (P t) (P' t)) (h : ∀ u, u ∈ l ↔ P u = true)
    (ho : ∀ u, u ≠ t → P' u = P u) (u : Nat) : u ∈ l' ↔ P' u = true := by
  rcases hh with ⟨rfl, e⟩ | ⟨rfl, e⟩ | ⟨rfl, e⟩
  · exact mem_add h e ho u
  · exact mem_keep h e ho u
  · exact mem_drop h e ho u

/-- A step that leaves the locks of the chunks alone. -/
theorem LK.simple {M : Nat} {c c' : FConf} (h : LK M c) {t : Nat} (th : FThread) (hth : c'.threads = fun u => if u = t then th else c.threads u)
    (hc : c'.current = c.current) (hlen : c'.chunks.length = c.chunks.length) (hl : ∀ i, c'.lockAt i = c.lockAt i)
    (hcur : Holders c.curR c'.curR t (fHoldsCur (c.threads t).now) (fHoldsCur th.now))
    (hsec : Holders c.secR c'.secR t (fHoldsSec (c.threads t).now) (fHoldsSec th.now))
    (h5 : t ≠ 0 → fIsSwap th.now = false) (h6 : th.todo <:+ (c.threads t).todo) (h7 : ∀ i ∈ c'.secondary, i < c'.chunks.length)
    (h8 : (∀ i ∈ fIds th.now, i < c.chunks.length) ∧ (fIds th.now).length ≤ M)
    (h9 : c'.secondary.length + fSwapsNow (c'.threads 0).now + swapsTodo (c'.threads 0).todo ≤ M)
    (hi : (insOf th.now).isSome = (insOf (c.threads t).now).isSome) : LK M c' := by
  have et : c'.threads t = th := by rw [hth]; simp
  have eo : ∀ u, u ≠ t → c'.threads u = c.threads u := by intro u hu; rw [hth]; simp [hu]
  refine h.thread t th hth (by rw [hc, hlen]; exact h.heap) (by rw [hlen]) ?_ ?_ h5 h6 h7 (by rw [hlen]; exact h8) h9 (h.lock_same hth hl hc hi)
  · exact Holders.iff (P := fun u => fHoldsCur (c.threads u).now) (P' := fun u => fHoldsCur (c'.threads u).now) (by rw [et]; exact hcur) h.curR
      (fun u hu => by rw [eo u hu])
  · exact Holders.iff (P := fun u => fHoldsSec (c.threads u).now) (P' := fun u => fHoldsSec (c'.threads u).now) (by rw [et]; exact hsec) h.secR
      (fun u hu => by rw [eo u hu])

theorem lockAt_set {c c' : FConf} {j : Nat} {S S' : FChunk} (hj : c.chunks[j]? = some S) (hc : c'.chunks = c.chunks.set j S') (i : Nat) :
    c'.lockAt i = if i = j then S'.lock else c.lockAt i := by
  have hlt : j < c.chunks.length := by
    by_contra hge
    rw [List.getElem?_eq_none (by omega)] at hj; cases hj
  unfold FConf.lockAt
  rw [hc, List.getElem?_set]
  by_cases hij : j = i
  · subst hij; simp [hlt]
  · rw [if_neg hij, if_neg (fun e => hij e.symm)]

theorem lockAt_set_same {c c' : FConf} {j : Nat} {S S' : FChunk} (hj : c.chunks[j]? = some S) (hc : c'.chunks = c.chunks.set j S') (hl : S'.lock = S.lock) (i : Nat) :
    c'.lockAt i = c.lockAt i := by
  rw [lockAt_set hj hc]
  split
  · rename_i e; subst e; unfold FConf.lockAt; rw [hj, hl]; rfl
  · rfl

theorem lockAt_eq {c : FConf} {i : Nat} {S : FChunk} (h : c.chunks[i]? = some S) : c.lockAt i = S.lock := by unfold FConf.lockAt; rw [h]; rfl

theorem goto_threads (c : FConf) (t : Nat) (ph : FPhase) :
    (c.goto t ph).threads = fun u => if u = t then ⟨(c.threads t).todo, some ph, (c.threads t).done⟩ else c.threads u := rfl
theorem finish_threads (c : FConf) (t : Nat) (o : Out) :
    (c.finish t o).threads = fun u => if u = t then ⟨(c.threads t).todo, none, (c.threads t).done ++ [o]⟩ else c.threads u := rfl

theorem fstep_lk {B : Kit} {H : Hash} {M : Nat} {c : FConf} (h : LK M c) (t : Nat) :
    LK M (c.step B H t) ∧ (fCanMove c t → Less ((c.step B H t).left M t) (c.left M t)) ∧ (¬ fCanMove c t → c.step B H t = c) := by
  obtain ⟨S, hS⟩ : ∃ S, c.chunks[c.current]? = some S := ⟨_, List.getElem?_eq_getElem h.heap⟩
  unfold FConf.step fCanMove
  rcases hn : (c.threads t).now with _ | ph
  · -- a call begins
    unfold FConf.begin
    rcases ht : (c.threads t).todo with _ | ⟨op, todo⟩
    · exact ⟨h, fun e => absurd rfl e, fun _ => rfl⟩
    · rw [hS]
      refine ⟨?_, fun _ => Less.work ?_, fun e => absurd (by simp) e⟩
      · have swap0 : ∀ lo hi, op = .swap lo hi → t = 0 := by
          intro lo hi e
          by_contra h0
          exact (h.swaps t h0).2 lo hi (by rw [ht, e]; simp)
        rcases op with ⟨ls, ps⟩ | ⟨q, a, b⟩ | ⟨lo, hi⟩
        · refine h.simple (t := t) ⟨todo, some (.writing ls ps (ps.filter (keepPoint S.store.start_ S.store.end_)) 0), (c.threads t).done⟩ ?_ rfl rfl (fun _ => rfl)
            (Or.inl ⟨rfl, rfl⟩) (Or.inr (Or.inl ⟨rfl, by rw [hn]; rfl⟩)) (fun _ => rfl) (by rw [ht]; exact List.suffix_cons _ _) h.sec (by simp [fIds]) ?_ (by rw [hn]; rfl)
          · funext u; by_cases hu : u = t <;> simp [FConf.goto, FConf.setThread, hu]
          · refine h.count_same (t := t) (th := ⟨todo, some (.writing ls ps (ps.filter (keepPoint S.store.start_ S.store.end_)) 0), (c.threads t).done⟩) ?_ rfl
              (by simp [fSwapsNow]) (by rw [ht]; simp [swapsTodo])
            funext u; by_cases hu : u = t <;> simp [FConf.goto, FConf.setThread, hu]
        · refine h.simple (t := t) ⟨todo, some (.q1 q a b), (c.threads t).done⟩ ?_ rfl rfl (fun _ => rfl)
            (Or.inl ⟨rfl, rfl⟩) (Or.inr (Or.inl ⟨rfl, by rw [hn]; rfl⟩)) (fun _ => rfl) (by rw [ht]; exact List.suffix_cons _ _) h.sec (by simp [fIds]) ?_ (by rw [hn]; rfl)
          · funext u; by_cases hu : u = t <;> simp [FConf.goto, FConf.setThread, hu]
          · refine h.count_same (t := t) (th := ⟨todo, some (.q1 q a b), (c.threads t).done⟩) ?_ rfl
              (by simp [fSwapsNow]) (by rw [ht]; simp [swapsTodo])
            funext u; by_cases hu : u = t <;> simp [FConf.goto, FConf.setThread, hu]
        · have ht0 := swap0 lo hi rfl
          subst ht0
          refine h.simple (t := 0) ⟨todo, some (.s1 lo hi), (c.threads 0).done⟩ ?_ rfl rfl (fun _ => rfl)
            (Or.inl ⟨rfl, rfl⟩) (Or.inr (Or.inl ⟨rfl, by rw [hn]; rfl⟩)) (fun h0 => absurd rfl h0) (by rw [ht]; exact List.suffix_cons _ _) h.sec (by simp [fIds]) ?_ (by rw [hn]; rfl)
          · funext u; by_cases hu : u = 0 <;> simp [FConf.goto, FConf.setThread, hu]
          · have := h.count
            rw [hn, ht] at this
            simp only [fSwapsNow, swapsTodo, List.filter_cons, if_true, List.length_cons] at this
            simp only [FConf.goto, FConf.setThread, if_true, fSwapsNow, swapsTodo]
            omega
      · rcases op with ⟨ls, ps⟩ | ⟨q, a, b⟩ | ⟨lo, hi⟩
        · have := List.length_filter_le (keepPoint S.store.start_ S.store.end_) ps
          simp only [FConf.goto, FConf.setThread, if_true, fWork, fPhaseWork, hn, ht, List.map_cons, List.sum_cons, fOpWork]
          omega
        · simp only [FConf.goto, FConf.setThread, if_true, fWork, fPhaseWork, hn, ht, List.map_cons, List.sum_cons, fOpWork]
          omega
        · simp only [FConf.goto, FConf.setThread, if_true, fWork, fPhaseWork, hn, ht, List.map_cons, List.sum_cons, fOpWork]
          omega
  · have hcnt : ∀ {c' : FConf} {th : FThread}, (c'.threads = fun u => if u = t then th else c.threads u) → c'.secondary = c.secondary →
        fSwapsNow th.now = 0 → th.todo = (c.threads t).todo →
        c'.secondary.length + fSwapsNow (c'.threads 0).now + swapsTodo (c'.threads 0).todo ≤ M := by
      intro c' th e1 e2 e3 e4
      exact h.count_same e1 e2 (by omega) (by rw [e4])
    rcases ph with ⟨ls, ps, rest, f⟩ | ⟨ls, ps, p, rest, f⟩ | ⟨q, a, b⟩ | ⟨q, a, b, p⟩ | ⟨q, a, b, m⟩ | ⟨q, a, b, ids, m⟩ | ⟨q, a, b, i, ids, m, p⟩ | ⟨lo, hi⟩ | ⟨lo, hi⟩
    · -- writing
      simp only [FConf.stepWriting, hS]
      rcases rest with _ | ⟨p, rest⟩
      · refine ⟨?_, fun _ => Less.work ?_, fun e => absurd trivial e⟩
        · exact h.simple (t := t) _ (finish_threads _ _ _) rfl rfl (fun _ => rfl) (Or.inr (Or.inr ⟨rfl, rfl⟩)) (Or.inr (Or.inl ⟨rfl, by rw [hn]; rfl⟩))
            (fun _ => rfl) (List.suffix_refl _) h.sec (by simp [fIds]) (hcnt (finish_threads _ _ _) rfl rfl rfl) (by rw [hn]; rfl)
        · simp only [finish_threads, if_true, fWork, fPhaseWork, hn, FConf.dropCur]; omega
      · simp only []
        rcases hl : S.lock with _ | x
        · simp only []
          refine ⟨?_, fun _ => Less.work ?_, fun e => absurd (by rw [lockAt_eq hS, hl]) e⟩
          · have hset := lockAt_set (c' := ({ c.setChunk c.current { S with lock := some (t, (ls, p), (kitInsert B) (ls, p)) } with log := c.log ++ [⟨t, c.current, ls, p⟩] } : FConf).goto t
              (.inserting ls ps p rest f)) hS rfl
            have hth := goto_threads ({ c.setChunk c.current { S with lock := some (t, (ls, p), (kitInsert B) (ls, p)) } with log := c.log ++ [⟨t, c.current, ls, p⟩] } : FConf) t (.inserting ls ps p rest f)
            refine h.thread t _ hth (by simpa [FConf.goto, FConf.setThread, FConf.setChunk] using h.heap) (by simp [FConf.goto, FConf.setThread, FConf.setChunk]) ?_ ?_
              (fun _ => rfl) (List.suffix_refl _) (by simpa [FConf.goto, FConf.setThread, FConf.setChunk] using h.sec) (by simp [fIds]) (hcnt hth rfl rfl rfl) ⟨?_, ?_⟩
            · exact mem_keep (t := t) (P := fun u => fHoldsCur (c.threads u).now) (P' := fun u => fHoldsCur _) h.curR (by simp [goto_threads, hn, fHoldsCur])
                (fun u hu => by simp [goto_threads, hu, FConf.setChunk])
            · exact mem_keep (t := t) (P := fun u => fHoldsSec (c.threads u).now) (P' := fun u => fHoldsSec _) h.secR (by simp [goto_threads, hn, fHoldsSec])
                (fun u hu => by simp [goto_threads, hu, FConf.setChunk])
            · intro i x hx
              rw [hset] at hx
              split at hx
              · rename_i e
                cases hx
                exact ⟨e, by simp [goto_threads, insOf]⟩
              · rename_i e
                exact absurd (h.lock i x hx).1 e
            · intro u hu
              by_cases hut : u = t
              · refine ⟨(t, (ls, p), (kitInsert B) (ls, p)), ?_, hut.symm⟩
                rw [hset]; exact if_pos rfl
              · have hu' : (insOf (c.threads u).now).isSome = true := by simpa [goto_threads, hut, FConf.setChunk] using hu
                obtain ⟨x, hx, -⟩ := h.held u hu'
                rw [lockAt_eq hS, hl] at hx; cases hx
          · simp only [goto_threads, if_true, fWork, fPhaseWork, hn, List.length_cons, FConf.setChunk]; omega
        · refine ⟨h, fun e => ?_, fun _ => rfl⟩
          rw [lockAt_eq hS, hl] at e; cases e
    · -- inserting
      obtain ⟨⟨x1, w, pr⟩, hx, hx1⟩ := h.held t (by rw [hn]; rfl)
      simp only at hx1
      subst hx1
      rw [lockAt_eq hS] at hx
      simp only [FConf.stepInserting, hS, hx, if_true]
      rcases pr with r | ⟨u, k⟩
      · simp only []
        have hset : ∀ c' : FConf, c'.chunks = c.chunks.set c.current { S with lock := none, finished := S.finished ++ [(x1, w, r)] } → ∀ i, c'.lockAt i = none := by
          intro c' e i
          rw [lockAt_set hS e]
          split
          · rfl
          · rename_i e'
            rcases hli : c.lockAt i with _ | x
            · rfl
            · exact absurd (h.lock i x hli).1 e'
        have hother : ∀ u, u ≠ x1 → (insOf (c.threads u).now).isSome = false := by
          intro u hu
          by_contra hc
          obtain ⟨x, hx', e⟩ := h.held u (eq_true_of_ne_false hc)
          rw [lockAt_eq hS, hx] at hx'
          cases hx'
          exact hu e.symm
        have key : ∀ (c' : FConf) (th : FThread), c'.chunks = c.chunks.set c.current { S with lock := none, finished := S.finished ++ [(x1, w, r)] } →
            (c'.threads = fun u => if u = x1 then th else c.threads u) → c'.current = c.current → c'.secondary = c.secondary → c'.secR = c.secR →
            Holders c.curR c'.curR x1 (fHoldsCur (c.threads x1).now) (fHoldsCur th.now) → fHoldsSec th.now = false → fIsSwap th.now = false → fSwapsNow th.now = 0 →
            th.todo = (c.threads x1).todo → fIds th.now = [] → insOf th.now = none → LK M c' := by
          intro c' th e1 e2 e3 e4 e5 e6 e7 e8 e9 e10 e11 e12
          have elen : c'.chunks.length = c.chunks.length := by rw [e1, List.length_set]
          have et : c'.threads x1 = th := by rw [e2]; simp
          have eo : ∀ u, u ≠ x1 → c'.threads u = c.threads u := by intro u hu; rw [e2]; simp [hu]
          refine h.thread x1 th e2 (by rw [elen, e3]; exact h.heap) (by rw [elen]) ?_ ?_ (fun _ => e8) (by rw [e10]; exact List.suffix_refl _)
            (by rw [elen, e4]; exact h.sec) (by rw [e11]; simp) (hcnt e2 e4 e9 e10) ⟨?_, ?_⟩
          · exact Holders.iff (P := fun u => fHoldsCur (c.threads u).now) (P' := fun u => fHoldsCur (c'.threads u).now) (by rw [et]; exact e6) h.curR
              (fun u hu => by rw [eo u hu])
          · rw [e5]
            exact mem_keep (t := x1) (P := fun u => fHoldsSec (c.threads u).now) (P' := fun u => fHoldsSec (c'.threads u).now) h.secR (by rw [et, e7, hn]; rfl) (fun u hu => by rw [eo u hu])
          · intro i x hx
            rw [hset c' e1] at hx; cases hx
          · intro u hu
            by_cases hut : u = x1
            · rw [hut, et, e12] at hu; cases hu
            · rw [eo u hut, hother u hut] at hu; cases hu
        rcases r with v | e | _
        · refine ⟨?_, fun _ => Less.work ?_, fun e => absurd trivial e⟩
          · exact key _ _ rfl (goto_threads _ _ _) rfl rfl rfl (Or.inr (Or.inl ⟨rfl, by rw [hn]; rfl⟩)) rfl rfl rfl rfl rfl rfl
          · simp only [goto_threads, if_true, fWork, fPhaseWork, hn, FConf.setChunk]; omega
        · refine ⟨?_, fun _ => Less.work ?_, fun e => absurd trivial e⟩
          · exact key _ _ rfl (goto_threads _ _ _) rfl rfl rfl (Or.inr (Or.inl ⟨rfl, by rw [hn]; rfl⟩)) rfl rfl rfl rfl rfl rfl
          · simp only [goto_threads, if_true, fWork, fPhaseWork, hn, FConf.setChunk]; omega
        · refine ⟨?_, fun _ => Less.work ?_, fun e => absurd trivial e⟩
          · exact key _ _ rfl (finish_threads _ _ _) rfl rfl rfl (Or.inr (Or.inr ⟨rfl, rfl⟩)) rfl rfl rfl rfl rfl rfl
          · simp only [finish_threads, if_true, fWork, fPhaseWork, hn, FConf.setChunk, FConf.dropCur]; omega
      · simp only []
        have hset := lockAt_set (c' := c.setChunk c.current { S with store := u S.store, lock := some (x1, w, k S.store) }) hS rfl
        refine ⟨?_, fun _ => ?_, fun e => absurd trivial e⟩
        · refine ⟨by simpa [FConf.setChunk] using h.heap, h.curR, h.secR, h.swaps, by simpa [FConf.setChunk] using h.sec, ?_, h.count, ?_, ?_⟩
          · intro v; simpa [FConf.setChunk] using h.ids v
          · intro i x hx'
            rw [hset] at hx'
            split at hx'
            · rename_i e
              cases hx'
              exact ⟨e, by simp [FConf.setChunk, hn, insOf]⟩
            · exact h.lock i x hx'
          · intro v hv
            obtain ⟨x, hx', e⟩ := h.held v hv
            rw [lockAt_eq hS, hx] at hx'
            cases hx'
            refine ⟨(x1, w, k S.store), ?_, e⟩
            rw [hset]; exact if_pos rfl
        · refine Prod.Lex.right _ (Prod.Lex.left _ _ ?_)
          have e1 : (c.setChunk c.current { S with store := u S.store, lock := some (x1, w, k S.store) }).insLeft x1 = some (k S.store) := by
            have : (c.setChunk c.current { S with store := u S.store, lock := some (x1, w, k S.store) }).lockAt c.current = some (x1, w, k S.store) := by
              rw [hset]; exact if_pos rfl
            show (FConf.lockAt _ c.current).bind _ = _
            rw [this]; simp
          have e2 : c.insLeft x1 = some (.act u k) := by
            unfold FConf.insLeft
            rw [lockAt_eq hS, hx]; simp
          rw [e1, e2]
          exact .mk u k S.store
    · -- q1
      simp only [FConf.stepQ1, hS, FChunk.beginQuery]
      rcases hl : S.lock with _ | x
      · simp only []
        refine ⟨?_, fun _ => Less.work ?_, fun e => absurd (by rw [lockAt_eq hS, hl]) e⟩
        · exact h.simple (t := t) _ (goto_threads _ _ _) rfl rfl (fun _ => rfl) (Or.inr (Or.inl ⟨rfl, by rw [hn]; rfl⟩)) (Or.inr (Or.inl ⟨rfl, by rw [hn]; rfl⟩))
            (fun _ => rfl) (List.suffix_refl _) h.sec (by simp [fIds]) (hcnt (goto_threads _ _ _) rfl rfl rfl) (by rw [hn]; rfl)
        · simp only [goto_threads, if_true, fWork, fPhaseWork, hn]; omega
      · refine ⟨h, fun e => ?_, fun _ => rfl⟩
        rw [lockAt_eq hS, hl] at e; cases e
    · -- reading1
      rcases p with r | ⟨u, k⟩
      · simp only [FConf.stepReading1]
        rcases queryCurrent H (viewOf r) q a b with _ | m
        · refine ⟨?_, fun _ => Less.work ?_, fun e => absurd trivial e⟩
          · exact h.simple (t := t) _ (finish_threads _ _ _) rfl rfl (fun _ => rfl) (Or.inr (Or.inr ⟨rfl, rfl⟩)) (Or.inr (Or.inl ⟨rfl, by rw [hn]; rfl⟩))
              (fun _ => rfl) (List.suffix_refl _) h.sec (by simp [fIds]) (hcnt (finish_threads _ _ _) rfl rfl rfl) (by rw [hn]; rfl)
          · simp only [finish_threads, if_true, fWork, fPhaseWork, hn, FConf.dropCur]; omega
        · refine ⟨?_, fun _ => Less.work ?_, fun e => absurd trivial e⟩
          · exact h.simple (t := t) _ (goto_threads _ _ _) rfl rfl (fun _ => rfl) (Or.inr (Or.inr ⟨rfl, rfl⟩)) (Or.inr (Or.inl ⟨rfl, by rw [hn]; rfl⟩))
              (fun _ => rfl) (List.suffix_refl _) h.sec (by simp [fIds]) (hcnt (goto_threads _ _ _) rfl rfl rfl) (by rw [hn]; rfl)
          · simp only [goto_threads, if_true, fWork, fPhaseWork, hn, FConf.dropCur]; omega
      · simp only [FConf.stepReading1, hS]
        have hl := lockAt_set_same (c' := (c.setChunk c.current { S with store := u S.store }).goto t (.reading1 q a b (k S.store))) (S' := { S with store := u S.store }) hS rfl rfl
        refine ⟨?_, fun _ => ?_, fun e => absurd trivial e⟩
        · exact h.simple (t := t) _ (goto_threads _ _ _) rfl (by simp [FConf.goto, FConf.setThread, FConf.setChunk]) hl (Or.inr (Or.inl ⟨rfl, by rw [hn]; rfl⟩)) (Or.inr (Or.inl ⟨rfl, by rw [hn]; rfl⟩))
            (fun _ => rfl) (List.suffix_refl _) (by simpa [FConf.goto, FConf.setThread, FConf.setChunk] using h.sec) (by simp [fIds]) (hcnt (goto_threads _ _ _) rfl rfl rfl) (by rw [hn]; rfl)
        · have e1 : ((c.setChunk c.current { S with store := u S.store }).goto t (.reading1 q a b (k S.store))).left M t =
              (fWork M (c.threads t), c.insLeft t, some (k S.store)) := by
            refine Prod.ext ?_ (Prod.ext ?_ ?_)
            · simp [FConf.left, goto_threads, fWork, fPhaseWork, hn, FConf.setChunk]
            · show FConf.insLeft _ t = _
              unfold FConf.insLeft
              rw [hl]; rfl
            · simp [FConf.left, goto_threads, fReads]
          rw [e1]
          refine Prod.Lex.right _ (Prod.Lex.right _ ?_)
          rw [hn]
          exact .mk u k S.store
    · -- q2
      have hle : c.secondary.length ≤ M := by have := h.count; omega
      refine ⟨?_, fun _ => Less.work ?_, fun e => absurd trivial e⟩
      · exact h.simple (t := t) _ (goto_threads _ _ _) rfl rfl (fun _ => rfl) (Or.inr (Or.inl ⟨rfl, by rw [hn]; rfl⟩)) (Or.inl ⟨rfl, rfl⟩)
          (fun _ => rfl) (List.suffix_refl _) h.sec ⟨fun i hi => h.sec i (List.mem_reverse.mp hi), by simpa [fIds] using hle⟩ (hcnt (goto_threads _ _ _) rfl rfl rfl) (by rw [hn]; rfl)
      · simp only [goto_threads, if_true, fWork, fPhaseWork, hn, List.length_reverse]; omega
    · -- q3
      have hids := h.ids t
      rw [hn] at hids
      rcases ids with _ | ⟨i, ids⟩
      · simp only [FConf.stepQ3]
        refine ⟨?_, fun _ => Less.work ?_, fun e => absurd trivial e⟩
        · exact h.simple (t := t) _ (finish_threads _ _ _) rfl rfl (fun _ => rfl) (Or.inr (Or.inl ⟨rfl, by rw [hn]; rfl⟩)) (Or.inr (Or.inr ⟨rfl, rfl⟩))
            (fun _ => rfl) (List.suffix_refl _) h.sec (by simp [fIds]) (hcnt (finish_threads _ _ _) rfl rfl rfl) (by rw [hn]; rfl)
        · simp only [finish_threads, if_true, fWork, fPhaseWork, hn, FConf.dropSec]; omega
      · obtain ⟨X, hX⟩ : ∃ X, c.chunks[i]? = some X := ⟨_, List.getElem?_eq_getElem (hids.1 i (by simp [fIds]))⟩
        have hlen : (i :: ids).length ≤ M := hids.2
        simp only [FConf.stepQ3, hX, FChunk.beginQuery, lockAt_eq hX]
        by_cases hw : X.store.isWithRange a b = true
        · rw [if_pos hw]
          rcases hl : X.lock with _ | x
          · simp only []
            refine ⟨?_, fun _ => Less.work ?_, fun e => absurd (Or.inl trivial) e⟩
            · exact h.simple (t := t) _ (goto_threads _ _ _) rfl rfl (fun _ => rfl) (Or.inr (Or.inl ⟨rfl, by rw [hn]; rfl⟩)) (Or.inr (Or.inl ⟨rfl, by rw [hn]; rfl⟩))
                (fun _ => rfl) (List.suffix_refl _) h.sec hids (hcnt (goto_threads _ _ _) rfl rfl rfl) (by rw [hn]; rfl)
            · simp only [goto_threads, if_true, fWork, fPhaseWork, hn, List.length_cons]; omega
          · refine ⟨h, fun e => ?_, fun _ => rfl⟩
            rcases e with e | e
            · cases e
            · rw [e X rfl] at hw; cases hw
        · rw [if_neg hw]
          refine ⟨?_, fun _ => Less.work ?_, fun e => absurd (Or.inr fun Y hY => by cases hY; simpa using hw) e⟩
          · exact h.simple (t := t) _ (goto_threads _ _ _) rfl rfl (fun _ => rfl) (Or.inr (Or.inl ⟨rfl, by rw [hn]; rfl⟩)) (Or.inr (Or.inl ⟨rfl, by rw [hn]; rfl⟩))
              (fun _ => rfl) (List.suffix_refl _) h.sec ⟨fun j hj => hids.1 j (List.mem_cons_of_mem _ hj), by simp only [List.length_cons] at hlen; show ids.length ≤ M; omega⟩
              (hcnt (goto_threads _ _ _) rfl rfl rfl) (by rw [hn]; rfl)
          · simp only [goto_threads, if_true, fWork, fPhaseWork, hn, List.length_cons]; omega
    · -- reading3
      have hids := h.ids t
      rw [hn] at hids
      have hlen : (i :: ids).length ≤ M := hids.2
      obtain ⟨X, hX⟩ : ∃ X, c.chunks[i]? = some X := ⟨_, List.getElem?_eq_getElem (hids.1 i (by simp [fIds]))⟩
      rcases p with r | ⟨u, k⟩
      · simp only [FConf.stepReading3]
        rcases querySecondary H q a b [viewOf r] m with _ | m'
        · refine ⟨?_, fun _ => Less.work ?_, fun e => absurd trivial e⟩
          · exact h.simple (t := t) _ (finish_threads _ _ _) rfl rfl (fun _ => rfl) (Or.inr (Or.inl ⟨rfl, by rw [hn]; rfl⟩)) (Or.inr (Or.inr ⟨rfl, rfl⟩))
              (fun _ => rfl) (List.suffix_refl _) h.sec (by simp [fIds]) (hcnt (finish_threads _ _ _) rfl rfl rfl) (by rw [hn]; rfl)
          · simp only [finish_threads, if_true, fWork, fPhaseWork, hn, FConf.dropSec]; omega
        · refine ⟨?_, fun _ => Less.work ?_, fun e => absurd trivial e⟩
          · exact h.simple (t := t) _ (goto_threads _ _ _) rfl rfl (fun _ => rfl) (Or.inr (Or.inl ⟨rfl, by rw [hn]; rfl⟩)) (Or.inr (Or.inl ⟨rfl, by rw [hn]; rfl⟩))
              (fun _ => rfl) (List.suffix_refl _) h.sec ⟨fun j hj => hids.1 j (List.mem_cons_of_mem _ hj), by simp only [List.length_cons] at hlen; show ids.length ≤ M; omega⟩
              (hcnt (goto_threads _ _ _) rfl rfl rfl) (by rw [hn]; rfl)
          · simp only [goto_threads, if_true, fWork, fPhaseWork, hn]; omega
      · simp only [FConf.stepReading3, hX]
        have hl := lockAt_set_same (c' := (c.setChunk i { X with store := u X.store }).goto t (.reading3 q a b i ids m (k X.store))) (S' := { X with store := u X.store }) hX rfl rfl
        refine ⟨?_, fun _ => ?_, fun e => absurd trivial e⟩
        · exact h.simple (t := t) _ (goto_threads _ _ _) rfl (by simp [FConf.goto, FConf.setThread, FConf.setChunk]) hl (Or.inr (Or.inl ⟨rfl, by rw [hn]; rfl⟩)) (Or.inr (Or.inl ⟨rfl, by rw [hn]; rfl⟩))
            (fun _ => rfl) (List.suffix_refl _) (by simpa [FConf.goto, FConf.setThread, FConf.setChunk] using h.sec) hids (hcnt (goto_threads _ _ _) rfl rfl rfl) (by rw [hn]; rfl)
        · have e1 : ((c.setChunk i { X with store := u X.store }).goto t (.reading3 q a b i ids m (k X.store))).left M t =
              (fWork M (c.threads t), c.insLeft t, some (k X.store)) := by
            refine Prod.ext ?_ (Prod.ext ?_ ?_)
            · simp [FConf.left, goto_threads, fWork, fPhaseWork, hn, FConf.setChunk]
            · show FConf.insLeft _ t = _
              unfold FConf.insLeft
              rw [hl]; rfl
            · simp [FConf.left, goto_threads, fReads]
          rw [e1]
          refine Prod.Lex.right _ (Prod.Lex.right _ ?_)
          rw [hn]
          exact .mk u k X.store
    · -- s1
      have ht0 : t = 0 := by
        by_contra h0
        have := (h.swaps t h0).1
        rw [hn] at this; cases this
      subst ht0
      simp only []
      by_cases hs : c.secR = []
      · rw [if_neg (by simp [hs])]
        refine ⟨?_, fun _ => Less.work ?_, fun e => absurd hs e⟩
        · refine h.simple (t := 0) _ (goto_threads _ _ _) rfl rfl (fun _ => rfl) (Or.inr (Or.inr ⟨rfl, rfl⟩)) (Or.inr (Or.inl ⟨rfl, by rw [hn]; rfl⟩))
            (fun h0 => absurd rfl h0) (List.suffix_refl _) ?_ (by simp [fIds]) ?_ (by rw [hn]; rfl)
          · intro i hi
            rcases List.mem_append.mp hi with hi | hi
            · exact h.sec i hi
            · rw [List.mem_singleton.mp hi]; exact h.heap
          · have := h.count
            rw [hn] at this
            simp only [fSwapsNow] at this
            simp only [FConf.goto, FConf.setThread, FConf.dropCur, if_true, fSwapsNow, List.length_append, List.length_singleton]
            omega
        · simp only [goto_threads, if_true, fWork, fPhaseWork, hn, FConf.dropCur]; omega
      · rw [if_pos hs]
        exact ⟨h, fun e => absurd e hs, fun _ => rfl⟩
    · -- s2
      have ht0 : t = 0 := by
        by_contra h0
        have := (h.swaps t h0).1
        rw [hn] at this; cases this
      subst ht0
      simp only [FConf.stepS2]
      by_cases hs : c.curR = []
      · have hnone : ∀ u, (insOf (c.threads u).now).isSome = false := by
          intro u
          by_contra hc
          have : fHoldsCur (c.threads u).now = true := by
            rcases hnu : (c.threads u).now with _ | ph
            · rw [hnu] at hc; exact absurd rfl hc
            · rw [hnu] at hc; rcases ph <;> first | rfl | exact absurd rfl hc
          have := (h.curR u).mpr this
          rw [hs] at this; cases this
        have hlk : ∀ i, c.lockAt i = none := by
          intro i
          rcases hli : c.lockAt i with _ | x
          · rfl
          · have := (h.lock i x hli).2
            rw [hnone] at this; cases this
        have hSl : S.lock = none := by rw [← lockAt_eq hS]; exact hlk _
        rw [if_neg (by simp [hs]), hS]
        simp only [hSl]
        refine ⟨?_, fun _ => Less.work ?_, fun e => absurd hs e⟩
        · have hth := finish_threads ({ c with
              chunks := c.chunks ++ [Sys.init (Chunk.new ⟨KV.empty, KV.empty⟩ lo hi) (fun _ => [])]
              closed := c.closed ++ [c.current]
              current := c.chunks.length } : FConf) 0 (.swapped lo hi)
          refine h.thread 0 _ hth (by simp [FConf.finish, FConf.setThread]) (by simp [FConf.finish, FConf.setThread]) ?_ ?_ (fun h0 => absurd rfl h0) (List.suffix_refl _)
            ?_ (by simp [fIds]) (hcnt hth rfl rfl rfl) ⟨?_, ?_⟩
          · exact mem_keep (t := 0) (P := fun u => fHoldsCur (c.threads u).now) (P' := fun u => fHoldsCur _) h.curR (by simp [finish_threads, hn, fHoldsCur])
              (fun u hu => by simp [finish_threads, hu])
          · exact mem_keep (t := 0) (P := fun u => fHoldsSec (c.threads u).now) (P' := fun u => fHoldsSec _) h.secR (by simp [finish_threads, hn, fHoldsSec])
              (fun u hu => by simp [finish_threads, hu])
          · intro i hi
            have := h.sec i hi
            simp only [FConf.finish, FConf.setThread, List.length_append, List.length_singleton]
            omega
          · intro i x hx
            exfalso
            unfold FConf.lockAt at hx
            simp only [FConf.finish, FConf.setThread] at hx
            by_cases hi : i < c.chunks.length
            · rw [List.getElem?_append_left hi] at hx
              have := hlk i
              unfold FConf.lockAt at this
              rw [this] at hx; cases hx
            · rw [List.getElem?_append_right (by omega)] at hx
              rcases hij : i - c.chunks.length with _ | j
              · rw [hij] at hx; simp [Sys.init] at hx
              · rw [hij] at hx; simp at hx
          · intro u hu
            exfalso
            by_cases hu0 : u = 0
            · subst hu0; simp [finish_threads, insOf] at hu
            · have : (insOf (c.threads u).now).isSome = true := by simpa [finish_threads, hu0] using hu
              rw [hnone] at this; cases this
        · simp only [finish_threads, if_true, fWork, fPhaseWork, hn]; omega
      · rw [if_pos hs]
        exact ⟨h, fun e => absurd e hs, fun _ => rfl⟩

end Verif
