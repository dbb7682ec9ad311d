import Verif.Lemmas.KitDb
import Verif.Spec.Deployed
import Verif.Lemmas.DbFineState
import Verif.Props.DbFine
import Verif.Props.DbProgress
/-! One client thread and the swapping thread: the invariant. -/
namespace Verif
open List

/-! ### The specification -/

theorem SeqDb.run_append (G : SeqDb) (a b : List DbOp) : G.run (a ++ b) = (G.run a).run b := List.foldl_append ..
theorem SeqDb.run_cons (G : SeqDb) (x : DbOp) (b : List DbOp) : G.run (x :: b) = (G.after x).run b := rfl
theorem SeqDb.run_snoc (G : SeqDb) (a : List DbOp) (x : DbOp) : G.run (a ++ [x]) = (G.run a).after x := by rw [SeqDb.run_append]; rfl

theorem SeqDb.run_old (G : SeqDb) (ops : List DbOp) : (G.run ops).old.length = G.old.length + (ops.filter DbOp.isSwap).length := by
  induction ops generalizing G with
  | nil => rfl
  | cons x ops ih =>
    rw [SeqDb.run_cons, ih]
    cases x with
    | write ls ps => simp [SeqDb.after, DbOp.isSwap]
    | query q a b => simp [SeqDb.after, DbOp.isSwap]
    | swap lo hi => simp [SeqDb.after, DbOp.isSwap, List.filter_cons]; omega

/-- The empty chunks made by swaps. -/
def newDescs (ops : List DbOp) : List Desc := ops.filterMap fun x => match x with | .swap lo hi => some ⟨lo, hi, []⟩ | _ => none

theorem SeqDb.run_swaps (G : SeqDb) (ops : List DbOp) (h : ∀ x ∈ ops, x.isSwap = true) : (G.run ops).all = G.all ++ newDescs ops := by
  induction ops generalizing G with
  | nil => simp [SeqDb.run, newDescs]
  | cons x ops ih =>
    rw [SeqDb.run_cons, ih _ fun y hy => h y (by simp [hy])]
    cases x with
    | write ls ps => simp [DbOp.isSwap] at h
    | query q a b => simp [DbOp.isSwap] at h
    | swap lo hi => simp [SeqDb.after, SeqDb.all, newDescs]

theorem newDescs_empty {ops : List DbOp} {d : Desc} (h : d ∈ newDescs ops) : d.h = [] := by
  obtain ⟨x, -, e⟩ := List.mem_filterMap.mp h
  cases x <;> simp at e
  rw [← e]

theorem empty_answer {d : Desc} (h : d.h = []) (q : Labels) (a b : U64) : d.answer sledAccepts q a b = [] := by
  obtain ⟨lo, hi, hh⟩ := d
  simp only at h
  subst h
  unfold Desc.answer
  split
  · simp [matched, numbered, labelSets, specQuery, okSeries, restrict]
  · rfl

theorem IsMerge.congr {rs rs' : ChunkResults} {r : List (Labels × List TimePoint)} (h : ∀ ls, seriesWith rs ls = seriesWith rs' ls)
    (hm : IsMerge rs r) : IsMerge rs' r :=
  ⟨hm.once, fun ls ps => by rw [hm.entries, h]; unfold mergedPoints; rw [h]⟩

theorem seriesWith_drop {A E C : ChunkResults} (hE : ∀ x ∈ E, x = []) (ls : Labels) : seriesWith (A ++ E ++ C) ls = seriesWith (A ++ C) ls := by
  unfold seriesWith
  rw [List.flatMap_append, List.flatMap_append, List.flatMap_append]
  have : (E.flatMap fun r => r.filter fun s => decide (s.labels = ls)) = [] := by
    rw [List.flatMap_eq_nil_iff]
    intro x hx; rw [hE x hx]; rfl
  rw [this]; simp

/-! ### The invariant -/

/-- The store of a chunk. -/
def storeAt (c : FConf) (i : Nat) : SChunk := ((c.chunks[i]?).map (·.store)).getD (newSled 0#64 0#64)
/-- The chunk as the database sees it. -/
def vAt (B : Kit) (c : FConf) (i : Nat) : View := (storeAt c i).view (kitComp B)

/-- The query whose order is fixed and that has not returned. -/
def pendQ : Option FPhase → List DbOp
  | some (.q2 q a b _) => [.query q a b]
  | some (.q3 q a b _ _) => [.query q a b]
  | some (.reading3 q a b _ _ _ _) => [.query q a b]
  | _ => []

/-- The points of the batch under way that have begun. -/
def Link (lo hi : U64) (pre : Inserts) : Option FPhase → Prop
  | some (.writing ls ps rest _) => ∃ ps1, ps.filter (keepPoint lo hi) = ps1 ++ rest ∧ pre = ps1.map fun p => (ls, p)
  | some (.inserting ls ps _ rest _) => ∃ ps1, ps.filter (keepPoint lo hi) = ps1 ++ rest ∧ pre = ps1.map fun p => (ls, p)
  | _ => pre = []

/-- What the chunks contribute; the first of `G` stand for the older chunks of `past`. -/
def parts (past : Past) (G : SeqDb) (q : Labels) (a b : U64) : ChunkResults :=
  (past.map fun f => f q a b) ++ (G.all.drop past.length).map fun d => d.answer sledAccepts q a b

/-- Part of `Fits`, and what is proved of writes separately (C82). -/
def Fits0 (past : Past) (G : SeqDb) (begun : Nat) : Out → Prop
  | .wrote _ _ _ lo hi => lo = G.cur.lo ∧ hi = G.cur.hi
  | .answered q a b r => (∀ l ∈ q, WFLabel l) → a.toNat ≤ b.toNat → ∃ v, r = .ok v ∧
    (IsMerge (parts past G q a b) v ∨ G.old.length < past.length + begun ∧ IsMerge (parts past G q a b ++ [G.cur.answer sledAccepts q a b]) v)
  | .swapped _ _ => True

/-- A query past its first section: `pre` came before it, its first section gave `m0`. -/
structure QHead (B : Kit) (H : Hash) (G0 : SeqDb) (c : FConf) (L : List DbOp) (q : Labels) (a b : U64) (pre post : List DbOp) (m0 : HMap) : Prop where
  split : L = pre ++ .query q a b :: post
  swaps : ∀ x ∈ post, x.isSwap = true
  nth : (pre.filter fun x => !x.isSwap).length = (c.threads 1).done.length
  first : queryCurrent H (vAt B c (G0.run pre).old.length) q a b = some m0

/-- The second section, with these chunks left. -/
def QTail (F : List SChunk) (B : Kit) (H : Hash) (G0 : SeqDb) (c : FConf) (L : List DbOp) (q : Labels) (a b : U64) (ids : List Nat) (m : HMap) : Prop :=
  ∃ pre post m0 n, QHead B H G0 c L q a b pre post m0 ∧
    querySecondary H q a b ((List.range n).reverse.map (vAt B c)) m0 = querySecondary H q a b (ids.map (vAt B c)) m ∧
    n ≤ c.chunks.length ∧ (∀ i ∈ ids, i < c.chunks.length) ∧
    (n = (G0.run pre).old.length ∨ (G0.run pre).old.length < n ∧ (G0.run pre).old.length < F.length + c.begun)

/-- Where a query is. -/
def QPhase (F : List SChunk) (B : Kit) (H : Hash) (G0 : SeqDb) (c : FConf) (L : List DbOp) : Option FPhase → Prop
  | some (.reading1 q a b p) => (p.run (storeAt c c.current)).1 = (storeAt c c.current).query (kitComp B) q a b
  | some (.q2 q a b m) => ∃ pre post, QHead B H G0 c L q a b pre post m
  | some (.q3 q a b ids m) => QTail F B H G0 c L q a b ids m
  | some (.reading3 q a b i ids m p) => QTail F B H G0 c L q a b (i :: ids) m ∧ (storeAt c i).isWithRange a b = true ∧
      (p.run (storeAt c i)).1 = (storeAt c i).query (kitComp B) q a b
  | _ => True

/-- The invariant. `L` is the order found so far. -/
structure Dep (F : List SChunk) (past : Past) (B : Kit) (H : Hash) (G0 : SeqDb) (c : FConf) (L : List DbOp) : Prop where
  idle : ∀ u, 2 ≤ u → (c.threads u).now = none ∧ (c.threads u).todo = []
  t0 : (c.threads 0).now = none ∨ fIsSwap (c.threads 0).now = true
  swaps : L.filter DbOp.isSwap = (c.threads 0).done.map Out.call
  calls : (L.filter fun x => !x.isSwap) = (c.threads 1).done.map Out.call ++ pendQ (c.threads 1).now
  glen : (G0.run L).old.length = c.current
  cont : ∃ pre, (∀ lo hi, fWin c.chunks c.current = some (lo, hi) → Link lo hi pre (c.threads 1).now) ∧
    ∀ i lo hi, F.length ≤ i → fWin c.chunks i = some (lo, hi) → ∃ d, (G0.run L).all[i]? = some d ∧ d.lo = lo ∧ d.hi = hi ∧
      insideOnly lo hi (histOf c.log i) = d.h ++ if i = c.current then insideOnly lo hi pre else []
  qphase : QPhase F B H G0 c L (c.threads 1).now
  results : ∀ j o, (c.threads 1).done[j]? = some o → ∃ pre post, L = pre ++ o.call :: post ∧ (pre.filter fun x => !x.isSwap).length = j ∧
    Fits0 past (G0.run pre) c.begun o

/-! ### Answers -/

variable {B : Kit} {H : Hash} {progs : Nat → List DbOp} {n : Nat} {c : FConf} {G0 : SeqDb} {L : List DbOp} {F : List SChunk} {past : Past} {K : Labels → Prop}

/-- The thread is not writing. -/
def notWriting : Option FPhase → Bool
  | some (.writing ..) => false
  | some (.inserting ..) => false
  | _ => true

theorem Link.nil {lo hi : U64} {pre : Inserts} {ph : Option FPhase} (h : Link lo hi pre ph) (hn : notWriting ph = true) : pre = [] := by
  unfold Link at h
  split at h
  · simp [notWriting] at hn
  · simp [notWriting] at hn
  · exact h

theorem Dep.unlocked (hd : Dep F past B H G0 c L) (hI : FInv F B progs n c) (hn : insOf (c.threads 1).now = none) {i : Nat} {S : FChunk}
    (hS : c.chunks[i]? = some S) : S.lock = none := by
  rcases hl : S.lock with _ | ⟨u, w, pr⟩
  · rfl
  · have := ((hI.lock i S hS u w).mp ⟨pr, hl⟩).2
    match u with
    | 0 =>
      rcases hd.t0 with e | e
      · rw [e] at this; cases this
      · revert this e
        generalize (c.threads 0).now = ph
        intro e this
        rcases ph with _ | ph
        · cases this
        · cases ph <;> simp_all [fIsSwap, insOf]
    | 1 => rw [hn] at this; cases this
    | k + 2 => rw [(hd.idle (k + 2) (by omega)).1] at this; cases this

/-- What the client knows of chunk `i`, from the history. -/
def descAt (c : FConf) (i : Nat) : Desc := ⟨(storeAt c i).start_, (storeAt c i).end_, histOf c.log i⟩

theorem storeAt_eq {i : Nat} {S : FChunk} (hS : c.chunks[i]? = some S) : storeAt c i = S.store := by simp [storeAt, hS]

theorem Dep.store (hd : Dep F past B H G0 c L) (hI : FInv F B progs n c) (hn : insOf (c.threads 1).now = none) {i : Nat} (hF : F.length ≤ i) (hi : i < c.chunks.length) :
    storeAt c i = kitChunk B (descAt c i) := by
  have hS : c.chunks[i]? = some c.chunks[i] := List.getElem?_eq_getElem hi
  have hl := hd.unlocked hI hn hS
  obtain ⟨todo0, hs⟩ := hI.sys i _ hS hF
  have hst := hs.lin.store
  rw [hl] at hst
  simp only at hst
  rw [hs.lin.chunk B] at hst
  have e2 : c.chunks[i].started = c.chunks[i].finished.map (·.2.1) := by unfold Sys.started; rw [hl]; simp
  rw [← e2, hI.started i _ hS] at hst
  unfold descAt kitChunk
  rw [storeAt_eq hS]
  exact hst

theorem Dep.made (hd : Dep F past B H G0 c L) (hn : notWriting (c.threads 1).now = true) {i : Nat} (hI : FInv F B progs n c) (hF : F.length ≤ i) (hi : i < c.chunks.length) :
    (G0.run L).all[i]? = some (made (descAt c i)) := by
  have hS : c.chunks[i]? = some c.chunks[i] := List.getElem?_eq_getElem hi
  obtain ⟨S0, hS0⟩ := hI.getCur
  obtain ⟨pre, hl, hc⟩ := hd.cont
  have := (hl _ _ (by simp [fWin, hS0]; exact ⟨rfl, rfl⟩)).nil hn
  subst this
  obtain ⟨d, h1, h2, h3, h4⟩ := hc i c.chunks[i].store.start_ c.chunks[i].store.end_ hF (by simp [fWin, hS])
  rw [h1]
  obtain ⟨lo, hi, h⟩ := d
  simp only at h2 h3 h4
  subst h2 h3
  have e : (if i = c.current then insideOnly c.chunks[i].store.start_ c.chunks[i].store.end_ [] else []) = [] := by split <;> rfl
  rw [e, List.append_nil] at h4
  unfold Verif.made descAt
  rw [storeAt_eq hS]
  simp only [h4]

theorem SeqDb.len_all (G : SeqDb) : G.all.length = G.old.length + 1 := by simp [SeqDb.all]

theorem Dep.frozen (hI : FInv F B progs n c) {i : Nat} {s : SChunk} (hs : F[i]? = some s) : storeAt c i = s := by
  unfold storeAt
  rw [hI.froz i s hs]; rfl

/-- What chunk `i` contributes. -/
def partAt (past : Past) (c : FConf) (q : Labels) (a b : U64) (i : Nat) : List Series :=
  match past[i]? with
  | some f => f q a b
  | none => (Verif.made (descAt c i)).answer sledAccepts q a b

/-- The answer of a query whose first section looked at chunk `k` and whose second section looks at the first `m` chunks. -/
theorem Dep.fits (hd : Dep F past B H G0 c L) (hI : FInv F B progs n c) (hb : n + 1 < 2 ^ 64 - 1) (hs : SingleWriter progs) (hP : Forall₂ (Frozen B K) F past)
    (hH : H.Good fun k => Written progs k ∨ K k) (hG0 : G0.old.length = F.length)
    (hn : notWriting (c.threads 1).now = true) {q : Labels} {a b : U64} {pre post : List DbOp} (hL : (G0.run L) = (G0.run pre).run post)
    (hpost : ∀ x ∈ post, x.isSwap = true) {m begun : Nat} (hm : m ≤ c.chunks.length)
    (hcase : m = (G0.run pre).old.length ∨ (G0.run pre).old.length < m ∧ (G0.run pre).old.length < F.length + begun)
    {r : Res (List (Labels × List TimePoint))}
    (hr : dbQuery H (vAt B c (G0.run pre).old.length) ((List.range m).map (vAt B c)) q a b = r) :
    Fits0 past (G0.run pre) begun (.answered q a b r) := by
  intro hq hab
  have hni : insOf (c.threads 1).now = none := by
    revert hn; generalize (c.threads 1).now = ph; intro hn
    rcases ph with _ | ph
    · rfl
    · cases ph <;> simp_all [notWriting, insOf]
  have hFp : F.length = past.length := hP.length_eq
  have hall := (G0.run pre).run_swaps post hpost
  rw [← hL] at hall
  have hlen : (G0.run L).all.length = c.chunks.length := by rw [SeqDb.len_all, hd.glen, hI.len]
  have hFk : F.length ≤ (G0.run pre).old.length := by rw [SeqDb.run_old, hG0]; omega
  generalize hk : (G0.run pre).old.length = k at *
  have hkl : k < c.chunks.length := by
    rw [← hlen, hall, List.length_append, SeqDb.len_all, hk]; omega
  have hmem : ∀ i ∈ List.range m ++ [k], i < c.chunks.length := by
    intro i hi
    rcases List.mem_append.mp hi with hi | hi
    · have := List.mem_range.mp hi; omega
    · rw [List.mem_singleton.mp hi]; exact hkl
  have hok : ∀ i, i < c.chunks.length → LogOk (descAt c i).lo (descAt c i).hi (descAt c i).h := fun i hi => by
    have hS : c.chunks[i]? = some c.chunks[i] := List.getElem?_eq_getElem hi
    have := hI.logOk hs hb (descAt c i).lo (descAt c i).hi hS
    rw [hI.started i _ hS] at this
    exact this
  have hview : ∀ i, i < c.chunks.length → ((vAt B c i).query q a b ≠ .panic ∧ okSeries ((vAt B c i).query q a b) = partAt past c q a b i ∧
      (if (vAt B c i).within a b then okSeries ((vAt B c i).query q a b) else []) = partAt past c q a b i) ∧
      ((partAt past c q a b i).map (·.labels)).Nodup ∧ ∀ s ∈ partAt past c q a b i, Written progs s.labels ∨ K s.labels := by
    intro i hi
    by_cases hiF : i < F.length
    · have h1 : F[i]? = some F[i] := List.getElem?_eq_getElem hiF
      have h2 : past[i]? = some (past[i]'(by omega)) := List.getElem?_eq_getElem (by omega)
      have hfz : Frozen B K F[i] (past[i]'(by omega)) := by
        have := List.forall₂_iff_get.mp hP
        exact this.2 i hiF (by omega)
      have e1 : storeAt c i = F[i] := Dep.frozen hI h1
      have e2 : partAt past c q a b i = (past[i]'(by omega)) q a b := by unfold partAt; rw [h2]
      rw [e2]
      unfold vAt Chunk.view
      rw [e1]
      refine ⟨⟨hfz.safe q hq a b hab, hfz.gives q hq a b hab, ?_⟩, hfz.once q hq a b hab, fun s hs => Or.inr (hfz.known q hq a b hab s hs)⟩
      simp only []
      rcases hw : F[i].isWithRange a b
      · rw [if_neg (by simp), hfz.out q hq a b hab hw]
      · rw [if_pos rfl, hfz.gives q hq a b hab]
    · have e2 : partAt past c q a b i = (Verif.made (descAt c i)).answer sledAccepts q a b := by
        unfold partAt; rw [List.getElem?_eq_none (by omega)]
      rw [e2]
      have e1 : vAt B c i = (kitChunk B (descAt c i)).view (kitComp B) := by unfold vAt; rw [hd.store hI hni (by omega) hi]
      rw [e1]
      refine ⟨kit_view B (hok i hi).fine (hok i hi).incr hq hab, answer_nodup _ _ _ _ _, ?_⟩
      intro s hs
      left
      obtain ⟨⟨w, hw, e⟩, -⟩ := chunkAnswer_from (fun w hw => (hok i hi).fine.wf w (List.mem_filter.mp hw).1) hs
      obtain ⟨ev, hev, e'⟩ := List.mem_map.mp (List.mem_filter.mp hw).1
      obtain ⟨ps, hps, -⟩ := hI.own ev (List.mem_filter.mp hev).1
      rw [e, ← e']
      exact ⟨_, _, ps, hps, rfl⟩
  obtain ⟨v, hv1, hv2⟩ := dbQuery_views H (vAt B c) (partAt past c q a b) (List.range m) k q a b
    (fun i hi => (hview i (hmem i hi)).1) (fun i hi => (hview i (hmem i hi)).2.1) (by
      intro x y hx hy ht
      refine hH x y ?_ ?_ ht
      · obtain ⟨i, hi, s, hs, rfl⟩ := hx; exact (hview i (hmem i hi)).2.2 s hs
      · obtain ⟨i, hi, s, hs, rfl⟩ := hy; exact (hview i (hmem i hi)).2.2 s hs)
  rw [hv1] at hr
  refine ⟨v, hr.symm, ?_⟩
  have hmk : ∀ i, F.length ≤ i → i < c.chunks.length → (G0.run L).all[i]? = some (Verif.made (descAt c i)) := fun i hF hi => hd.made hn hI hF hi
  have htake : ∀ m, m ≤ c.chunks.length → F.length ≤ m → (List.range m).map (partAt past c q a b) = (past.map fun f => f q a b) ++
      (((G0.run L).all.take m).drop past.length).map fun d => d.answer sledAccepts q a b := by
    intro m hm hFm
    apply List.ext_getElem?
    intro i
    rw [List.getElem?_map]
    by_cases hi : i < m
    · rw [List.getElem?_range hi]
      by_cases hiF : i < past.length
      · rw [List.getElem?_append_left (by simpa using hiF), List.getElem?_map, List.getElem?_eq_getElem hiF]
        simp only [Option.map_some, partAt, List.getElem?_eq_getElem hiF]
      · rw [List.getElem?_append_right (by simpa using hiF), List.length_map, List.getElem?_map, List.getElem?_drop, List.getElem?_take,
          show past.length + (i - past.length) = i by omega, if_pos hi, hmk i (by omega) (by omega)]
        simp only [Option.map_some, partAt, List.getElem?_eq_none (show past.length ≤ i by omega)]
    · rw [List.getElem?_eq_none (by simpa using hi), List.getElem?_eq_none]
      · rfl
      · simp; omega
  have hcur : partAt past c q a b k = (G0.run pre).cur.answer sledAccepts q a b := by
    have h1 := hmk k (by omega) hkl
    rw [hall, ← hk, SeqDb.all, List.append_assoc, List.getElem?_append_right (le_refl _)] at h1
    simp only [Nat.sub_self, List.singleton_append, List.getElem?_cons_zero, Option.some.injEq] at h1
    unfold partAt
    rw [List.getElem?_eq_none (by omega), ← hk, ← h1]
  have hmF : F.length ≤ m := by rcases hcase with h | h <;> omega
  rw [List.map_append, htake m hm hmF, List.map_cons, List.map_nil, hcur] at hv2
  rcases hcase with rfl | ⟨h1, h2⟩
  · left
    rw [hall, SeqDb.all, List.append_assoc (G0.run pre).old, ← hk, List.take_left] at hv2
    unfold parts SeqDb.all
    rw [List.drop_append_of_le_length (by omega), List.map_append, ← List.append_assoc]
    exact hv2
  · right
    refine ⟨by omega, ?_⟩
    have e3 : (G0.run L).all.take m = (G0.run pre).all ++ (newDescs post).take (m - (k + 1)) := by
      rw [hall, List.take_append, SeqDb.len_all, hk, List.take_of_length_le (by rw [SeqDb.len_all, hk]; omega)]
    rw [e3, List.drop_append_of_le_length (by rw [SeqDb.len_all]; omega), List.map_append, ← List.append_assoc] at hv2
    refine hv2.congr fun ls => seriesWith_drop ?_ ls
    intro x hx
    obtain ⟨d, hd, rfl⟩ := List.mem_map.mp hx
    exact empty_answer (newDescs_empty (List.mem_of_mem_take hd)) q a b

end Verif
