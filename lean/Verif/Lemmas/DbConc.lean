import Verif.Spec.DbConc
import Verif.Lemmas.DbChunks
/-! Invariant of the database under concurrent calls. -/
namespace Verif
open List

/-- The inserts a chunk accepted. -/
def histOf (log : List Event) (i : Nat) : Inserts := (log.filter fun e => decide (e.chunk = i)).map fun e => (e.labels, e.point)

/-- The inserts of a thread. -/
def byThread (log : List Event) (u : Nat) : Inserts := (log.filter fun e => decide (e.thread = u)).map fun e => (e.labels, e.point)

/-- The points a thread may still insert. -/
def phasePoints : Option Phase → Inserts
  | some (.writing ls _ rest _) => rest.map fun p => (ls, p)
  | _ => []
def Thread.pending (th : Thread) : Inserts := phasePoints th.now ++ progPoints th.todo

/-- The phase holds the read lock of the current chunk. -/
def holdsCur : Option Phase → Bool
  | some (.writing ..) => true
  | some (.q1 ..) => true
  | some (.s1 ..) => true
  | _ => false

/-- The swap has pushed the current chunk. -/
def isS2 : Option Phase → Bool
  | some (.s2 ..) => true
  | _ => false
def isSwap : Option Phase → Bool
  | some (.s1 ..) => true
  | some (.s2 ..) => true
  | _ => false

/-- The window of a chunk. -/
def winOf (heap : List SChunk) (i : Nat) : Option (U64 × U64) := (heap[i]?).map fun k => (k.start_, k.end_)

/-- What holds of each thread. -/
structure TInv (prog : List DbOp) (win : Nat → Option (U64 × U64)) (current : Nat) (log : List Event) (u : Nat) (th : Thread) : Prop where
  todo : th.todo <:+ prog
  sub : byThread log u ++ th.pending <+ progPoints prog
  writing : ∀ ls ps rest f, th.now = some (.writing ls ps rest f) → DbOp.write ls ps ∈ prog ∧ ∃ w, win current = some w ∧
    ∀ p ∈ ps, inside w.1 w.2 p → p ∈ rest ∨ ⟨u, current, ls, p⟩ ∈ log
  done : ∀ ls ps r lo hi, Out.wrote ls ps r lo hi ∈ th.done → r ≠ .panic ∧ DbOp.write ls ps ∈ prog ∧ ∃ i ≤ current, win i = some (lo, hi) ∧
    ∀ p ∈ ps, inside lo hi p → ⟨u, i, ls, p⟩ ∈ log
  swaps : u ≠ 0 → isSwap th.now = false

/-- The invariant after at most `n` steps. -/
structure DInv (B : BinSearch) (progs : Nat → List DbOp) (n : Nat) (c : Conf SledStores) : Prop where
  len : c.heap.length = c.current + 1
  sec : c.secondary = List.range (if isS2 (c.threads 0).now then c.current + 1 else c.current)
  curR : ∀ t, t ∈ c.curR ↔ holdsCur (c.threads t).now = true
  rep : ∀ i k, c.heap[i]? = some k → ChunkRep (sledRefines B) k.start_ k.end_ (histOf c.log i) k
  ev : ∀ e ∈ c.log, WFSet e.labels ∧ e.chunk ≤ c.current ∧ ∀ w, winOf c.heap e.chunk = some w → inside w.1 w.2 e.point = true
  own : ∀ e ∈ c.log, ∃ ps, DbOp.write e.labels ps ∈ progs e.thread ∧ e.point ∈ ps
  count : c.log.length ≤ n
  thr : ∀ u, TInv (progs u) (winOf c.heap) c.current c.log u (c.threads u)

theorem histOf_append (log : List Event) (e : Event) (i : Nat) :
    histOf (log ++ [e]) i = if e.chunk = i then histOf log i ++ [(e.labels, e.point)] else histOf log i := by
  unfold histOf
  by_cases h : e.chunk = i <;> simp [List.filter_append, h]

theorem byThread_append (log : List Event) (e : Event) (u : Nat) :
    byThread (log ++ [e]) u = if e.thread = u then byThread log u ++ [(e.labels, e.point)] else byThread log u := by
  unfold byThread
  by_cases h : e.thread = u <;> simp [List.filter_append, h]

theorem histOf_length (log : List Event) (i : Nat) : (histOf log i).length ≤ log.length := by
  unfold histOf; rw [List.length_map]; exact List.length_filter_le _ _

/-- A thread that does not step keeps its invariant when another thread's insert is logged. -/
theorem TInv.log {prog : List DbOp} {win : Nat → Option (U64 × U64)} {current : Nat} {log : List Event} {u : Nat} {th : Thread}
    (h : TInv prog win current log u th) {e : Event} (he : e.thread ≠ u) : TInv prog win current (log ++ [e]) u th := by
  refine ⟨h.todo, ?_, ?_, ?_, h.swaps⟩
  · rw [byThread_append, if_neg he]; exact h.sub
  · intro ls ps rest f hn
    obtain ⟨h1, w, h2, h3⟩ := h.writing ls ps rest f hn
    exact ⟨h1, w, h2, fun p hp hi => (h3 p hp hi).imp id fun hm => List.mem_append_left _ hm⟩
  · intro ls ps r lo hi hd
    obtain ⟨h1, h0, i, hle, h2, h3⟩ := h.done ls ps r lo hi hd
    exact ⟨h1, h0, i, hle, h2, fun p hp hi => List.mem_append_left _ (h3 p hp hi)⟩

/-- Replace one thread; nothing else that the invariant reads, except `curR` and `secondary`. -/
theorem DInv.thread {B : BinSearch} {progs : Nat → List DbOp} {n : Nat} {c : Conf SledStores} (h : DInv B progs n c) (t : Nat) (th : Thread)
    (c' : Conf SledStores) (h1 : c'.heap = c.heap) (h2 : c'.current = c.current) (h3 : c'.log = c.log)
    (hth : ∀ u, c'.threads u = if u = t then th else c.threads u)
    (hsec : c'.secondary = List.range (if isS2 (c'.threads 0).now then c.current + 1 else c.current))
    (hcur : ∀ u, u ∈ c'.curR ↔ holdsCur (c'.threads u).now = true)
    (hT : TInv (progs t) (winOf c.heap) c.current c.log t th) : DInv B progs (n + 1) c' := by
  refine ⟨?_, ?_, hcur, ?_, ?_, ?_, ?_, ?_⟩
  · rw [h1, h2]; exact h.len
  · rw [h2]; exact hsec
  · rw [h1, h3]; exact h.rep
  · rw [h1, h2, h3]; exact h.ev
  · rw [h3]; exact h.own
  · rw [h3]; have := h.count; omega
  · intro u
    rw [h1, h2, h3, hth]
    by_cases hu : u = t
    · rw [if_pos hu, hu]; exact hT
    · rw [if_neg hu]; exact h.thr u

theorem cur_add {curR : List Nat} {threads : Nat → Thread} {t : Nat} (h : ∀ u, u ∈ curR ↔ holdsCur (threads u).now = true) {th : Thread}
    (hth : holdsCur th.now = true) (u : Nat) : u ∈ t :: curR ↔ holdsCur (if u = t then th else threads u).now = true := by
  by_cases hu : u = t
  · simp [hu, hth]
  · simp [hu, h u]

theorem cur_same {curR : List Nat} {threads : Nat → Thread} {t : Nat} (h : ∀ u, u ∈ curR ↔ holdsCur (threads u).now = true) {th : Thread}
    (hth : holdsCur th.now = holdsCur (threads t).now) (u : Nat) : u ∈ curR ↔ holdsCur (if u = t then th else threads u).now = true := by
  by_cases hu : u = t
  · rw [if_pos hu, hth, hu]; exact h t
  · rw [if_neg hu]; exact h u

theorem cur_drop {curR : List Nat} {threads : Nat → Thread} {t : Nat} (h : ∀ u, u ∈ curR ↔ holdsCur (threads u).now = true) {th : Thread}
    (hth : holdsCur th.now = false) (u : Nat) : u ∈ curR.filter (· ≠ t) ↔ holdsCur (if u = t then th else threads u).now = true := by
  by_cases hu : u = t
  · simp [hu, hth]
  · simp [hu, h u]

theorem sec_same {c : Conf SledStores} {B : BinSearch} {progs : Nat → List DbOp} {n : Nat} (h : DInv B progs n c) {t : Nat} {th : Thread}
    (hth : isS2 th.now = false) (ho : isS2 (c.threads t).now = false) :
    c.secondary = List.range (if isS2 (if 0 = t then th else c.threads 0).now then c.current + 1 else c.current) := by
  rw [h.sec]
  by_cases h0 : 0 = t
  · rw [if_pos h0, hth]; subst h0; rw [ho]
  · rw [if_neg h0]

theorem DInv.start (B : BinSearch) (progs : Nat → List DbOp) (lo hi : U64) :
    DInv B progs 0 (Conf.start ⟨KV.empty, KV.empty⟩ lo hi progs) := by
  refine ⟨rfl, rfl, fun t => by simp [Conf.start, holdsCur], ?_, by simp [Conf.start], by simp [Conf.start], by simp [Conf.start], ?_⟩
  · intro i k hk
    rcases i with _ | i
    · simp only [Conf.start, List.getElem?_cons_zero, Option.some.injEq] at hk
      subst hk
      exact ⟨rfl, rfl, rfl, rfl, IndexInv.empty sledCodec KV.empty (fun _ => rfl), fun _ => rfl⟩
    · simp [Conf.start] at hk
  · intro u
    refine ⟨List.suffix_refl _, ?_, by simp [Conf.start], by simp [Conf.start], by simp [Conf.start, isSwap]⟩
    simp [Conf.start, byThread, Thread.pending, phasePoints]

theorem suffix_tail {op : DbOp} {todo prog : List DbOp} (h : op :: todo <:+ prog) : op ∈ prog ∧ todo <:+ prog :=
  ⟨h.subset (by simp), (List.suffix_cons op todo).trans h⟩

theorem win_set {heap : List SChunk} {j : Nat} {k k' : SChunk} (hk : heap[j]? = some k) (h1 : k'.start_ = k.start_) (h2 : k'.end_ = k.end_) :
    winOf (heap.set j k') = winOf heap := by
  funext i
  unfold winOf
  rw [List.getElem?_set]
  by_cases hij : j = i
  · subst hij
    have hlt : j < heap.length := by
      rcases lt_or_ge j heap.length with h | h
      · exact h
      · rw [List.getElem?_eq_none h] at hk; cases hk
    rw [hk]; simp [hlt, h1, h2]
  · simp [hij]

theorem DInv.getCur {B : BinSearch} {progs : Nat → List DbOp} {n : Nat} {c : Conf SledStores} (h : DInv B progs n c) :
    ∃ k, c.heap[c.current]? = some k := by
  have : c.current < c.heap.length := by rw [h.len]; omega
  exact ⟨c.heap[c.current], List.getElem?_eq_getElem this⟩

theorem DInv.begin {B : BinSearch} {progs : Nat → List DbOp} (hf : FineProgs progs) {n : Nat} {c : Conf SledStores} (h : DInv B progs n c) (t : Nat)
    (hn : (c.threads t).now = none) : DInv B progs (n + 1) (c.begin t) := by
  obtain ⟨k, hk⟩ := h.getCur
  have hT := h.thr t
  unfold Conf.begin
  rcases ht : (c.threads t).todo with _ | ⟨op, todo⟩
  · simp only []
    exact ⟨h.len, h.sec, h.curR, h.rep, h.ev, h.own, by have := h.count; omega, h.thr⟩
  · rw [hk]
    simp only []
    have hsuf := suffix_tail (ht ▸ hT.todo)
    have hsub := hT.sub
    rw [Thread.pending, hn, ht] at hsub
    simp only [phasePoints, List.nil_append, progPoints, List.flatMap_cons] at hsub
    have hs0 : isS2 (c.threads t).now = false := by rw [hn]; rfl
    rcases op with ⟨ls, ps⟩ | ⟨q, a, b⟩ | ⟨lo, hi⟩
    · refine h.thread t ⟨todo, some (.writing ls ps (ps.filter (keepPoint k.start_ k.end_)) 0), (c.threads t).done⟩ _ rfl rfl rfl ?_ ?_ ?_ ?_
      · intro u; by_cases hu : u = t <;> simp [Conf.goto, Conf.setThread, hu]
      · have := sec_same h (t := t) (th := ⟨todo, some (.writing ls ps (ps.filter (keepPoint k.start_ k.end_)) 0), (c.threads t).done⟩) rfl hs0
        refine this.trans ?_
        by_cases h0 : (0:Nat) = t <;> simp [Conf.goto, Conf.setThread, h0]
      · intro u
        have := cur_add h.curR (t := t) (th := ⟨todo, some (.writing ls ps (ps.filter (keepPoint k.start_ k.end_)) 0), (c.threads t).done⟩) rfl u
        refine this.trans ?_
        by_cases hu : u = t <;> simp [Conf.goto, Conf.setThread, hu]
      · refine ⟨hsuf.2, ?_, ?_, hT.done, by simp [isSwap]⟩
        · refine List.Sublist.trans (List.Sublist.append (List.Sublist.refl _) (List.Sublist.append ?_ (List.Sublist.refl _))) hsub
          exact List.filter_sublist.map _
        · intro ls' ps' rest f e
          simp only [Option.some.injEq, Phase.writing.injEq] at e
          obtain ⟨rfl, rfl, rfl, -⟩ := e
          refine ⟨hsuf.1, (k.start_, k.end_), by simp [winOf, hk], ?_⟩
          intro p hp hin
          left
          refine List.mem_filter.mpr ⟨hp, ?_⟩
          simp only [inside, Bool.and_eq_true, decide_eq_true_eq] at hin
          simp only [keepPoint, Bool.and_eq_true, decide_eq_true_eq]
          refine ⟨⟨by omega, by omega⟩, ?_⟩
          intro e0
          rw [e0] at hin
          simp at hin
    · refine h.thread t ⟨todo, some (.q1 q a b), (c.threads t).done⟩ _ rfl rfl rfl ?_ ?_ ?_ ?_
      · intro u; by_cases hu : u = t <;> simp [Conf.goto, Conf.setThread, hu]
      · refine (sec_same h (t := t) (th := ⟨todo, some (.q1 q a b), (c.threads t).done⟩) rfl hs0).trans ?_
        by_cases h0 : (0:Nat) = t <;> simp [Conf.goto, Conf.setThread, h0]
      · intro u
        refine (cur_add h.curR (t := t) (th := ⟨todo, some (.q1 q a b), (c.threads t).done⟩) rfl u).trans ?_
        by_cases hu : u = t <;> simp [Conf.goto, Conf.setThread, hu]
      · exact ⟨hsuf.2, by simpa [Thread.pending, phasePoints, opPoints, progPoints] using hsub, by simp, hT.done, by simp [isSwap]⟩
    · refine h.thread t ⟨todo, some (.s1 lo hi), (c.threads t).done⟩ _ rfl rfl rfl ?_ ?_ ?_ ?_
      · intro u; by_cases hu : u = t <;> simp [Conf.goto, Conf.setThread, hu]
      · refine (sec_same h (t := t) (th := ⟨todo, some (.s1 lo hi), (c.threads t).done⟩) rfl hs0).trans ?_
        by_cases h0 : (0:Nat) = t <;> simp [Conf.goto, Conf.setThread, h0]
      · intro u
        refine (cur_add h.curR (t := t) (th := ⟨todo, some (.s1 lo hi), (c.threads t).done⟩) rfl u).trans ?_
        by_cases hu : u = t <;> simp [Conf.goto, Conf.setThread, hu]
      · exact ⟨hsuf.2, by simpa [Thread.pending, phasePoints, opPoints, progPoints] using hsub, by simp, hT.done,
          fun h0 => absurd (hf.swap t lo hi hsuf.1) h0⟩

theorem DInv.write {B : BinSearch} {progs : Nat → List DbOp} (hf : FineProgs progs) {n : Nat} (hbig : n + 1 < 2 ^ 64 - 1) {c : Conf SledStores}
    (h : DInv B progs n c) (t : Nat) {ls : Labels} {ps rest : List TimePoint} {f : Nat} (hn : (c.threads t).now = some (.writing ls ps rest f)) :
    DInv B progs (n + 1) (c.stepWrite (sledComp B) t ls ps rest f) := by
  obtain ⟨k, hk⟩ := h.getCur
  have hT := h.thr t
  obtain ⟨hop, w, hw, hin⟩ := hT.writing ls ps rest f hn
  have hww : w = (k.start_, k.end_) := by simp [winOf, hk] at hw; exact hw.symm
  have hs0 : isS2 (c.threads t).now = false := by rw [hn]; rfl
  have hc0 : holdsCur (c.threads t).now = true := by rw [hn]; rfl
  unfold Conf.stepWrite
  rw [hk]
  simp only []
  rcases rest with _ | ⟨p, rest⟩
  · simp only []
    generalize hr : (if f = 0 then Res.ok () else Res.err MErr.internal) = r
    have hr' : r ≠ .panic := by rw [← hr]; split <;> simp
    let th : Thread := ⟨(c.threads t).todo, none, (c.threads t).done ++ [.wrote ls ps r k.start_ k.end_]⟩
    refine h.thread t th _ rfl rfl rfl ?_ ?_ ?_ ?_
    · intro u; by_cases hu : u = t <;> simp [Conf.finish, Conf.setThread, Conf.dropCur, hu, th]
    · refine (sec_same h (t := t) (th := th) rfl hs0).trans ?_
      by_cases h0 : (0:Nat) = t <;> simp [Conf.finish, Conf.setThread, Conf.dropCur, h0, th]
    · intro u
      refine (cur_drop h.curR (t := t) (th := th) rfl u).trans ?_
      by_cases hu : u = t <;> simp [Conf.finish, Conf.setThread, Conf.dropCur, hu, th]
    · refine ⟨hT.todo, ?_, by simp [th], ?_, by simp [isSwap, th]⟩
      · have := hT.sub
        rw [Thread.pending, hn] at this
        simpa [Thread.pending, phasePoints, th] using this
      · intro ls' ps' r' lo hi hd
        rcases List.mem_append.mp hd with hd | hd
        · exact hT.done ls' ps' r' lo hi hd
        · simp only [List.mem_singleton, Out.wrote.injEq] at hd
          obtain ⟨rfl, rfl, rfl, rfl, rfl⟩ := hd
          refine ⟨hr', hop, c.current, le_refl _, by simp [winOf, hk], ?_⟩
          intro p hp hi'
          rw [hww] at hin
          exact (hin p hp hi').resolve_left (by simp)
  · have hlen : (histOf c.log c.current).length + 1 < 2 ^ 64 - 1 := by
      have := histOf_length c.log c.current; have := h.count; omega
    have hins := (h.rep c.current k hk).insert hlen (hf.wf t ls ps hop) p
    have hsub := hT.sub
    rw [Thread.pending, hn] at hsub
    simp only [phasePoints, List.map_cons, List.cons_append] at hsub
    have hpp : p ∈ ps ∨ True := Or.inr trivial
    by_cases hi0 : inside k.start_ k.end_ p
    · rw [if_pos hi0] at hins
      obtain ⟨hok, hrep, -⟩ := hins
      rcases hkk : k.insert (sledComp B) ls p with ⟨r, k'⟩
      rw [hkk] at hok hrep
      simp only at hok hrep
      subst hok
      have hwin : winOf (c.heap.set c.current k') = winOf c.heap := win_set hk hrep.start_ hrep.end_
      let th : Thread := ⟨(c.threads t).todo, some (.writing ls ps rest f), (c.threads t).done⟩
      let c' : Conf SledStores := ({ c with heap := c.heap.set c.current k', log := c.log ++ [⟨t, c.current, ls, p⟩] } : Conf SledStores).goto t (.writing ls ps rest f)
      have hth : ∀ u, c'.threads u = if u = t then th else c.threads u := by
        intro u; by_cases hu : u = t <;> simp [c', Conf.goto, Conf.setThread, hu, th]
      simp only [hkk]
      show DInv B progs (n + 1) c'
      have e1 : c'.heap = c.heap.set c.current k' := rfl
      have e2 : c'.current = c.current := rfl
      have e3 : c'.log = c.log ++ [⟨t, c.current, ls, p⟩] := rfl
      have e4 : c'.secondary = c.secondary := rfl
      have e5 : c'.curR = c.curR := rfl
      refine ⟨?_, ?_, ?_, ?_, ?_, ?_, ?_, ?_⟩
      · rw [e1, e2, List.length_set]; exact h.len
      · rw [e4, e2, hth 0]; exact sec_same h rfl hs0
      · intro u; rw [e5, hth u]; exact cur_same (th := th) h.curR (by rw [hc0]; rfl) u
      · intro i kk hkk'
        rw [e1, List.getElem?_set] at hkk'
        rw [e3, histOf_append]
        by_cases hij : c.current = i
        · subst hij
          have hlt : c.current < c.heap.length := by rw [h.len]; omega
          simp only [hlt, if_true] at hkk'
          cases hkk'
          simp only [if_true]
          rw [hrep.start_, hrep.end_]; exact hrep
        · simp only [hij, if_false] at hkk' ⊢
          exact h.rep i kk hkk'
      · intro e he
        rw [e1, e2, hwin]
        rw [e3] at he
        rcases List.mem_append.mp he with he | he
        · exact h.ev e he
        · rw [List.mem_singleton.mp he]
          refine ⟨hf.wf t ls ps hop, le_refl _, ?_⟩
          intro w' hw'
          rw [hw] at hw'; cases hw'
          rw [hww]; exact hi0
      · intro e he
        rw [e3] at he
        rcases List.mem_append.mp he with he | he
        · exact h.own e he
        · rw [List.mem_singleton.mp he]
          have : (ls, p) ∈ progPoints (progs t) := hsub.subset (by simp)
          obtain ⟨op, hop', hm⟩ := List.mem_flatMap.mp this
          rcases op with ⟨ls2, ps2⟩ | _ | _
          · obtain ⟨p2, hp2, e2⟩ := List.mem_map.mp hm
            cases e2
            exact ⟨ps2, hop', hp2⟩
          · cases hm
          · cases hm
      · rw [e3, List.length_append, List.length_singleton]; have := h.count; omega
      · intro u
        rw [e1, e2, e3, hwin, hth u]
        by_cases hu : u = t
        · rw [if_pos hu, hu]
          refine ⟨hT.todo, ?_, ?_, ?_, by simp [th, isSwap]⟩
          · rw [byThread_append, if_pos rfl]
            simpa [Thread.pending, phasePoints, th] using hsub
          · intro ls' ps' rest' f' e
            simp only [th, Option.some.injEq, Phase.writing.injEq] at e
            obtain ⟨rfl, rfl, rfl, -⟩ := e
            refine ⟨hop, w, hw, ?_⟩
            intro p' hp' hi'
            rcases hin p' hp' hi' with hm | hm
            · rcases List.mem_cons.mp hm with rfl | hm
              · right; exact List.mem_append_right _ (by simp)
              · left; exact hm
            · right; exact List.mem_append_left _ hm
          · intro ls' ps' r' lo hi hd
            obtain ⟨a1, a0, i, hle, a2, a3⟩ := hT.done ls' ps' r' lo hi hd
            exact ⟨a1, a0, i, hle, a2, fun p hp hi => List.mem_append_left _ (a3 p hp hi)⟩
        · rw [if_neg hu]; exact (h.thr u).log (fun e => hu e.symm)
    · rw [if_neg hi0] at hins
      simp only [hins]
      have hset : c.heap.set c.current k = c.heap := by
        apply List.ext_getElem?
        intro i
        rw [List.getElem?_set]
        by_cases hij : c.current = i
        · subst hij
          have hlt : c.current < c.heap.length := by rw [h.len]; omega
          rw [hk]; simp [hlt]
        · simp [hij]
      let th : Thread := ⟨(c.threads t).todo, some (.writing ls ps rest (f + 1)), (c.threads t).done⟩
      refine h.thread t th _ hset rfl rfl ?_ ?_ ?_ ?_
      · intro u; by_cases hu : u = t <;> simp [Conf.goto, Conf.setThread, hu, th]
      · refine (sec_same h (t := t) (th := th) rfl hs0).trans ?_
        by_cases h0 : (0:Nat) = t <;> simp [Conf.goto, Conf.setThread, h0, th]
      · intro u
        refine (cur_same h.curR (t := t) (th := th) (by rw [hc0]; rfl) u).trans ?_
        by_cases hu : u = t <;> simp [Conf.goto, Conf.setThread, hu, th]
      · refine ⟨hT.todo, ?_, ?_, hT.done, by simp [th, isSwap]⟩
        · refine List.Sublist.trans (List.Sublist.append (List.Sublist.refl _) ?_) hsub
          exact List.sublist_cons_self _ _
        · intro ls' ps' rest' f' e
          simp only [th, Option.some.injEq, Phase.writing.injEq] at e
          obtain ⟨rfl, rfl, rfl, -⟩ := e
          refine ⟨hop, w, hw, ?_⟩
          intro p' hp' hi'
          rcases hin p' hp' hi' with hm | hm
          · rcases List.mem_cons.mp hm with rfl | hm
            · rw [hww] at hi'; exact absurd hi' hi0
            · left; exact hm
          · right; exact hm

/-- Steps of a query change only its own thread (and the lists of lock holders). -/
theorem DInv.queryStep {B : BinSearch} {progs : Nat → List DbOp} {n : Nat} {c : Conf SledStores} (h : DInv B progs n c) (t : Nat) (ph : Option Phase)
    (outs : List Out) (hph : holdsCur ph = false) (hph2 : isSwap ph = false) (hph3 : phasePoints ph = [])
    (hold : phasePoints (c.threads t).now = []) (hold2 : isS2 (c.threads t).now = false)
    (houts : ∀ o ∈ outs, ∃ q a b r, o = .answered q a b r) (c' : Conf SledStores)
    (h1 : c'.heap = c.heap) (h2 : c'.current = c.current) (h3 : c'.log = c.log) (h4 : c'.secondary = c.secondary)
    (h5 : ∀ u, c'.threads u = if u = t then ⟨(c.threads t).todo, ph, (c.threads t).done ++ outs⟩ else c.threads u)
    (h6 : ∀ u, u ≠ t → (u ∈ c'.curR ↔ u ∈ c.curR)) (h7 : t ∉ c'.curR) : DInv B progs (n + 1) c' := by
  have hT := h.thr t
  have hs2 : isS2 ph = false := by
    rcases ph with _ | ph
    · rfl
    · cases ph <;> first | rfl | cases hph2
  refine h.thread t _ c' h1 h2 h3 h5 ?_ ?_ ?_
  · rw [h4, h5 0]; exact sec_same h hs2 hold2
  · intro u
    rw [h5 u]
    by_cases hu : u = t
    · subst hu; simp [h7, hph]
    · simp only [hu, if_false]
      rw [h6 u hu]; exact h.curR u
  · refine ⟨hT.todo, ?_, ?_, ?_, fun _ => hph2⟩
    · have := hT.sub
      rw [Thread.pending, hold] at this
      rw [Thread.pending, hph3]; exact this
    · intro ls ps rest f e
      simp only at e
      rw [e] at hph; cases hph
    · intro ls ps r lo hi hd
      rcases List.mem_append.mp hd with hd | hd
      · exact hT.done ls ps r lo hi hd
      · obtain ⟨q, a, b, r', e⟩ := houts _ hd
        cases e

theorem DInv.q1 {B : BinSearch} {H : Hash} {progs : Nat → List DbOp} {n : Nat} {c : Conf SledStores} (h : DInv B progs n c) (t : Nat)
    {q : Labels} {a b : U64} (hn : (c.threads t).now = some (.q1 q a b)) : DInv B progs (n + 1) (c.stepQ1 (sledComp B) H t q a b) := by
  obtain ⟨k, hk⟩ := h.getCur
  unfold Conf.stepQ1
  rw [hk]
  simp only []
  rcases queryCurrent H (k.view (sledComp B)) q a b with _ | m
  · refine h.queryStep t none [.answered q a b .panic] rfl rfl rfl (by rw [hn]; rfl) (by rw [hn]; rfl) (by simp) _ rfl rfl rfl rfl ?_ ?_ ?_
    · intro u; by_cases hu : u = t <;> simp [Conf.finish, Conf.setThread, Conf.dropCur, hu]
    · intro u hu; simp [Conf.finish, Conf.setThread, Conf.dropCur, hu]
    · simp [Conf.finish, Conf.setThread, Conf.dropCur]
  · refine h.queryStep t (some (.q2 q a b m)) [] rfl rfl rfl (by rw [hn]; rfl) (by rw [hn]; rfl) (by simp) _ rfl rfl rfl rfl ?_ ?_ ?_
    · intro u; by_cases hu : u = t <;> simp [Conf.goto, Conf.setThread, Conf.dropCur, hu]
    · intro u hu; simp [Conf.goto, Conf.setThread, Conf.dropCur, hu]
    · simp [Conf.goto, Conf.setThread, Conf.dropCur]

theorem DInv.same {B : BinSearch} {progs : Nat → List DbOp} {n : Nat} {c : Conf SledStores} (h : DInv B progs n c) : DInv B progs (n + 1) c :=
  ⟨h.len, h.sec, h.curR, h.rep, h.ev, h.own, by have := h.count; omega, h.thr⟩

theorem DInv.q3 {B : BinSearch} {H : Hash} {progs : Nat → List DbOp} {n : Nat} {c : Conf SledStores} (h : DInv B progs n c) (t : Nat)
    {q : Labels} {a b : U64} {ids : List Nat} {m : HMap} (hn : (c.threads t).now = some (.q3 q a b ids m)) :
    DInv B progs (n + 1) (c.stepQ3 (sledComp B) H t q a b ids m) := by
  have hnot : t ∉ c.curR := by rw [h.curR, hn]; simp [holdsCur]
  unfold Conf.stepQ3
  rcases ids with _ | ⟨i, ids⟩
  · simp only []
    refine h.queryStep t none [.answered q a b (Res.ofPanic (collectKeys H m (H.order (m.map (·.1)))))] rfl rfl rfl (by rw [hn]; rfl) (by rw [hn]; rfl) (by simp) _ rfl rfl rfl rfl ?_ ?_ hnot
    · intro u; by_cases hu : u = t <;> simp [Conf.finish, Conf.setThread, Conf.dropSec, hu]
    · intro u hu; exact Iff.rfl
  · simp only []
    rcases c.heap[i]? with _ | k
    · exact h.same
    · simp only []
      rcases querySecondary H q a b [k.view (sledComp B)] m with _ | m'
      · refine h.queryStep t none [.answered q a b .panic] rfl rfl rfl (by rw [hn]; rfl) (by rw [hn]; rfl) (by simp) _ rfl rfl rfl rfl ?_ ?_ hnot
        · intro u; by_cases hu : u = t <;> simp [Conf.finish, Conf.setThread, Conf.dropSec, hu]
        · intro u hu; exact Iff.rfl
      · refine h.queryStep t (some (.q3 q a b ids m')) [] rfl rfl rfl (by rw [hn]; rfl) (by rw [hn]; rfl) (by simp) _ rfl rfl rfl rfl ?_ ?_ hnot
        · intro u; by_cases hu : u = t <;> simp [Conf.goto, Conf.setThread, hu]
        · intro u hu; exact Iff.rfl

theorem DInv.s1 {B : BinSearch} {progs : Nat → List DbOp} {n : Nat} {c : Conf SledStores} (h : DInv B progs n c) (t : Nat)
    {lo hi : U64} (hn : (c.threads t).now = some (.s1 lo hi)) :
    DInv B progs (n + 1) ((({ c with secondary := c.secondary ++ [c.current] } : Conf SledStores).dropCur t).goto t (.s2 lo hi)) := by
  have hT := h.thr t
  have ht : t = 0 := by
    by_contra h0
    have := hT.swaps h0
    rw [hn] at this; cases this
  subst ht
  let th : Thread := ⟨(c.threads 0).todo, some (.s2 lo hi), (c.threads 0).done⟩
  refine h.thread 0 th _ rfl rfl rfl ?_ ?_ ?_ ?_
  · intro u; by_cases hu : u = 0 <;> simp [Conf.goto, Conf.setThread, Conf.dropCur, hu, th]
  · have := h.sec
    rw [hn] at this
    simp only [isS2, Bool.false_eq_true, if_false] at this
    simp [Conf.goto, Conf.setThread, Conf.dropCur, this, isS2, List.range_succ]
  · intro u
    refine (cur_drop h.curR (t := 0) (th := th) rfl u).trans ?_
    by_cases hu : u = 0 <;> simp [Conf.goto, Conf.setThread, Conf.dropCur, hu, th]
  · refine ⟨hT.todo, ?_, by simp [th], hT.done, by simp⟩
    have := hT.sub
    rw [Thread.pending, hn] at this
    exact this

theorem winOf_push {heap : List SChunk} {j : Nat} {k k' x : SChunk} (hk : heap[j]? = some k) (h1 : k'.start_ = k.start_) (h2 : k'.end_ = k.end_)
    {i : Nat} (hi : i < heap.length) : winOf (heap.set j k' ++ [x]) i = winOf heap i := by
  rw [← win_set hk h1 h2]
  unfold winOf
  rw [List.getElem?_append_left (by rw [List.length_set]; exact hi)]

theorem DInv.s2 {B : BinSearch} {progs : Nat → List DbOp} {n : Nat} {c : Conf SledStores} (h : DInv B progs n c) (t : Nat)
    {lo hi : U64} (hn : (c.threads t).now = some (.s2 lo hi)) : DInv B progs (n + 1) (c.stepS2 ⟨KV.empty, KV.empty⟩ t lo hi) := by
  obtain ⟨k, hk⟩ := h.getCur
  have hT := h.thr t
  have ht : t = 0 := by
    by_contra h0
    have := hT.swaps h0
    rw [hn] at this; cases this
  subst ht
  unfold Conf.stepS2
  by_cases hcur : c.curR ≠ []
  · rw [if_pos hcur]; exact h.same
  · rw [if_neg hcur, hk]
    simp only [ne_eq, not_not] at hcur
    simp only []
    have hrepk := h.rep c.current k hk
    have hclose : k.close.2 = { k with closed := true } := by unfold Chunk.close; rw [hrepk.ok]; rfl
    rw [hclose]
    have hlen := h.len
    let th : Thread := ⟨(c.threads 0).todo, none, (c.threads 0).done ++ [.swapped lo hi]⟩
    let c' : Conf SledStores := ({ c with heap := c.heap.set c.current { k with closed := true } ++ [Chunk.new ⟨KV.empty, KV.empty⟩ lo hi], current := c.heap.length } : Conf SledStores).finish 0 (.swapped lo hi)
    show DInv B progs (n + 1) c'
    have hth : ∀ u, c'.threads u = if u = 0 then th else c.threads u := by
      intro u; by_cases hu : u = 0 <;> simp [c', Conf.finish, Conf.setThread, hu, th]
    have e1 : c'.heap = c.heap.set c.current { k with closed := true } ++ [Chunk.new ⟨KV.empty, KV.empty⟩ lo hi] := rfl
    have e2 : c'.current = c.heap.length := rfl
    have e3 : c'.log = c.log := rfl
    have e4 : c'.secondary = c.secondary := rfl
    have e5 : c'.curR = c.curR := rfl
    have hwin : ∀ i, i ≤ c.current → winOf c'.heap i = winOf c.heap i := by
      intro i hle
      rw [e1]; exact winOf_push (x := Chunk.new ⟨KV.empty, KV.empty⟩ lo hi) (k' := { k with closed := true }) hk rfl rfl (show i < c.heap.length by rw [hlen]; omega)
    have hno : ∀ u, holdsCur (c.threads u).now = false := by
      intro u
      have := (h.curR u).not.mp (by rw [hcur]; simp)
      simpa using this
    have key : ∀ u, ∀ th', (∀ ls ps rest f, th'.now ≠ some (.writing ls ps rest f)) → TInv (progs u) (winOf c.heap) c.current c.log u th' →
        TInv (progs u) (winOf c'.heap) c'.current c'.log u th' := by
      intro u th' hw hT'
      refine ⟨hT'.todo, by rw [e3]; exact hT'.sub, fun ls ps rest f e => absurd e (hw ls ps rest f), ?_, hT'.swaps⟩
      intro ls ps r lo' hi' hd
      obtain ⟨a1, a0, i, hle, a2, a3⟩ := hT'.done ls ps r lo' hi' hd
      exact ⟨a1, a0, i, by rw [e2, hlen]; omega, by rw [hwin i hle]; exact a2, by rw [e3]; exact a3⟩
    refine ⟨?_, ?_, ?_, ?_, ?_, ?_, ?_, ?_⟩
    · rw [e1, e2, List.length_append, List.length_set, List.length_singleton]
    · rw [e4, e2, hth 0, h.sec, hn]
      simp [isS2, th, hlen]
    · intro u
      rw [e5, hcur, hth u]
      by_cases hu : u = 0
      · simp [hu, th, holdsCur]
      · simp [hu, hno u]
    · intro i kk hkk
      rw [e3]
      rw [e1] at hkk
      by_cases hi : i < c.heap.length
      · rw [List.getElem?_append_left (by rw [List.length_set]; exact hi), List.getElem?_set] at hkk
        by_cases hij : c.current = i
        · subst hij
          simp only [hi, if_true] at hkk
          cases hkk
          exact ⟨rfl, rfl, hrepk.ok, hrepk.next, hrepk.rep⟩
        · simp only [hij, if_false] at hkk
          exact h.rep i kk hkk
      · rw [List.getElem?_append_right (by rw [List.length_set]; omega), List.length_set] at hkk
        have hi' : i = c.heap.length := by
          by_contra hne
          have : i - c.heap.length ≠ 0 := by omega
          obtain ⟨m, hm⟩ := Nat.exists_eq_succ_of_ne_zero this
          rw [hm] at hkk; simp at hkk
        subst hi'
        simp only [Nat.sub_self, List.getElem?_cons_zero, Option.some.injEq] at hkk
        subst hkk
        have hnil : histOf c.log c.heap.length = [] := by
          unfold histOf
          rw [List.map_eq_nil_iff, List.filter_eq_nil_iff]
          intro e he
          have := (h.ev e he).2.1
          simp only [decide_eq_true_eq]; omega
        rw [hnil]
        exact ⟨rfl, rfl, rfl, rfl, IndexInv.empty sledCodec KV.empty (fun _ => rfl), fun _ => rfl⟩
    · intro e he
      rw [e3] at he
      obtain ⟨b1, b2, b3⟩ := h.ev e he
      refine ⟨b1, by rw [e2, hlen]; omega, ?_⟩
      rw [hwin e.chunk b2]; exact b3
    · rw [e3]; exact h.own
    · rw [e3]; have := h.count; omega
    · intro u
      rw [hth u]
      by_cases hu : u = 0
      · subst hu
        rw [if_pos rfl]
        refine key 0 th (by simp [th]) ?_
        refine ⟨hT.todo, ?_, by simp [th], ?_, by simp⟩
        · have := hT.sub
          rw [Thread.pending, hn] at this
          exact this
        · intro ls ps r lo' hi' hd
          rcases List.mem_append.mp hd with hd | hd
          · exact hT.done ls ps r lo' hi' hd
          · simp at hd
      · rw [if_neg hu]
        refine key u _ ?_ (h.thr u)
        intro ls ps rest f e
        have := hno u
        rw [e] at this; cases this

theorem DInv.step {B : BinSearch} {H : Hash} {progs : Nat → List DbOp} (hf : FineProgs progs) {n : Nat} (hbig : n + 1 < 2 ^ 64 - 1)
    {c : Conf SledStores} (h : DInv B progs n c) (t : Nat) : DInv B progs (n + 1) (c.step (sledComp B) H ⟨KV.empty, KV.empty⟩ t) := by
  unfold Conf.step
  rcases hn : (c.threads t).now with _ | ph
  · exact h.begin hf t hn
  · rcases ph with ⟨ls, ps, rest, f⟩ | ⟨q, a, b⟩ | ⟨q, a, b, m⟩ | ⟨q, a, b, ids, m⟩ | ⟨lo, hi⟩ | ⟨lo, hi⟩
    · exact h.write hf hbig t hn
    · exact h.q1 t hn
    · have hnot : t ∉ c.curR := by rw [h.curR, hn]; simp [holdsCur]
      refine h.queryStep t (some (.q3 q a b c.secondary.reverse m)) [] rfl rfl rfl (by rw [hn]; rfl) (by rw [hn]; rfl) (by simp) _ rfl rfl rfl rfl ?_ ?_ hnot
      · intro u; by_cases hu : u = t <;> simp [Conf.goto, Conf.setThread, hu]
      · intro u hu; exact Iff.rfl
    · exact h.q3 t hn
    · simp only []
      split
      · exact h.same
      · exact h.s1 t hn
    · exact h.s2 t hn

theorem DInv.run {B : BinSearch} {H : Hash} {progs : Nat → List DbOp} (hf : FineProgs progs) (sched : List Nat) : ∀ {n : Nat} {c : Conf SledStores},
    n + sched.length < 2 ^ 64 - 1 → DInv B progs n c → DInv B progs (n + sched.length) (c.run (sledComp B) H ⟨KV.empty, KV.empty⟩ sched) := by
  induction sched with
  | nil => intro n c _ h; exact h
  | cons t ts ih =>
    intro n c hb h
    rw [List.length_cons] at hb ⊢
    have := ih (n := n + 1) (by omega) (h.step hf (by omega) t (H := H))
    rw [show n + (ts.length + 1) = n + 1 + ts.length by omega]
    exact this

end Verif
