import Verif.Lemmas.ServerConc
/-! The server at work follows its requests, and is a run of `deployed`. -/
namespace Verif
open List

/-- With these results of its calls, the request gets there. -/
inductive Follow {α : Type} : Calls α → List Out → Calls α → Prop where
  | nil {p : Calls α} : Follow p [] p
  | cons {op : DbOp} {k : Out → Calls α} {o : Out} {os : List Out} {p : Calls α} (h : o.call = op) (h' : Follow (k o) os p) : Follow (.call op k) (o :: os) p

theorem Follow.snoc {α : Type} {p : Calls α} {os : List Out} {op : DbOp} {k : Out → Calls α} {o : Out} (h : Follow p os (.call op k)) (ho : o.call = op) :
    Follow p (os ++ [o]) (k o) := by
  generalize hq : Calls.call op k = q at h
  induction h with
  | nil => subst hq; exact .cons ho .nil
  | cons h1 _ ih => exact .cons h1 (ih hq)

/-- The next call. -/
def Calls.next {α : Type} : Calls α → Option DbOp
  | .done _ => none
  | .call op _ => some op

section
variable {B : Kit} {H : Hash}

theorem step_cur {c : FConf} (h : c.current < c.chunks.length) (t : Nat) : (c.step B H t).current < (c.step B H t).chunks.length := by
  have e1 : ∀ (i : Nat) (S : FChunk), c.current < (c.chunks.set i S).length := by intro i S; rw [List.length_set]; exact h
  unfold FConf.step
  split
  · unfold FConf.begin
    split
    · rename_i op _ _ _ _
      rcases op <;> exact h
    · exact h
  · unfold FConf.stepWriting
    split
    · exact h
    · split
      · exact h
      · split
        · exact h
        · exact e1 _ _
  · unfold FConf.stepInserting
    split
    · exact h
    · split
      · exact h
      · split
        · split
          · exact e1 _ _
          · split
            · exact e1 _ _
            · exact e1 _ _
            · exact e1 _ _
        · exact h
  · unfold FConf.stepQ1
    split
    · exact h
    · split
      · exact h
      · exact h
  · rename_i p _
    rcases p with r | ⟨u, k⟩
    · simp only [FConf.stepReading1]
      split
      · exact h
      · exact h
    · simp only [FConf.stepReading1]
      split
      · exact h
      · exact e1 _ _
  · exact h
  · unfold FConf.stepQ3
    split
    · exact h
    · split
      · exact h
      · split
        · split
          · exact h
          · exact h
        · exact h
  · rename_i p _
    rcases p with r | ⟨u, k⟩
    · simp only [FConf.stepReading3]
      split
      · exact h
      · exact h
    · simp only [FConf.stepReading3]
      split
      · exact h
      · exact e1 _ _
  · split
    · exact h
    · exact h
  · unfold FConf.stepS2
    split
    · exact h
    · split
      · exact h
      · split
        · exact h
        · show c.chunks.length < (c.chunks ++ [_]).length
          simp

/-- A thread in a call does not begin another one. -/
theorem step_todo {c : FConf} {t : Nat} (h : (c.threads t).now ≠ none) : ((c.step B H t).threads t).todo = (c.threads t).todo := by
  have e1 : ∀ (c : FConf) th, (c.setThread t th).threads t = th := by intro c th; simp [FConf.setThread]
  have e2 : ∀ (c : FConf) ph, ((c.goto t ph).threads t).todo = (c.threads t).todo := fun c ph => by rw [FConf.goto, e1]
  have e3 : ∀ (c : FConf) o, ((c.finish t o).threads t).todo = (c.threads t).todo := fun c o => by rw [FConf.finish, e1]
  unfold FConf.step
  split
  · rename_i hn; exact absurd hn h
  · unfold FConf.stepWriting
    split
    · rfl
    · split
      · rw [e3]; rfl
      · split
        · rfl
        · rw [e2]; rfl
  · unfold FConf.stepInserting
    split
    · rfl
    · split
      · rfl
      · split
        · split
          · rfl
          · split
            · rw [e2]; rfl
            · rw [e2]; rfl
            · rw [e3]; rfl
        · rfl
  · unfold FConf.stepQ1
    split
    · rfl
    · split
      · rfl
      · rw [e2]
  · rename_i p _
    rcases p with r | ⟨u, k⟩
    · simp only [FConf.stepReading1]
      split
      · rw [e3]; rfl
      · rw [e2]; rfl
    · simp only [FConf.stepReading1]
      split
      · rfl
      · rw [e2]; rfl
  · rw [e2]
  · unfold FConf.stepQ3
    split
    · rw [e3]; rfl
    · split
      · rfl
      · split
        · split
          · rfl
          · rw [e2]
        · rw [e2]
  · rename_i p _
    rcases p with r | ⟨u, k⟩
    · simp only [FConf.stepReading3]
      split
      · rw [e3]; rfl
      · rw [e2]
    · simp only [FConf.stepReading3]
      split
      · rfl
      · rw [e2]; rfl
  · split
    · rfl
    · rw [e2]; rfl
  · unfold FConf.stepS2
    split
    · rfl
    · split
      · rfl
      · split
        · rfl
        · rw [e3]

/-- A thread in a call goes on in it or returns from it. -/
theorem step_next {c : FConf} {t : Nat} {ph : FPhase} (h : (c.threads t).now = some ph) :
    (∃ ph', ((c.step B H t).threads t).now = some ph' ∧ ((c.step B H t).threads t).done = (c.threads t).done ∧ ph'.call = ph.call) ∨
    ∃ o, ((c.step B H t).threads t).now = none ∧ ((c.step B H t).threads t).done = (c.threads t).done ++ [o] ∧ o.call = ph.call := by
  have h1 := step_fcalls (B := B) (H := H) c t
  have h2 : ((c.step B H t).threads t).todo = (c.threads t).todo := step_todo (by rw [h]; simp)
  obtain ⟨d, h3⟩ := step_fdone (B := B) (H := H) (c := c) t
  unfold FThread.calls at h1
  rw [h2] at h1
  have h1 := List.append_cancel_right h1
  rw [← h3, h, List.map_append, List.append_assoc] at h1
  have h1 := List.append_cancel_left h1
  simp only [Option.map_some, Option.toList_some] at h1
  rcases hn : ((c.step B H t).threads t).now with _ | ph'
  · right
    rw [hn] at h1
    simp only [Option.map_none, Option.toList_none, List.append_nil] at h1
    rcases d with _ | ⟨o, _ | ⟨o', d⟩⟩
    · simp at h1
    · exact ⟨o, rfl, h3.symm, by simpa using h1⟩
    · simp at h1
  · left
    rw [hn] at h1
    rcases d with _ | ⟨o, d⟩
    · exact ⟨ph', rfl, by rw [← h3]; simp, by simpa using h1⟩
    · simp at h1

/-- The calls the server's steps put in order. -/
def srvLinStep (c : SrvConf) (t : Nat) : List DbOp := if none ∈ c.sent then [] else if t = 0 ∨ t = 1 then linStep c.db t else []

/-- The order of the calls. -/
def srvLin (B : Kit) (H : Hash) (F : Formats) (P : Paths) : SrvConf → List Nat → List DbOp
  | _, [] => []
  | c, t :: s => srvLinStep c t ++ srvLin B H F P (c.step B H F P t) s

theorem srvLin_append (F : Formats) (P : Paths) (c : SrvConf) (s s' : List Nat) :
    srvLin B H F P c (s ++ s') = srvLin B H F P c s ++ srvLin B H F P (c.run B H F P s) s' := by
  induction s generalizing c with
  | nil => rfl
  | cons t s ih => simp only [List.cons_append, srvLin, ih, List.append_assoc]; rfl

/-- A response ends the calls of its request: how many there were is noted. -/
def srvNsStep (B : Kit) (H : Hash) (F : Formats) (P : Paths) (c : SrvConf) (t : Nat) (ns : List Nat) : List Nat :=
  if (c.step B H F P t).sent.length = c.sent.length then ns else ns ++ [(c.db.threads 1).done.length - ns.sum]

/-- How many calls each answered request made. -/
def srvNs (B : Kit) (H : Hash) (F : Formats) (P : Paths) : SrvConf → List Nat → List Nat → List Nat
  | _, ns, [] => ns
  | c, ns, t :: s => srvNs B H F P (c.step B H F P t) (srvNsStep B H F P c t ns) s

theorem srvNs_append (F : Formats) (P : Paths) (c : SrvConf) (ns s s' : List Nat) :
    srvNs B H F P c ns (s ++ s') = srvNs B H F P (c.run B H F P s) (srvNs B H F P c ns s) s' := by
  induction s generalizing c ns with
  | nil => rfl
  | cons t s ih => simp only [List.cons_append, srvNs, ih]; rfl

theorem srvNs_prefix (F : Formats) (P : Paths) (c : SrvConf) (ns s : List Nat) : ns <+: srvNs B H F P c ns s := by
  induction s generalizing c ns with
  | nil => exact List.prefix_refl _
  | cons t s ih =>
    refine List.IsPrefix.trans ?_ (ih _ _)
    unfold srvNsStep
    split
    · exact List.prefix_refl _
    · exact List.prefix_append _ _

/-- The request being handled. -/
def Working (F : Formats) (P : Paths) (reqs : List Request) (c : SrvConf) (cur : List Out) : Prop :=
  match c.now with
  | none => cur = [] ∧ c.queue = reqs.drop c.sent.length ∧ (c.db.threads 1).now = none
  | some p => ∃ r, reqs[c.sent.length]? = some r ∧ c.queue = reqs.drop (c.sent.length + 1) ∧ Follow (requestCalls F P r) cur p ∧
      ∀ ph, (c.db.threads 1).now = some ph → ∃ k, p = .call ph.call k

theorem frun_append (c : FConf) (s s' : List Nat) : c.run B H (s ++ s') = (c.run B H s).run B H s' := List.foldl_append ..

/-- The database is that of a run of `deployed`, whatever calls will be made later. -/
def Simulates (B : Kit) (H : Hash) (A : List SChunk) (lo hi : U64) (ticks : List (U64 × U64)) (n : Nat) (db : FConf) (L : List DbOp) : Prop :=
  ∃ s' : List Nat, s'.length ≤ n ∧ ∀ rest, (FConf.startOn A lo hi (deployed ((db.threads 1).calls ++ rest) ticks)).run B H s' = db.withTodo rest ∧
    lin B H (FConf.startOn A lo hi (deployed ((db.threads 1).calls ++ rest) ticks)) s' = L

theorem Simulates.step {A : List SChunk} {lo hi : U64} {ticks : List (U64 × U64)} {n : Nat} {db : FConf} {L : List DbOp} (h : Simulates B H A lo hi ticks n db L) (t : Nat)
    (ht : t ≠ 1 ∨ (db.threads t).now ≠ none) : Simulates B H A lo hi ticks (n + 1) (db.step B H t) (L ++ linStep db t) := by
  obtain ⟨s', h1, h2⟩ := h
  have hc : ((db.step B H t).threads 1).calls = (db.threads 1).calls := by
    by_cases h1 : t = 1
    · subst h1; exact step_fcalls db 1
    · rw [step_fother t 1 (Ne.symm h1)]
  refine ⟨s' ++ [t], by simp; omega, fun rest => ?_⟩
  rw [hc]
  obtain ⟨h3, h4⟩ := h2 rest
  have hrun : (FConf.startOn A lo hi (deployed ((db.threads 1).calls ++ rest) ticks)).run B H s' = db.withTodo rest := h3
  refine ⟨?_, ?_⟩
  · rw [frun_append, h3]
    exact withTodo_step db t ht
  · rw [lin_append, h4, hrun]
    simp only [lin, withTodo_lin, List.append_nil]

theorem Simulates.begin {A : List SChunk} {lo hi : U64} {ticks : List (U64 × U64)} {n : Nat} {db : FConf} {L : List DbOp} (h : Simulates B H A lo hi ticks n db L) (op : DbOp)
    (hn : (db.threads 1).now = none) (ht : (db.threads 1).todo = []) (hc : db.current < db.chunks.length) :
    Simulates B H A lo hi ticks (n + 1) ((db.withTodo [op]).step B H 1) L := by
  obtain ⟨s', h1, h2⟩ := h
  have hc' : db.chunks[db.current]? ≠ none := by simp [hc]
  obtain ⟨-, -, ph, e1, e2⟩ := withTodo_begin (B := B) (H := H) db op [] hn hc'
  have hcalls : (((db.withTodo [op]).step B H 1).threads 1).calls = (db.threads 1).calls ++ [op] := by
    rw [e1]; simp [FThread.calls, hn, ht, e2]
  refine ⟨s' ++ [1], by simp; omega, fun rest => ?_⟩
  rw [hcalls, List.append_assoc]
  obtain ⟨h3, h4⟩ := h2 ([op] ++ rest)
  have hrun : (FConf.startOn A lo hi (deployed ((db.threads 1).calls ++ ([op] ++ rest)) ticks)).run B H s' = db.withTodo (op :: rest) := h3
  refine ⟨?_, ?_⟩
  · rw [frun_append, h3]
    exact (withTodo_begin db op rest hn hc').1
  · rw [lin_append, h4, hrun]
    simp only [lin, withTodo_lin, List.append_nil]
    unfold linStep
    rw [hn]
    simp

/-- The invariant of the server. -/
structure SrvInv (B : Kit) (H : Hash) (F : Formats) (P : Paths) (A : List SChunk) (lo hi : U64) (ticks : List (U64 × U64)) (reqs : List Request) (n : Nat) (c : SrvConf)
    (L : List DbOp) (ns : List Nat) : Prop where
  sim : Simulates B H A lo hi ticks n c.db L
  todo : (c.db.threads 1).todo = []
  cur : c.db.current < c.db.chunks.length
  work : ∃ (segs : List (List Out)) (cur : List Out), (c.db.threads 1).done = segs.flatten ++ cur ∧ segs.length = c.sent.length ∧ segs.map List.length = ns ∧
    (∀ (i : Nat) (seg : List Out) (x : Option Response), segs[i]? = some seg → c.sent[i]? = some x →
      ∃ r, reqs[i]? = some r ∧ Follow (requestCalls F P r) seg (.done x)) ∧ Working F P reqs c cur

variable {F : Formats} {P : Paths} {A : List SChunk} {lo hi : U64} {ticks : List (U64 × U64)} {reqs : List Request} {n : Nat} {c : SrvConf} {L : List DbOp} {ns : List Nat}

theorem SrvInv.start : SrvInv B H F P A lo hi ticks reqs 0 (SrvConf.startOn A lo hi ticks reqs) [] [] := by
  refine ⟨⟨[], le_refl _, fun rest => ⟨?_, rfl⟩⟩, rfl, by simp [SrvConf.startOn, FConf.startOn], [], [], rfl, rfl, rfl, by simp, rfl, rfl, rfl⟩
  refine FConf.ext' rfl rfl rfl rfl rfl rfl ?_ rfl
  funext u
  simp only [FConf.withTodo, FConf.setThread, SrvConf.startOn]
  match u with
  | 0 => rfl
  | 1 => rfl
  | k + 2 => rfl

theorem SrvInv.step (h : SrvInv B H F P A lo hi ticks reqs n c L ns) (t : Nat) :
    SrvInv B H F P A lo hi ticks reqs (n + 1) (c.step B H F P t) (L ++ srvLinStep c t) (srvNsStep B H F P c t ns) := by
  have same : SrvInv B H F P A lo hi ticks reqs (n + 1) c (L ++ []) ns := by
    rw [List.append_nil]
    obtain ⟨s', h1, h2⟩ := h.sim
    exact ⟨⟨s', by omega, h2⟩, h.todo, h.cur, h.work⟩
  have same' : ∀ ns', ns' = ns → SrvInv B H F P A lo hi ticks reqs (n + 1) c (L ++ []) ns' := by rintro _ rfl; exact same
  obtain ⟨segs, cur, w1, w2, w0, w3, w4⟩ := h.work
  unfold srvNsStep SrvConf.step srvLinStep
  by_cases hdead : none ∈ c.sent
  · rw [if_pos hdead, if_pos hdead]; exact same' _ (if_pos rfl)
  rw [if_neg hdead, if_neg hdead]
  match t with
  | 0 =>
    have e : (c.db.step B H 0).threads 1 = c.db.threads 1 := step_fother 0 1 (by decide)
    refine ⟨h.sim.step 0 (Or.inl (by decide)), by simp only []; rw [e]; exact h.todo, step_cur h.cur 0, segs, cur, by simp only []; rw [e]; exact w1, w2, w0.trans (if_pos rfl).symm, w3, ?_⟩
    unfold Working at w4 ⊢
    simp only [] at w4 ⊢
    rw [e]; exact w4
  | k + 2 => exact same' _ (if_pos rfl)
  | 1 =>
    simp only []
    rw [if_pos (Or.inr trivial)]
    unfold SrvConf.work
    rcases hn : (c.db.threads 1).now with _ | ph
    · have hl : linStep c.db 1 = [] := by unfold linStep; rw [hn]
      rw [hl]
      simp only []
      rcases hcn : c.now with _ | p
      · simp only []
        rcases hq : c.queue with _ | ⟨r, rs⟩
        · exact same' _ (if_pos rfl)
        · unfold Working at w4
          rw [hcn] at w4
          obtain ⟨x1, x2, x3⟩ := w4
          have hd : reqs.drop c.sent.length = r :: rs := by rw [← x2, hq]
          have hr : reqs[c.sent.length]? = some r := by rw [← List.head?_drop, hd]; rfl
          have hrs : rs = reqs.drop (c.sent.length + 1) := by rw [← List.tail_drop, hd]; rfl
          refine ⟨same.sim, h.todo, h.cur, segs, cur, w1, w2, w0.trans (if_pos rfl).symm, w3, r, hr, hrs, ?_, ?_⟩
          · rw [x1]; exact .nil
          · intro ph hp; rw [hn] at hp; cases hp
      · unfold Working at w4
        rw [hcn] at w4
        obtain ⟨r, x1, x2, x3, x4⟩ := w4
        cases p with
        | done x =>
          refine ⟨same.sim, h.todo, h.cur, segs ++ [cur], [], by simp [w1], by simp [w2], ?_, ?_, rfl, by simpa using x2, hn⟩
          · rw [if_neg (by simp), List.map_append, w0, w1]; simp [← w0, List.length_flatten]
          intro i seg y hs hy
          rcases Nat.lt_trichotomy i segs.length with hi | hi | hi
          · rw [List.getElem?_append_left hi] at hs
            rw [List.getElem?_append_left (by omega)] at hy
            exact w3 i seg y hs hy
          · subst hi
            rw [List.getElem?_append_right (le_refl _)] at hs
            rw [w2, List.getElem?_append_right (le_refl _)] at hy
            simp only [Nat.sub_self, List.getElem?_cons_zero, Option.some.injEq] at hs hy
            subst hs hy
            rw [w2]
            exact ⟨r, x1, x3⟩
          · rw [List.getElem?_eq_none (by simp; omega)] at hs; cases hs
        | call op k =>
          have hb := h.sim.begin op hn h.todo h.cur
          obtain ⟨-, b1, ph, b2, b3⟩ := withTodo_begin (B := B) (H := H) c.db op [] hn (by simp [h.cur])
          refine ⟨by rw [List.append_nil]; exact hb, b1, step_cur (c := c.db.withTodo [op]) h.cur 1, segs, cur, by simp only []; rw [b2]; exact w1, w2, w0.trans (if_pos rfl).symm, w3, ?_⟩
          unfold Working
          simp only [hcn]
          refine ⟨r, x1, x2, x3, ?_⟩
          intro ph' hp
          rw [b2] at hp
          simp only [Option.some.injEq] at hp
          subst hp
          exact ⟨k, by rw [b3]⟩
    · simp only []
      have hsim := h.sim.step 1 (Or.inr (by rw [hn]; simp))
      have htodo : ((c.db.step B H 1).threads 1).todo = [] := by rw [step_todo (by rw [hn]; simp)]; exact h.todo
      have hcalls := step_fcalls (B := B) (H := H) c.db 1
      have hcur := step_cur (B := B) (H := H) h.cur 1
      have hnext := step_next (B := B) (H := H) (c := c.db) hn
      generalize c.db.step B H 1 = db' at *
      unfold Working at w4
      rcases hcn : c.now with _ | p
      · rw [hcn] at w4
        rw [hn] at w4; cases w4.2.2
      · rw [hcn] at w4
        obtain ⟨r, x1, x2, x3, x4⟩ := w4
        obtain ⟨k, rfl⟩ := x4 ph hn
        rcases hnext with ⟨ph', y1, y2, y3⟩ | ⟨o, y1, y2, y3⟩
        · have : SrvConf.resume { c with db := db', now := some (.call ph.call k) } = { c with db := db', now := some (.call ph.call k) } := by unfold SrvConf.resume; simp only [y1]
          rw [this]
          refine ⟨hsim, htodo, hcur, segs, cur, by simp only []; rw [y2]; exact w1, w2, w0.trans (if_pos rfl).symm, w3, ?_⟩
          unfold Working
          simp only []
          refine ⟨r, x1, x2, x3, ?_⟩
          intro ph'' hp
          rw [y1, Option.some.injEq] at hp
          subst hp
          exact ⟨k, by rw [y3]⟩
        · have : SrvConf.resume { c with db := db', now := some (.call ph.call k) } = { c with db := db', now := some (k o) } := by
            unfold SrvConf.resume; simp only [y1, y2, List.getLast?_append, List.getLast?_singleton, Option.some_or]
          rw [this]
          refine ⟨hsim, htodo, hcur, segs, cur ++ [o], by simp only []; rw [y2, w1, List.append_assoc], w2, w0.trans (if_pos rfl).symm, w3, ?_⟩
          unfold Working
          simp only []
          refine ⟨r, x1, x2, x3.snoc y3, ?_⟩
          intro ph'' hp
          rw [y1] at hp; cases hp

theorem SrvInv.run (sched : List Nat) : ∀ {n : Nat} {c : SrvConf} {L : List DbOp} {ns : List Nat}, SrvInv B H F P A lo hi ticks reqs n c L ns →
    SrvInv B H F P A lo hi ticks reqs (n + sched.length) (c.run B H F P sched) (L ++ srvLin B H F P c sched) (srvNs B H F P c ns sched) := by
  induction sched with
  | nil => intro n c L ns h; rw [srvLin, List.append_nil]; exact h
  | cons t s ih =>
    intro n c L ns h
    have := ih (h.step t)
    rw [List.append_assoc] at this
    rw [List.length_cons, show n + (s.length + 1) = n + 1 + s.length by omega]
    exact this

end
end Verif
