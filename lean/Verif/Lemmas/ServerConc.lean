import Verif.Spec.ServerConc
import Verif.Props.Deployed
import Verif.Lemmas.ServerLife
/-! The server's calls are those of a client of `deployed`. -/
namespace Verif
open List

section
variable {B : Kit} {H : Hash} {c : FConf} {todo : List DbOp}

theorem FConf.ext' {a b : FConf} (h1 : a.chunks = b.chunks) (h2 : a.closed = b.closed) (h3 : a.current = b.current) (h4 : a.secondary = b.secondary)
    (h5 : a.curR = b.curR) (h6 : a.secR = b.secR) (h7 : a.threads = b.threads) (h8 : a.log = b.log) : a = b := by
  cases a; cases b; simp_all

theorem withTodo_goto (c : FConf) (t : Nat) (ph : FPhase) : (c.withTodo todo).goto t ph = (c.goto t ph).withTodo todo := by
  refine FConf.ext' rfl rfl rfl rfl rfl rfl ?_ rfl
  funext u
  simp only [FConf.goto, FConf.withTodo, FConf.setThread]
  by_cases h1 : u = t <;> by_cases h2 : u = 1 <;> by_cases h3 : t = 1 <;> simp_all

theorem withTodo_finish (c : FConf) (t : Nat) (o : Out) : (c.withTodo todo).finish t o = (c.finish t o).withTodo todo := by
  refine FConf.ext' rfl rfl rfl rfl rfl rfl ?_ rfl
  funext u
  simp only [FConf.finish, FConf.withTodo, FConf.setThread]
  by_cases h1 : u = t <;> by_cases h2 : u = 1 <;> by_cases h3 : t = 1 <;> simp_all

theorem withTodo_now (c : FConf) (t : Nat) : ((c.withTodo todo).threads t).now = (c.threads t).now := by
  simp only [FConf.withTodo, FConf.setThread]
  by_cases h : t = 1 <;> simp_all

theorem withTodo_done (c : FConf) (t : Nat) : ((c.withTodo todo).threads t).done = (c.threads t).done := by
  simp only [FConf.withTodo, FConf.setThread]
  by_cases h : t = 1 <;> simp_all

theorem withTodo_other (c : FConf) {t : Nat} (h : t ≠ 1) : (c.withTodo todo).threads t = c.threads t := by
  simp [FConf.withTodo, FConf.setThread, h]

theorem withTodo_chunks (c : FConf) : (c.withTodo todo).chunks = c.chunks := rfl
theorem withTodo_current (c : FConf) : (c.withTodo todo).current = c.current := rfl

theorem withTodo_self {c : FConf} (h : (c.threads 1).todo = todo) : c.withTodo todo = c := by
  refine FConf.ext' rfl rfl rfl rfl rfl rfl ?_ rfl
  funext u
  simp only [FConf.withTodo, FConf.setThread]
  by_cases h2 : u = 1
  · subst h2; simp [← h]
  · simp [h2]

theorem withTodo_twice (c : FConf) (a b : List DbOp) : (c.withTodo a).withTodo b = c.withTodo b := by
  refine FConf.ext' rfl rfl rfl rfl rfl rfl ?_ rfl
  funext u
  simp only [FConf.withTodo, FConf.setThread]
  by_cases h2 : u = 1 <;> simp [h2]

/-- A step does not look at the calls to come, except at the start of a call. -/
theorem withTodo_step (c : FConf) (t : Nat) (h : t ≠ 1 ∨ (c.threads t).now ≠ none) : (c.withTodo todo).step B H t = (c.step B H t).withTodo todo := by
  unfold FConf.step
  rw [withTodo_now]
  rcases hn : (c.threads t).now with _ | ph
  · have ht : t ≠ 1 := by rcases h with h | h; exact h; exact absurd hn h
    simp only []
    unfold FConf.begin
    rw [withTodo_other c ht, withTodo_chunks, withTodo_current]
    rcases (c.threads t).todo with _ | ⟨op, rest⟩
    · rfl
    · rcases c.chunks[c.current]? with _ | S
      · rfl
      · have : ∀ ph, (({ (c.withTodo todo).setThread t { c.threads t with todo := rest } with curR := t :: c.curR } : FConf).goto t ph) =
          (({ c.setThread t { c.threads t with todo := rest } with curR := t :: c.curR } : FConf).goto t ph).withTodo todo := by
          intro ph
          refine FConf.ext' rfl rfl rfl rfl rfl rfl ?_ rfl
          funext u
          simp only [FConf.goto, FConf.withTodo, FConf.setThread]
          by_cases h1 : u = t <;> by_cases h2 : u = 1 <;> simp_all
        rcases op <;> exact this _
  · cases ph with
    | writing ls ps rest fails =>
      simp only []
      unfold FConf.stepWriting
      rw [withTodo_chunks, withTodo_current]
      rcases c.chunks[c.current]? with _ | S
      · rfl
      · rcases rest with _ | ⟨p, rest⟩
        · exact withTodo_finish (c.dropCur t) t _
        · rcases hl : S.lock with _ | x
          · simp only [hl]; exact withTodo_goto ({ c.setChunk c.current _ with log := _ } : FConf) t _
          · simp only [hl]
    | inserting ls ps p rest fails =>
      simp only []
      unfold FConf.stepInserting
      rw [withTodo_chunks, withTodo_current]
      rcases c.chunks[c.current]? with _ | S
      · rfl
      · rcases hl : S.lock with _ | ⟨h', w, pr⟩
        · simp only [hl]
        · simp only [hl]
          split
          · rcases pr with r | ⟨u, k⟩
            · rcases r with ⟨⟩ | e | _
              · exact withTodo_goto (c.setChunk c.current _) t _
              · exact withTodo_goto (c.setChunk c.current _) t _
              · exact withTodo_finish ((c.setChunk c.current _).dropCur t) t _
            · rfl
          · rfl
    | q1 q a b =>
      simp only []
      unfold FConf.stepQ1
      rw [withTodo_chunks, withTodo_current]
      rcases c.chunks[c.current]? with _ | S
      · rfl
      · rcases hb : FChunk.beginQuery B S q a b with _ | p
        · simp only [hb]
        · simp only [hb]; exact withTodo_goto c t _
    | reading1 q a b p =>
      simp only []
      rcases p with r | ⟨u, k⟩
      · simp only [FConf.stepReading1]
        rcases queryCurrent H (viewOf r) q a b with _ | m
        · exact withTodo_finish (c.dropCur t) t _
        · exact withTodo_goto (c.dropCur t) t _
      · simp only [FConf.stepReading1]
        rw [withTodo_chunks, withTodo_current]
        rcases c.chunks[c.current]? with _ | S
        · rfl
        · exact withTodo_goto (c.setChunk c.current _) t _
    | q2 q a b m => exact withTodo_goto ({ c with secR := t :: c.secR } : FConf) t _
    | q3 q a b ids m =>
      simp only []
      unfold FConf.stepQ3
      rcases ids with _ | ⟨i, ids⟩
      · exact withTodo_finish (c.dropSec t) t _
      · simp only []
        rw [withTodo_chunks]
        rcases c.chunks[i]? with _ | S
        · rfl
        · simp only []
          split
          · rcases hb : FChunk.beginQuery B S q a b with _ | p
            · simp only [hb]
            · simp only [hb]; exact withTodo_goto c t _
          · exact withTodo_goto c t _
    | reading3 q a b i ids m p =>
      simp only []
      rcases p with r | ⟨u, k⟩
      · simp only [FConf.stepReading3]
        rcases querySecondary H q a b [viewOf r] m with _ | m'
        · exact withTodo_finish (c.dropSec t) t _
        · exact withTodo_goto c t _
      · simp only [FConf.stepReading3]
        rw [withTodo_chunks]
        rcases c.chunks[i]? with _ | S
        · rfl
        · exact withTodo_goto (c.setChunk i _) t _
    | s1 lo hi =>
      simp only []
      show (if c.secR ≠ [] then c.withTodo todo else _) = _
      split
      · rfl
      · exact withTodo_goto (({ c with secondary := c.secondary ++ [c.current] } : FConf).dropCur t) t _
    | s2 lo hi =>
      simp only []
      unfold FConf.stepS2
      show (if c.curR ≠ [] then c.withTodo todo else _) = _
      split
      · rfl
      · rw [withTodo_chunks, withTodo_current]
        rcases c.chunks[c.current]? with _ | S
        · rfl
        · rcases hl : S.lock with _ | x
          · simp only [hl]
            exact withTodo_finish ({ c with chunks := _, closed := _, current := _ } : FConf) t _
          · simp only [hl]

/-- A call begins. -/
theorem withTodo_begin (c : FConf) (op : DbOp) (rest : List DbOp) (hn : (c.threads 1).now = none) (hc : c.chunks[c.current]? ≠ none) :
    (c.withTodo (op :: rest)).step B H 1 = ((c.withTodo [op]).step B H 1).withTodo rest ∧ (((c.withTodo [op]).step B H 1).threads 1).todo = [] ∧
      ∃ ph, (((c.withTodo [op]).step B H 1).threads 1) = ⟨[], some ph, (c.threads 1).done⟩ ∧ ph.call = op := by
  obtain ⟨S, hS⟩ := Option.ne_none_iff_exists'.mp hc
  have key : ∀ rest, ∃ ph, (c.withTodo (op :: rest)).step B H 1 = ({ c.setThread 1 ⟨rest, some ph, (c.threads 1).done⟩ with curR := 1 :: c.curR } : FConf) ∧
      ph.call = op ∧ ∀ rest', (c.withTodo (op :: rest')).step B H 1 = ({ c.setThread 1 ⟨rest', some ph, (c.threads 1).done⟩ with curR := 1 :: c.curR } : FConf) := by
    intro rest
    have aux : ∀ rest, (c.withTodo (op :: rest)).step B H 1 =
        ({ c.setThread 1 ⟨rest, some (match op with
          | .write ls ps => .writing ls ps (ps.filter (keepPoint S.store.start_ S.store.end_)) 0
          | .query q a b => .q1 q a b
          | .swap lo hi => .s1 lo hi), (c.threads 1).done⟩ with curR := 1 :: c.curR } : FConf) := by
      intro rest
      unfold FConf.step
      rw [withTodo_now, hn]
      simp only []
      unfold FConf.begin
      rw [withTodo_chunks, withTodo_current, hS]
      have : ((c.withTodo (op :: rest)).threads 1).todo = op :: rest := by simp [FConf.withTodo, FConf.setThread]
      rw [this]
      rcases op <;>
      · refine FConf.ext' rfl rfl rfl rfl rfl rfl ?_ rfl
        funext u
        simp only [FConf.goto, FConf.withTodo, FConf.setThread]
        by_cases h2 : u = 1 <;> simp [h2]
    refine ⟨_, aux rest, ?_, aux⟩
    rcases op <;> rfl
  obtain ⟨ph, h1, h2, h3⟩ := key rest
  rw [h3 rest, h3 []]
  refine ⟨?_, by simp [FConf.setThread], ph, by simp [FConf.setThread], h2⟩
  refine FConf.ext' rfl rfl rfl rfl rfl rfl ?_ rfl
  funext u
  simp only [FConf.withTodo, FConf.setThread]
  by_cases h2 : u = 1 <;> simp [h2]

theorem withTodo_lin (c : FConf) (t : Nat) : linStep (c.withTodo todo) t = linStep c t := by
  unfold linStep
  rw [withTodo_now]
  rfl

end

end Verif
