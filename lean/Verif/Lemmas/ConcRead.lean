import Verif.Lemmas.Conc
namespace Verif
open List

/-! ### A reader next to a writer -/

/-- Every execution of the reader in which all its reads happen in states satisfying `I` ends with a result satisfying `Q`,
and the reader changes nothing. -/
inductive AllOut {σ β : Type} (I : σ → Prop) (Q : β → Prop) : Proc σ β → Prop
  | ret {b : β} : Q b → AllOut I Q (.ret b)
  | act {u : σ → σ} {k : σ → Proc σ β} : (∀ s, u s = s) → (∀ s, I s → AllOut I Q (k s)) → AllOut I Q (.act u k)

theorem AllOut.get {σ α β : Type} {I : σ → Prop} {Q : β → Prop} {f : σ → α} {k : α → Proc σ β} (h : ∀ s, I s → AllOut I Q (k (f s))) :
    AllOut I Q (Proc.get f k) := .act (fun _ => rfl) h

theorem AllOut.run {σ β : Type} {I : σ → Prop} {Q : β → Prop} {q : Proc σ β} (h : AllOut I Q q) {s : σ} (hs : I s) :
    Q (q.run s).1 ∧ (q.run s).2 = s := by
  induction h with
  | ret hb => exact ⟨hb, rfl⟩
  | act hu _ ih => simp only [Proc.run]; rw [hu]; exact ih s hs

theorem AllOut.interleave {σ α β : Type} {I : σ → Prop} {Q : β → Prop} {q : Proc σ β} (h : AllOut I Q q) {w : Proc σ α} {s : σ}
    (hI : ∀ n, I (w.upTo n s)) (sched : List Bool) : AllOut I Q (interleave sched q w s).1 := by
  induction sched generalizing q w s with
  | nil => exact h
  | cons b sched ih =>
    cases b with
    | true =>
      cases w with
      | ret a => exact ih h hI
      | act u k => exact ih h (fun n => hI (n + 1))
    | false =>
      cases h with
      | ret hb => exact ih (.ret hb) hI
      | @act u k hu hk =>
        simp only [Verif.interleave]
        rw [hu]
        exact ih (hk s (by have := hI 0; simpa [Proc.upTo] using this)) hI

/-- A result of the reader under any schedule. -/
theorem AllOut.result {σ α β : Type} {I : σ → Prop} {Q : β → Prop} {q : Proc σ β} (h : AllOut I Q q) {w : Proc σ α} {s : σ}
    (hI : ∀ n, I (w.upTo n s)) {sched : List Bool} {b : β} (hb : (Verif.interleave sched q w s).1 = .ret b) : Q b := by
  have := h.interleave hI sched
  rw [hb] at this
  cases this with
  | ret h => exact h

/-- A reader: changes nothing. -/
inductive ReadOnly {σ β : Type} : Proc σ β → Prop
  | ret (b : β) : ReadOnly (.ret b)
  | act {u : σ → σ} {k : σ → Proc σ β} : (∀ s, u s = s) → (∀ s, ReadOnly (k s)) → ReadOnly (.act u k)

/-- The writer leaves the store as it is. -/
inductive Still {σ α : Type} (s : σ) : Proc σ α → Prop
  | ret (a : α) : Still s (.ret a)
  | act {u : σ → σ} {k : σ → Proc σ α} : u s = s → Still s (k s) → Still s (.act u k)

/-- The writer changes the store at most once, from `s` to `s'`. -/
inductive OneWrite {σ α : Type} (s s' : σ) : Proc σ α → Prop
  | ret (a : α) : OneWrite s s' (.ret a)
  | stay {u : σ → σ} {k : σ → Proc σ α} : u s = s → OneWrite s s' (k s) → OneWrite s s' (.act u k)
  | go {u : σ → σ} {k : σ → Proc σ α} : u s = s' → Still s' (k s) → OneWrite s s' (.act u k)

/-- The reader reads `n` times from `s`, then from `s'`. -/
def Proc.switch {σ β : Type} : Nat → Proc σ β → σ → σ → β
  | 0, q, _, s' => (q.run s').1
  | _ + 1, .ret b, _, _ => b
  | n + 1, .act _ k, s, s' => Proc.switch n (k s) s s'

theorem still_result {σ α β : Type} {q : Proc σ β} (hq : ReadOnly q) {w : Proc σ α} {s : σ} (hw : Still s w) (sched : List Bool) {b : β}
    (hb : (interleave sched q w s).1 = .ret b) : b = (q.run s).1 := by
  induction sched generalizing q w with
  | nil => simp only [interleave] at hb; rw [hb]; rfl
  | cons x sched ih =>
    cases x with
    | true =>
      cases hw with
      | ret a => exact ih hq (.ret a) hb
      | act hu hk => simp only [interleave] at hb; rw [hu] at hb; exact ih hq hk hb
    | false =>
      cases hq with
      | ret c => exact ih (.ret c) hw hb
      | act hu hk =>
        simp only [interleave] at hb; rw [hu] at hb
        simp only [Proc.run]; rw [hu]
        exact ih (hk s) hw hb

theorem oneWrite_result {σ α β : Type} {q : Proc σ β} (hq : ReadOnly q) {w : Proc σ α} {s s' : σ} (hw : OneWrite s s' w) (sched : List Bool)
    {b : β} (hb : (interleave sched q w s).1 = .ret b) : ∃ n, b = q.switch n s s' := by
  induction sched generalizing q w with
  | nil => simp only [interleave] at hb; exact ⟨1, by rw [hb]; rfl⟩
  | cons x sched ih =>
    cases x with
    | true =>
      cases hw with
      | ret a => exact ih hq (.ret a) hb
      | stay hu hk => simp only [interleave] at hb; rw [hu] at hb; exact ih hq hk hb
      | go hu hk =>
        simp only [interleave] at hb; rw [hu] at hb
        exact ⟨0, still_result hq hk sched hb⟩
    | false =>
      cases hq with
      | ret c => exact ih (.ret c) hw hb
      | act hu hk =>
        simp only [interleave] at hb; rw [hu] at hb
        obtain ⟨n, hn⟩ := ih (hk s) hw hb
        exact ⟨n + 1, hn⟩

/-- Whenever the store switches from `s` to `s'` while the reader runs, it returns what it returns on `s` or on `s'`. -/
def Atomic {σ β : Type} (s s' : σ) (q : Proc σ β) : Prop := ∀ n, q.switch n s s' = (q.run s).1 ∨ q.switch n s s' = (q.run s').1

theorem Atomic.ret {σ β : Type} (s s' : σ) (b : β) : Atomic s s' (.ret b : Proc σ β) := by
  intro n; cases n <;> exact Or.inl rfl

theorem Atomic.same {σ α β : Type} {s s' : σ} {f : σ → α} {k : α → Proc σ β} (hf : f s = f s') (hk : Atomic s s' (k (f s))) :
    Atomic s s' (Proc.get f k) := by
  intro n
  cases n with
  | zero => exact Or.inr rfl
  | succ n =>
    have e : (Proc.get f k).switch (n + 1) s s' = (k (f s)).switch n s s' := rfl
    have e1 : (Proc.get f k).run s = (k (f s)).run s := rfl
    have e2 : (Proc.get f k).run s' = (k (f s)).run s' := by rw [hf]; rfl
    rw [e, e1, e2]; exact hk n

/-- One read may differ if everything after it does not. -/
theorem Atomic.last {σ α β : Type} {s s' : σ} {f : σ → α} {k : α → Proc σ β} (hk : ∀ n, (k (f s)).switch n s s' = ((k (f s)).run s).1) :
    Atomic s s' (Proc.get f k) := by
  intro n
  cases n with
  | zero => exact Or.inr rfl
  | succ n => exact Or.inl (hk n)

theorem OneWrite.upTo {σ α : Type} {s s' : σ} {w : Proc σ α} (h : OneWrite s s' w) (n : Nat) : w.upTo n s = s ∨ w.upTo n s = s' := by
  induction h generalizing n with
  | ret a => cases n <;> exact Or.inl rfl
  | stay hu _ ih =>
    cases n with
    | zero => exact Or.inl rfl
    | succ n => simp only [Proc.upTo]; rw [hu]; exact ih n
  | @go u k hu hk =>
    cases n with
    | zero => exact Or.inl rfl
    | succ n =>
      right
      simp only [Proc.upTo]; rw [hu]
      revert n
      generalize k s = r at hk
      induction hk with
      | ret a => intro n; cases n <;> rfl
      | act hu _ ih =>
        intro n
        cases n with
        | zero => rfl
        | succ n => simp only [Proc.upTo]; rw [hu]; exact ih n

end Verif
