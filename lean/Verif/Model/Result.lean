import Verif.Model.Basic
/-! Rust results: value, error or panic. -/
namespace Verif

/-- `MonolithErr` (src/error.rs:10-38), without the message texts and wrapped foreign errors. -/
inductive MErr where
  | ioErr | optionErr | parseErr | notFound
  | outOfRange (a b : U64)
  | internal
  | tikvErr
  | serdeErr
deriving DecidableEq, Repr

/-- Outcome of a call returning `Result<T>`; `panic` is an unwinding panic. -/
inductive Res (α : Type) where
  | ok (a : α)
  | err (e : MErr)
  | panic
deriving DecidableEq, Repr

/-- The `?` operator. -/
def Res.bind {α β : Type} : Res α → (α → Res β) → Res β
  | .ok a, f => f a
  | .err e, _ => .err e
  | .panic, _ => .panic

@[simp] theorem Res.bind_ok {α β : Type} (a : α) (f : α → Res β) : (Res.ok a).bind f = f a := rfl
@[simp] theorem Res.bind_err {α β : Type} (e : MErr) (f : α → Res β) : (Res.err e : Res α).bind f = .err e := rfl
@[simp] theorem Res.bind_panic {α β : Type} (f : α → Res β) : (Res.panic : Res α).bind f = .panic := rfl

/-- `Ok`. -/
def Res.isOk {α : Type} : Res α → Bool
  | .ok _ => true
  | _ => false

/-- A loop over a list whose body may fail with `?`. -/
def Res.mapM {α β : Type} (f : α → Res β) : List α → Res (List β)
  | [] => .ok []
  | a :: as => (f a).bind fun b => (Res.mapM f as).bind fun bs => .ok (b :: bs)

/-- A result from an `Option` in which `none` is a panic. -/
def Res.ofPanic {α : Type} : Option α → Res α
  | some a => .ok a
  | none => .panic

/-- A result from an `Option` in which `none` is an error. -/
def Res.ofErr {α : Type} (e : MErr) : Option α → Res α
  | some a => .ok a
  | none => .err e

end Verif
