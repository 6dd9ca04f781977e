/-
Results and state of the modelled Go programs.

Go functions of this repository report failure through an `error` result, or they panic.  Both are
values of `Res`.  A stateful Go method is a function `σ → Res α × σ`: the state is returned also when
the method fails, because the code does not roll back.
-/
namespace Appendable

/-- The errors the modelled code can return.  The text of the Go error is not modelled, only its kind. -/
inductive Err where
  /-- `io.EOF` -/
  | eof
  /-- an I/O error reported by the file, e.g. a failed write (crash point) -/
  | io
  /-- any other `errors.New` / `fmt.Errorf` of the modelled code, tagged for readability -/
  | msg (what : String)
  deriving DecidableEq, Repr

/-- Outcome of a Go call: normal result, returned error, or panic. -/
inductive Res (α : Type) where
  | ok (a : α)
  | err (e : Err)
  | panic
  deriving DecidableEq, Repr

namespace Res

/-- `if err != nil { return err }` chaining for stateless code. -/
def bind {α β : Type} (x : Res α) (f : α → Res β) : Res β :=
  match x with
  | ok a => f a
  | err e => err e
  | panic => panic

instance : Monad Res where
  pure := ok
  bind := bind

@[simp] theorem pure_eq {α : Type} (a : α) : (pure a : Res α) = ok a := rfl
@[simp] theorem bind_ok {α β : Type} (a : α) (f : α → Res β) : (ok a >>= f) = f a := rfl
@[simp] theorem bind_err {α β : Type} (e : Err) (f : α → Res β) : ((err e : Res α) >>= f) = err e := rfl
@[simp] theorem bind_panic {α β : Type} (f : α → Res β) : ((panic : Res α) >>= f) = panic := rfl

/-- The call returned normally. -/
def isOk {α : Type} : Res α → Bool
  | ok _ => true
  | _ => false

end Res

/-- A Go method on a mutable receiver of type `σ`. -/
def Act (σ α : Type) : Type := σ → Res α × σ

namespace Act

variable {σ α β : Type}

/-- Sequencing: the second action starts in the state left by the first one; an error or a panic stops. -/
def bind (m : Act σ α) (f : α → Act σ β) : Act σ β := fun s =>
  match m s with
  | (.ok a, s') => f a s'
  | (.err e, s') => (.err e, s')
  | (.panic, s') => (.panic, s')

instance : Monad (Act σ) where
  pure a := fun s => (.ok a, s)
  bind := bind

/-- `return err` -/
def throw (e : Err) : Act σ α := fun s => (.err e, s)
/-- `panic(...)` -/
def crash : Act σ α := fun s => (.panic, s)
/-- read the state -/
def get : Act σ σ := fun s => (.ok s, s)
/-- replace the state -/
def set (s : σ) : Act σ Unit := fun _ => (.ok (), s)
/-- a stateless result inside a stateful method -/
def lift (r : Res α) : Act σ α := fun s => (r, s)

theorem bind_def (m : Act σ α) (f : α → Act σ β) (s : σ) :
    (m >>= f) s = match m s with
      | (.ok a, s') => f a s'
      | (.err e, s') => (.err e, s')
      | (.panic, s') => (.panic, s') := rfl

theorem bind_ok {m : Act σ α} {f : α → Act σ β} {s s' : σ} {a : α} (h : m s = (.ok a, s')) :
    (m >>= f) s = f a s' := by rw [bind_def, h]

theorem bind_err {m : Act σ α} {f : α → Act σ β} {s s' : σ} {e : Err} (h : m s = (.err e, s')) :
    (m >>= f) s = (.err e, s') := by rw [bind_def, h]

theorem bind_panic {m : Act σ α} {f : α → Act σ β} {s s' : σ} (h : m s = (.panic, s')) :
    (m >>= f) s = (.panic, s') := by rw [bind_def, h]

@[simp] theorem pure_run (a : α) (s : σ) : (pure a : Act σ α) s = (.ok a, s) := rfl
@[simp] theorem throw_run (e : Err) (s : σ) : (throw e : Act σ α) s = (.err e, s) := rfl
@[simp] theorem crash_run (s : σ) : (crash : Act σ α) s = (.panic, s) := rfl
@[simp] theorem get_run (s : σ) : (get : Act σ σ) s = (.ok s, s) := rfl
@[simp] theorem set_run (s t : σ) : (set t : Act σ Unit) s = (.ok (), t) := rfl
@[simp] theorem lift_run (r : Res α) (s : σ) : (lift r : Act σ α) s = (r, s) := rfl

end Act
end Appendable
