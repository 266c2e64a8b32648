/-!
# Outcomes

`Result<T, E>` of the Rust code plus an explicit outcome for a panic.
-/

namespace Aegir

/-- `Result<α, ε>`, with panics made explicit.
(Rust: every fallible function of `aegir/src`; `panic` stands for `unwrap` on `Err`/`None`, an
out-of-bounds index, or `unimplemented!`.) -/
inductive Res (ε α : Type) where
  | ok (a : α)
  | err (e : ε)
  | panic
deriving DecidableEq, Repr

namespace Res
variable {ε ε' α β : Type}

/-- `Result::map`. -/
def map (f : α → β) : Res ε α → Res ε β
  | ok a => ok (f a)
  | err e => err e
  | panic => panic

/-- `Result::map_err`. -/
def mapErr (f : ε → ε') : Res ε α → Res ε' α
  | ok a => ok a
  | err e => err (f e)
  | panic => panic

/-- `Result::and_then` / the `?` operator. -/
def bind (x : Res ε α) (f : α → Res ε β) : Res ε β :=
  match x with
  | ok a => f a
  | err e => err e
  | panic => panic

/-- `Result::unwrap`: an error becomes a panic. -/
def unwrap (x : Res ε α) : Res ε' α :=
  match x with
  | ok a => ok a
  | err _ => panic
  | panic => panic

/-- A value that panics when absent (`Option::unwrap`, checked indexing). -/
def ofOption (x : Option α) : Res ε α :=
  match x with
  | some a => ok a
  | none => panic

/-- A `Result` without panics. -/
def ofExcept (x : Except ε α) : Res ε α :=
  match x with
  | .ok a => ok a
  | .error e => err e

@[simp] theorem ofExcept_ok (a : α) : (ofExcept (.ok a) : Res ε α) = ok a := rfl
@[simp] theorem ofExcept_error (e : ε) : (ofExcept (.error e) : Res ε α) = err e := rfl
@[simp] theorem map_ok (f : α → β) (a : α) : (ok a : Res ε α).map f = ok (f a) := rfl
@[simp] theorem map_err (f : α → β) (e : ε) : (err e : Res ε α).map f = err e := rfl
@[simp] theorem map_panic (f : α → β) : (panic : Res ε α).map f = panic := rfl
@[simp] theorem mapErr_ok (f : ε → ε') (a : α) : (ok a : Res ε α).mapErr f = ok a := rfl
@[simp] theorem mapErr_err (f : ε → ε') (e : ε) : (err e : Res ε α).mapErr f = err (f e) := rfl
@[simp] theorem mapErr_panic (f : ε → ε') : (panic : Res ε α).mapErr f = panic := rfl
@[simp] theorem bind_ok (f : α → Res ε β) (a : α) : (ok a : Res ε α).bind f = f a := rfl
@[simp] theorem bind_err (f : α → Res ε β) (e : ε) : (err e : Res ε α).bind f = err e := rfl
@[simp] theorem bind_panic (f : α → Res ε β) : (panic : Res ε α).bind f = panic := rfl
@[simp] theorem unwrap_ok (a : α) : (ok a : Res ε α).unwrap = (ok a : Res ε' α) := rfl
@[simp] theorem unwrap_err (e : ε) : (err e : Res ε α).unwrap = (panic : Res ε' α) := rfl
@[simp] theorem unwrap_panic : (panic : Res ε α).unwrap = (panic : Res ε' α) := rfl
@[simp] theorem ofOption_some (a : α) : (ofOption (some a) : Res ε α) = ok a := rfl
@[simp] theorem ofOption_none : (ofOption (none : Option α) : Res ε α) = panic := rfl

end Res

end Aegir
