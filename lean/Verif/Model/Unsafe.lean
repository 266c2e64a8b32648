import Verif.Model.Contract
/-!
# The `unsafe` blocks (`arrays/zip_ops.rs` L149-161, `arrays/contraction_ops.rs` L155-165, L199-209)

The rest of the model takes for granted what these blocks assert. Here undefined behaviour is an outcome, and
`unwrap_unchecked`, the raw read and the ownership of the elements are modelled explicitly. These are all
`unsafe` blocks of the three crates; `get_unchecked` is, despite its name, checked indexing
(`arrays/buffer.rs` L81), and `array_init` is trusted.
-/

namespace Aegir

/-- What happens when a function with `unsafe` blocks is called (`arrays/zip_ops.rs` L149): it returns, panics,
or its behaviour is undefined. -/
inductive Out (α : Type) where
  | ok (a : α)
  | panic
  | ub

namespace Out

/-- Sequencing (`;` in Rust; used throughout `arrays/zip_ops.rs` L148-162): a panic unwinds. -/
protected def bind {α β : Type} : Out α → (α → Out β) → Out β
  | ok a, f => f a
  | panic, _ => panic
  | ub, _ => ub

/-- Sequencing as a monad (`arrays/zip_ops.rs` L148-162). -/
instance : Monad Out where
  pure := ok
  bind := Out.bind

instance : LawfulMonad Out := LawfulMonad.mk' _
  (id_map := fun x => by cases x <;> rfl)
  (pure_bind := fun _ _ => rfl)
  (bind_assoc := fun x _ _ => by cases x <;> rfl)

/-- `Result::unwrap_unchecked` (called in `arrays/zip_ops.rs` L150, L155, L160): undefined for an error. -/
def unwrapUnchecked {ε α : Type} : Except ε α → Out α
  | .ok a => ok a
  | .error _ => ub

/-- A safe function as part of one with `unsafe` blocks (`arrays/contraction_ops.rs` L167, L211). -/
def ofRes {ε α : Type} : Res ε α → Out (Except ε α)
  | .ok a => ok (.ok a)
  | .err e => ok (.error e)
  | .panic => panic

end Out

namespace NArr
variable {F A : Type}

/-- `array_init::array_init` (`arrays/zip_ops.rs` L149, L154, L159) for a function that may panic: the elements
are made in order, and the first panic ends it. -/
def arrayInit {d : Nat} {ds : Dims} (f : Fin d → Out (NArr A ds)) : Out (NArr A (d :: ds)) :=
  show Out (Vector (NArr A ds) d) from Vector.ofFnM f

/-- `zip_map` of two arrays: rank one (`arrays/zip_ops.rs` L225-227) applies the function, higher ranks (L148-152)
call `zip_map` on the rows and `unwrap_unchecked` the results. Rank zero is `scalars.rs` L85-91. -/
def zipMapSelfU : (ds : Dims) → NArr F ds → NArr F ds → (F → F → Out A) → Out (Except IncShapes (NArr A ds))
  | [], x, y, f => Except.ok <$> (show Out A from f x y)
  | [_], a, b, f => Except.ok <$> arrayInit (ds := []) fun i => f (a.row i) (b.row i)
  | _ :: e :: ds, a, b, f => Except.ok <$> arrayInit fun i =>
      zipMapSelfU (e :: ds) (a.row i) (b.row i) f >>= Out.unwrapUnchecked

/-- `zip_map` of an array and a scalar (`arrays/zip_ops.rs` L228-230, L153-157). -/
def zipMapFieldRU : (ds : Dims) → NArr F ds → F → (F → F → Out A) → Out (Except IncShapes (NArr A ds))
  | [], x, y, f => Except.ok <$> (show Out A from f x y)
  | [_], a, y, f => Except.ok <$> arrayInit (ds := []) fun i => f (a.row i) y
  | _ :: e :: ds, a, y, f => Except.ok <$> arrayInit fun i =>
      zipMapFieldRU (e :: ds) (a.row i) y f >>= Out.unwrapUnchecked

/-- `zip_map` of a scalar and an array (`arrays/zip_ops.rs` L231-233, L158-162: the rows come first). -/
def zipMapFieldLU : (ds : Dims) → F → NArr F ds → (F → F → Out A) → Out (Except IncShapes (NArr A ds))
  | [], x, y, f => Except.ok <$> (show Out A from f x y)
  | [_], x, b, f => Except.ok <$> arrayInit (ds := []) fun i => f x (b.row i)
  | _ :: e :: ds, x, b, f => Except.ok <$> arrayInit fun i =>
      zipMapFieldRU (e :: ds) (b.row i) x f >>= Out.unwrapUnchecked

end NArr

/-! ### The raw read -/

namespace Raw
variable {F : Type}

/-- A local variable holding an array (`arrays/contraction_ops.rs` L156, L200): its elements in memory, one after
the other, and whether they are dropped at the end of the block. -/
structure Local (F : Type) where
  cells : List F
  owned : Bool

/-- `let mut y = ..` (`arrays/contraction_ops.rs` L156, L200). -/
def Local.init {n : Nat} (y : NArr F [n]) : Local F := ⟨List.ofFn y.elem, true⟩

/-- `(&mut y as *mut _ as *mut [F; M]).read()` (`arrays/contraction_ops.rs` L159-160, L203-204): a copy of the
first `M` elements, undefined if there are fewer. Arrays have no padding and the alignment of their elements
(Rust reference, "Array layout"). -/
def readAs (m : Nat) (y : Local F) : Out (NArr F [m]) :=
  if h : m ≤ y.cells.length then .ok (NArr.ofElems fun i => y.cells[i]) else .ub

/-- `core::mem::forget(y)` (`arrays/contraction_ops.rs` L162, L206). -/
def Local.forget (y : Local F) : Local F := { y with owned := false }

/-- What is dropped at the end of the block (`arrays/contraction_ops.rs` L165, L209). -/
def Local.dropped (y : Local F) : List F := if y.owned then y.cells else []

/-- The block (`arrays/contraction_ops.rs` L155-165, L199-209), after `mutate`: the result, and what is dropped. -/
def castBlock {n : Nat} (m : Nat) (y : NArr F [n]) : Out (NArr F [m] × List F) :=
  let y := Local.init y
  readAs m y >>= fun res =>
    let y := y.forget
    pure (res, y.dropped)

variable [Zero F] [Add F] [Mul F] [ScalarFns F]

/-- `contract_spec` for a matrix and a vector (`arrays/contraction_ops.rs` L147-169), arms in source order; with
the result comes what the block drops. -/
def contractMv (n m : Nat) (x : BSpec F (.array [n, m])) (y : BSpec F (.array [n])) :
    Out (Except IncShapes (BSpec F (.array [m])) × List F) :=
  let dense := (fun r => (r, [])) <$> Out.ofRes (BSpec.denseContract (.mv n m) x y)
  match x, y with
  | .full _ fx, _ => if ScalarFns.isZero fx then pure (.ok (BSpec.zeroes ()), []) else dense
  | .diagonal _ fx, .full _ fy => pure (.ok (.full () (fx * fy)), [])
  | .diagonal _ fx, y =>
      if m = n then
        (fun r => (.ok (.raw r.1), r.2)) <$> castBlock m (NArr.mutate [n] (BSpec.unwrap y) fun yi => fx * yi)
      else dense
  | .raw _, _ => dense

/-- `contract_spec` for a vector and a matrix (`arrays/contraction_ops.rs` L191-213). -/
def contractVm (n m : Nat) (x : BSpec F (.array [n])) (y : BSpec F (.array [n, m])) :
    Out (Except IncShapes (BSpec F (.array [m])) × List F) :=
  let dense := (fun r => (r, [])) <$> Out.ofRes (BSpec.denseContract (.vm n m) x y)
  match x, y with
  | _, .full _ fy => if ScalarFns.isZero fy then pure (.ok (BSpec.zeroes ()), []) else dense
  | .full _ fx, .diagonal _ fy => pure (.ok (.full () (fx * fy)), [])
  | x, .diagonal _ fy =>
      if m = n then
        (fun r => (.ok (.raw r.1), r.2)) <$> castBlock m (NArr.mutate [n] (BSpec.unwrap x) fun xi => xi * fy)
      else dense
  | _, .raw _ => dense

end Raw

end Aegir
