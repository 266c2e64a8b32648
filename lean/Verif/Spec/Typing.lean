import Verif.Model.Node
/-!
# The types of expressions

Which expressions have a value in contexts with the buffer types `Γ`, and of which type. Stated with
extents and ranks, without the tables of trait impls.
-/

namespace Aegir.Spec

/-- Equal types, or a scalar with anything but a tuple. -/
def zipTy (a b : BTy) : Option BTy :=
  if a = b then some a
  else if a = .scalar ∧ b ≠ .tuple then some b
  else if b = .scalar ∧ a ≠ .tuple then some a
  else none

/-- Products of scalars and arrays of rank at most 2 that are written row by row; at most one axis is
contracted. -/
def contractTy : Nat → BTy → BTy → Option BTy
  | k, .scalar, .scalar => if k ≤ 1 then some .scalar else none
  | k, .array ds, .scalar => if k = 0 ∧ 1 ≤ ds.length ∧ ds.length ≤ 2 then some (.array ds) else none
  | k, .scalar, .array es => if k = 0 ∧ 1 ≤ es.length ∧ es.length ≤ 2 then some (.array es) else none
  | 0, .array [n], .array [m] => some (.array [n, m])
  | 1, .array [n], .array [m] => if n = m then some .scalar else none
  | 1, .array [n, m], .array [k] => if n = k then some (.array [m]) else none
  | 1, .array [n, z], .array [k, m] => if z = k then some (.array [n, m]) else none
  | 1, .array [n], .array [k, m] => if n = k then some (.array [m]) else none
  | _, _, _ => none

/-- The type of the derivative of an `a` by a `b`: the axes of both, at most 5. -/
def derivTy : BTy → BTy → Option BTy
  | .vec, _ => none
  | _, .vec => none
  | .scalar, b => some b
  | a, .scalar => some a
  | .tuple, .tuple => none
  | .tuple, .array es => if es.length ≤ 4 then some (.array (2 :: es)) else none
  | .array ds, .tuple => if ds.length ≤ 4 then some (.array (ds ++ [2])) else none
  | .array ds, .array es => if ds.length + es.length ≤ 5 then some (.array (ds ++ es)) else none

/-- A variable with at most three axes. -/
def smallTy : BTy → Bool
  | .array ds => ds.length ≤ 3
  | _ => true

/-- The type of an expression. -/
def typeOf {F : Type} (Γ : Id → BTy) : Node F → Option BTy
  | .var i => some (Γ i)
  | .varAdj i t => if smallTy (Γ i) then derivTy (Γ i) (Γ t) else none
  | .const τ _ => some τ
  | .constSpec τ _ => some τ
  | .constAdj n t => (typeOf Γ n).bind fun a => derivTy a (Γ t)
  | .cached n i => if typeOf Γ n = some (Γ i) then some (Γ i) else none
  | .add l r | .sub l r | .mul l r | .div l r =>
      (typeOf Γ l).bind fun a => (typeOf Γ r).bind fun b => zipTy a b
  | .power l r =>
      if typeOf Γ l = some .scalar ∧ typeOf Γ r = some .scalar then some .scalar else none
  | .contract k l r => (typeOf Γ l).bind fun a => (typeOf Γ r).bind fun b => contractTy k a b
  | .sum n => (typeOf Γ n).map fun _ => .scalar
  | .un _ n => typeOf Γ n

end Aegir.Spec
