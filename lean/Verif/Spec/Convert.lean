import Verif.Spec.Rounding
/-!
# Change of scalars

What a conversion of scalars must preserve for evaluation to commute with it. (`conv`, `convSpec` and
`convCtx` of `Spec/Rounding` convert expressions, compressed buffers and contexts.)
-/

namespace Aegir.Spec

variable {F G : Type} [Zero F] [One F] [Add F] [Sub F] [Mul F] [Div F] [Neg F] [ScalarFns F]
  [Zero G] [One G] [Add G] [Sub G] [Mul G] [Div G] [Neg G] [ScalarFns G]

/-- The conversion preserves the operations that every expression may need. -/
structure ScalarMap (f : F → G) : Prop where
  zero : f 0 = 0
  one : f 1 = 1
  add : ∀ x y, f (x + y) = f x + f y
  sub : ∀ x y, f (x - y) = f x - f y
  mul : ∀ x y, f (x * y) = f x * f y
  isZero : ∀ x, ScalarFns.isZero (f x) = ScalarFns.isZero x
  fromUsize : ∀ n, (ScalarFns.fromUsize n : Option G) = (ScalarFns.fromUsize n).map f

/-- The conversion preserves the further operations that occur in the expression. -/
def Respects (f : F → G) : Node F → Prop
  | .constAdj n _ => Respects f n
  | .cached n _ => Respects f n
  | .add l r => Respects f l ∧ Respects f r
  | .sub l r => Respects f l ∧ Respects f r
  | .mul l r => Respects f l ∧ Respects f r
  | .div l r => (∀ x y, f (x / y) = f x / f y) ∧ Respects f l ∧ Respects f r
  | .power l r => (∀ x y, f (ScalarFns.pow x y) = ScalarFns.pow (f x) (f y)) ∧
      (∀ x y, ScalarFns.eqb (f x) (f y) = ScalarFns.eqb x y) ∧ Respects f l ∧ Respects f r
  | .contract _ l r => Respects f l ∧ Respects f r
  | .sum n => Respects f n
  | .un op n => (∀ x, f (op.apply x) = op.apply (f x)) ∧ Respects f n
  | _ => True

end Aegir.Spec
