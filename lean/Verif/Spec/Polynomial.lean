import Verif.Spec.Node
import Verif.Spec.Scalar
import Mathlib.Algebra.MvPolynomial.PDeriv
/-!
# Expressions as formal polynomials

Over a commutative ring such as the integers there are no limits, hence no derivative in the sense of
analysis. What remains is the formal partial derivative of polynomials. The relation below reads an
expression built from scalars with ring operations as a polynomial in its variables.
-/

namespace Aegir.Spec
open MvPolynomial

/-- The square is a product (`x.pow(2)` in the code). -/
class LawfulSquare (F : Type) [Semiring F] [ScalarFns F] : Prop where
  sq : ∀ x : F, ScalarFns.pow x (1 + 1) = x * x

/-- The expression stands for the polynomial. Every expression made of scalar variables, scalar
constants and ring operations does, and so do adjoints of variables and of constants. -/
inductive IsPoly {F : Type} [CommRing F] : Node F → MvPolynomial Id F → Prop
  | var (i : Id) : IsPoly (.var i) (X i)
  | const (a : F) : IsPoly (.const .scalar a) (C a)
  | same (i : Id) : IsPoly (.varAdj i i) 1
  | other {i t : Id} : i ≠ t → IsPoly (.varAdj i t) 0
  | constAdj {n p} (t : Id) : IsPoly n p → IsPoly (.constAdj n t) 0
  | add {l r p q} : IsPoly l p → IsPoly r q → IsPoly (.add l r) (p + q)
  | sub {l r p q} : IsPoly l p → IsPoly r q → IsPoly (.sub l r) (p - q)
  | mul {l r p q} : IsPoly l p → IsPoly r q → IsPoly (.mul l r) (p * q)
  | product {l r p q} : IsPoly l p → IsPoly r q → IsPoly (.contract 0 l r) (p * q)
  | dot {l r p q} : IsPoly l p → IsPoly r q → IsPoly (.contract 1 l r) (p * q)
  | sum {n p} : IsPoly n p → IsPoly (.sum n) p
  | subOne {n p} : IsPoly n p → IsPoly (.un .subOne n) (p - 1)
  | oneSub {n p} : IsPoly n p → IsPoly (.un .oneSub n) (1 - p)
  | addOne {n p} : IsPoly n p → IsPoly (.un .addOne n) (p + 1)
  | double {n p} : IsPoly n p → IsPoly (.un .double n) (2 * p)
  | negate {n p} : IsPoly n p → IsPoly (.un .negate n) (-p)
  | square {n p} : IsPoly n p → IsPoly (.un .square n) (p ^ 2)
  | rabbit {n p} : IsPoly n p → IsPoly (.un .rabbit n) (p * (1 - p))

/-- No adjoint of a constant in `e` (those cannot be differentiated again). -/
def ConstAdjFree {F : Type} (e : Node F) : Prop := ∀ n t, ¬ SubExpr (.constAdj n t) e

end Aegir.Spec
