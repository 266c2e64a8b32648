import Verif.Model.Scalar
import Mathlib.Algebra.Ring.Defs
import Mathlib.Data.Nat.Cast.Defs
/-!
# Laws of the scalar primitives

Hypotheses of the theorems that need them; satisfied by exact arithmetic, and by no floating-point
type (NaN).
-/

namespace Aegir.Spec

/-- `is_zero` decides zero and `from_usize` never fails and embeds the naturals. -/
class LawfulScalar (F : Type) [Semiring F] [ScalarFns F] : Prop where
  isZero_iff : ∀ x : F, ScalarFns.isZero x = true ↔ x = 0
  fromUsize_eq : ∀ n : Nat, ScalarFns.fromUsize n = some (n : F)

/-- `==` decides equality, and the power function has the two laws that the shortcuts of `Power`
rely on. -/
class LawfulPow (F : Type) [Semiring F] [ScalarFns F] : Prop where
  eqb_iff : ∀ x y : F, ScalarFns.eqb x y = true ↔ x = y
  pow_zero : ∀ x : F, ScalarFns.pow x 0 = 1
  one_pow : ∀ x : F, ScalarFns.pow 1 x = 1

end Aegir.Spec
