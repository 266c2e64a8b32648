import Verif.Spec.Subst
import Verif.Spec.Tensor
/-!
# The chain rule
-/

namespace Aegir.Spec

/-- Division is multiplication by something that depends on the divisor only. -/
def LawfulDiv (F : Type) [Mul F] [Div F] : Prop := ∃ inv : F → F, ∀ x y : F, x / y = x * inv y

/-- Division is lawful, or the adjoints of `e` do not divide. -/
def DivisionOk {F : Type} [Mul F] [Div F] (e : Node F) : Prop :=
  LawfulDiv F ∨ (∀ l r, ¬ SubExpr (.div l r) e) ∧ ∀ n, ¬ SubExpr (.un .ln n) e

/-- `PowSafe` whatever stands for the missing values of a context. -/
def PowSafeIn {F : Type} [CommRing F] [Div F] [ScalarFns F] {Γ : Id → BTy} (c : Ctx F Γ) (e : Node F) : Prop :=
  ∀ ρ : Id → Tensor F, Describes ρ c → PowSafe ρ e

end Aegir.Spec
