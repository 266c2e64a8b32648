import Verif.Spec.Tensor
/-!
# Differentiating with respect to two variables
-/

namespace Aegir.Spec

variable {F : Type} [CommRing F] [Div F] [ScalarFns F]

/-- The operand of every `Sum` is a scalar (other sums have no correct adjoint, see C31). -/
def ScalarSums (Γ : Id → BTy) (e : Node F) : Prop :=
  ∀ n σ, SubExpr (.sum n) e → FnImpl Γ n σ → σ = .scalar

/-- The base of each `Power` is neither zero nor below, and at the base and the exponent
`x^(y-2) · x ln x = x^(y-1) · ln x`. Over the reals all this holds for a positive base. -/
def PowerRule (ρ : Id → Tensor F) (e : Node F) : Prop :=
  ∀ l r, SubExpr (.power l r) e → (den ρ l).val [] ≠ 0 ∧ ScalarFns.leb ((den ρ l).val []) 0 = false ∧
    ScalarFns.pow ((den ρ l).val []) ((den ρ r).val [] - 1 - 1) *
        ((den ρ l).val [] * ScalarFns.ln ((den ρ l).val []))
      = ScalarFns.pow ((den ρ l).val []) ((den ρ r).val [] - 1) * ScalarFns.ln ((den ρ l).val [])

end Aegir.Spec
