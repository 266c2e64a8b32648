import Verif.Spec.Calculus
import Verif.Spec.Rounding
/-!
# Formal derivatives over a commutative ring
-/

namespace Aegir.Spec

variable {F : Type} [CommRing F] [Div F] [ScalarFns F]

/-- The conditions of `Smooth` that concern shapes alone: a sum is over a single entry (C31), and the
factors of a contraction are contracted over the right axes, that is, the target is a scalar, or the
right factor of a tensor product is a scalar or the left one does not mention the target (C32), or it
is the dot product of vectors of the target's length with an affine left factor. -/
def WellContracted (ρ : Id → Tensor F) (t : Id) : Node F → Prop
  | .var _ => True
  | .varAdj _ _ => True
  | .const _ _ => True
  | .constSpec _ _ => True
  | .constAdj n _ => WellContracted ρ t n
  | .cached n _ => WellContracted ρ t n
  | .add l r => WellContracted ρ t l ∧ WellContracted ρ t r
  | .sub l r => WellContracted ρ t l ∧ WellContracted ρ t r
  | .mul l r => WellContracted ρ t l ∧ WellContracted ρ t r
  | .div l r => WellContracted ρ t l ∧ WellContracted ρ t r
  | .power l r => WellContracted ρ t l ∧ WellContracted ρ t r
  | .contract k l r => WellContracted ρ t l ∧ WellContracted ρ t r ∧
      ((ρ t).dims = [] ∨ k = 0 ∧ (den ρ r).dims = [] ∨ k = 0 ∧ ¬ Occurs l t ∨
        k = 1 ∧ (∃ n, (ρ t).dims = [n] ∧ (den ρ l).dims = [n] ∧ (den ρ r).dims = [n]) ∧
          Affine ρ t l)
  | .sum n => WellContracted ρ t n ∧ (den ρ n).dims = []
  | .un _ n => WellContracted ρ t n

/-- To first order in the ideal `I`, the element `x'` is `x` plus `g`: they differ by a combination
of products of two elements of `I`. For `I` generated by `δ` that is a multiple of `δ²`. -/
def FirstOrder (I : Ideal F) (x x' g : F) : Prop := x' - (x + g) ∈ I ^ 2

end Aegir.Spec
