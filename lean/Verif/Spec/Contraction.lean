import Verif.Spec.Index
import Mathlib.Algebra.BigOperators.Group.Finset.Basic
/-!
# Specification of tensor contraction

Tensors are functions on indices together with extents; nothing here refers to buffers.
-/

namespace Aegir.Spec

variable {F : Type}

/-- Sum of `f` over all indices with extents `ks`. -/
def sumOver [AddCommMonoid F] : Dims → (Idx → F) → F
  | [], f => f []
  | k :: ks, f => ∑ t ∈ Finset.range k, sumOver ks (fun ix => f (t :: ix))

/-- `R` (extents `dr`) is the contraction of `X` (extents `dx`) and `Y` (extents `dy`) over the last
`axes` axes of `X` and the first `axes` axes of `Y`:
`R[ix, jx] = Σ_t X[ix, t] * Y[t, jx]`. -/
def IsContraction [AddCommMonoid F] [Mul F] (axes : Nat) (dx dy dr : Dims) (X Y R : Idx → F) :
    Prop :=
  ∃ l k r, k.length = axes ∧ dx = l ++ k ∧ dy = k ++ r ∧ dr = l ++ r ∧
    ∀ ix jx, InBounds l ix → InBounds r jx →
      R (ix ++ jx) = sumOver k (fun t => X (ix ++ t) * Y (t ++ jx))

end Aegir.Spec
