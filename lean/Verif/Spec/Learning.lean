import Mathlib.MeasureTheory.Constructions.Pi
import Mathlib.MeasureTheory.Measure.Lebesgue.Basic
import Mathlib.Data.Real.Basic
/-!
# Least mean squares

Gradient descent on the squared error of a linear model, on functions `Fin N → ℝ`. No expression,
buffer or context is mentioned.
-/

namespace Aegir.Examples

variable {N : Nat}

/-- Inner product. -/
def inner' (a b : Fin N → ℝ) : ℝ := ∑ i, a i * b i

/-- Squared distance. -/
def dist2 (a b : Fin N → ℝ) : ℝ := ∑ i, (a i - b i) ^ 2

/-- Prediction error of the weights `w` on the sample `x`. -/
def err (tw w x : Fin N → ℝ) : ℝ := inner' x w - inner' x tw

/-- One step of gradient descent on the squared error. -/
def lmsStep (η : ℝ) (tw w x : Fin N → ℝ) : Fin N → ℝ := fun k => w k - η * (2 * err tw w x * x k)

/-- Gradient descent along a list of samples. -/
def lms (η : ℝ) (tw : Fin N → ℝ) : (Fin N → ℝ) → List (Fin N → ℝ) → Fin N → ℝ
  | w, [] => w
  | w, x :: xs => lms η tw (lmsStep η tw w x) xs

/-- Sum of the squared prediction errors made along the way. -/
def loss (η : ℝ) (tw : Fin N → ℝ) : (Fin N → ℝ) → List (Fin N → ℝ) → ℝ
  | _, [] => 0
  | w, x :: xs => err tw w x ^ 2 + loss η tw (lmsStep η tw w x) xs

/-- The weights after the first `n` of the random samples `X`. -/
def weights {Ω : Type} (η : ℝ) (tw w : Fin N → ℝ) (X : ℕ → Ω → Fin N → ℝ) (n : ℕ) (ω : Ω) :
    Fin N → ℝ := lms η tw w (List.ofFn fun i : Fin n => X i ω)

/-- The uniform distribution on the unit interval. -/
noncomputable def uniform : MeasureTheory.Measure ℝ :=
  MeasureTheory.volume.restrict (Set.Icc 0 1)

end Aegir.Examples
