import Verif.Spec.Scalar
import Mathlib.Analysis.SpecialFunctions.Pow.Real
import Mathlib.Analysis.SpecialFunctions.Gamma.Deriv
import Mathlib.Analysis.SpecialFunctions.Arsinh
import Mathlib.Analysis.SpecialFunctions.Arcosh
import Mathlib.Analysis.SpecialFunctions.Artanh
import Mathlib.Analysis.SpecialFunctions.Trigonometric.Inverse
import Mathlib.Analysis.SpecialFunctions.Trigonometric.Arctan
import Mathlib.MeasureTheory.Integral.IntervalIntegral.Basic
/-!
# Real scalars

The mathematical functions that the Rust float primitives approximate.
-/

namespace Aegir.Spec

open Classical in
/-- Exact real arithmetic. `infinity` has no real counterpart and is set to `0`; no theorem depends
on it. `signum` is `1` at zero, as for Rust floats. -/
noncomputable instance : ScalarFns ℝ where
  isZero x := decide (x = 0)
  eqb x y := decide (x = y)
  leb x y := decide (x ≤ y)
  fromUsize n := some n
  infinity := 0
  pow x y := x ^ y
  abs x := |x|
  signum x := if x < 0 then -1 else 1
  ln := Real.log
  exp := Real.exp
  cos := Real.cos
  cosh := Real.cosh
  acos := Real.arccos
  acosh := Real.arcosh
  sin := Real.sin
  sinh := Real.sinh
  asin := Real.arcsin
  asinh := Real.arsinh
  tan := Real.tan
  tanh := Real.tanh
  atan := Real.arctan
  atanh := Real.artanh
  gamma := Real.Gamma
  digamma := logDeriv Real.Gamma
  loggamma x := Real.log (Real.Gamma x)
  erf x := 2 / Real.sqrt Real.pi * ∫ t in (0 : ℝ)..x, Real.exp (-t ^ 2)

noncomputable instance : LawfulScalar ℝ where
  isZero_iff x := by simp [ScalarFns.isZero]
  fromUsize_eq n := rfl

noncomputable instance : LawfulPow ℝ where
  eqb_iff x y := by simp [ScalarFns.eqb]
  pow_zero x := Real.rpow_zero x
  one_pow x := Real.one_rpow x

theorem signum_of_ne {x : ℝ} (h : x ≠ 0) : ScalarFns.signum x = (SignType.sign x : ℝ) := by
  rcases lt_or_gt_of_ne h with hn | hp
  · simp [ScalarFns.signum, hn]
  · simp [ScalarFns.signum, hp, not_lt.2 hp.le]

end Aegir.Spec
