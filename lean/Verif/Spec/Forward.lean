import Verif.Spec.Calculus
import Verif.Spec.Rounding
import Mathlib.Algebra.DualNumber
/-!
# Dual numbers as scalars

Scalars `x + ε y` with `ε² = 0`. Nothing in the crate is of this type: `aegir` is generic in its scalar
type, and this is a scalar type a user may supply.
-/

namespace Aegir.Spec

open TrivSqZeroExt

/-- Dual numbers over the reals, with the ring structure of Mathlib. -/
abbrev Jet : Type := DualNumber ℝ

/-- Division by means of Mathlib's inverse `1/x - ε y/x²`. -/
noncomputable instance : Div Jet := ⟨fun z w => z * w⁻¹⟩

/-- The extension of a real function to dual numbers: `f (x + ε y) = f x + ε y f'(x)`. -/
noncomputable def extend (f : ℝ → ℝ) (z : Jet) : Jet := inl (f z.fst) + inr (deriv f z.fst * z.snd)

/-- The extension of a real function of two variables, by its partial derivatives. -/
noncomputable def extend₂ (f : ℝ → ℝ → ℝ) (z w : Jet) : Jet :=
  inl (f z.fst w.fst) +
    inr (deriv (fun x => f x w.fst) z.fst * z.snd + deriv (fun y => f z.fst y) w.fst * w.snd)

open Classical in
/-- All functions are the extensions of the real ones; comparisons look at the real parts, except
that equality is equality of both parts. -/
noncomputable instance : ScalarFns Jet where
  isZero z := decide (z = 0)
  eqb z w := decide (z = w)
  leb z w := decide (z.fst ≤ w.fst)
  fromUsize n := some n
  infinity := 0
  pow := extend₂ ScalarFns.pow
  abs := extend ScalarFns.abs
  signum := extend ScalarFns.signum
  ln := extend ScalarFns.ln
  exp := extend ScalarFns.exp
  cos := extend ScalarFns.cos
  cosh := extend ScalarFns.cosh
  acos := extend ScalarFns.acos
  acosh := extend ScalarFns.acosh
  sin := extend ScalarFns.sin
  sinh := extend ScalarFns.sinh
  asin := extend ScalarFns.asin
  asinh := extend ScalarFns.asinh
  tan := extend ScalarFns.tan
  tanh := extend ScalarFns.tanh
  atan := extend ScalarFns.atan
  atanh := extend ScalarFns.atanh
  gamma := extend ScalarFns.gamma
  digamma := extend ScalarFns.digamma
  loggamma := extend ScalarFns.loggamma
  erf := extend ScalarFns.erf

/-- The point reached from the real part after time `s` in the direction of the dual part. -/
noncomputable def Jet.at (s : ℝ) (z : Jet) : ℝ := z.fst + s * z.snd

/-- The same for a tensor. -/
noncomputable def tensorAt (s : ℝ) (T : Tensor Jet) : Tensor ℝ := ⟨T.dims, fun ix => Jet.at s (T.val ix)⟩

/-- The domains of the unary operators: open sets in which the operators are differentiable. -/
def UnOp.Inside : UnOp → ℝ → Prop
  | .dirac, x => x ≠ 0
  | .digamma, x => ∀ m : ℕ, x ≠ -m
  | .acos, x => -1 < x ∧ x < 1
  | .asin, x => -1 < x ∧ x < 1
  | .acosh, x => 1 < x
  | .atanh, x => -1 < x ∧ x < 1
  | .tan, x => Real.cos x ≠ 0
  | op, x => UnOp.SmoothAt op x

/-- The variable `i` is moved: its dual part does not vanish. -/
def Moves (ρ : Id → Tensor Jet) (i : Id) : Prop := ∃ ix, ((ρ i).val ix).snd ≠ 0

/-- Conditions, node by node, for an expression to be differentiable where the real parts of `ρ` are:
divisors are not zero, operators are applied inside of their domains, and a `Power` has a positive base
or a positive natural number as exponent that does not move. There is no condition on contractions
and sums. (What `ConstantAdjoint` wraps is only asked for its shape; in the crate this is a `Constant`.
It contains no `Power`.) -/
def SmoothFor (ρ : Id → Tensor Jet) : Node ℝ → Prop
  | .var _ => True
  | .varAdj _ _ => True
  | .const _ _ => True
  | .constSpec _ _ => True
  | .constAdj n _ => ∀ l r, ¬ SubExpr (.power l r) n
  | .cached n _ => SmoothFor ρ n
  | .add l r => SmoothFor ρ l ∧ SmoothFor ρ r
  | .sub l r => SmoothFor ρ l ∧ SmoothFor ρ r
  | .mul l r => SmoothFor ρ l ∧ SmoothFor ρ r
  | .div l r => SmoothFor ρ l ∧ SmoothFor ρ r ∧
      ∀ ix, InBounds (den (fun i => tensorAt 0 (ρ i)) r).dims ix →
        (den (fun i => tensorAt 0 (ρ i)) r).val ix ≠ 0
  | .power l r => SmoothFor ρ l ∧ SmoothFor ρ r ∧
      (0 < (den (fun i => tensorAt 0 (ρ i)) l).val [] ∨
        (∀ i, Occurs r i → ¬ Moves ρ i) ∧
          ∃ n : ℕ, 1 ≤ n ∧ (den (fun i => tensorAt 0 (ρ i)) r).val [] = n)
  | .contract _ l r => SmoothFor ρ l ∧ SmoothFor ρ r
  | .sum n => SmoothFor ρ n
  | .un op n => SmoothFor ρ n ∧
      ∀ ix, InBounds (den (fun i => tensorAt 0 (ρ i)) n).dims ix →
        UnOp.Inside op ((den (fun i => tensorAt 0 (ρ i)) n).val ix)

end Aegir.Spec
