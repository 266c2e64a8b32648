import Verif.Spec.Real
import Verif.Spec.Errors
import Verif.Model.Fmt
/-!
# Vocabulary about symbolic zeros and ones
-/

namespace Aegir.Spec

/-- The values at zero and one of the primitive functions, and `0 / y` and `0 ^ y` for nonzero `y`. -/
class LawfulConstants (F : Type) [CommRing F] [Div F] [ScalarFns F] : Prop where
  zero_div : ∀ y : F, y ≠ 0 → 0 / y = 0
  one_div_one : (1 : F) / 1 = 1
  zero_pow : ∀ y : F, y ≠ 0 → ScalarFns.pow 0 y = (0 : F)
  zero_sq : ScalarFns.pow (0 : F) (1 + 1) = 0
  abs_zero : ScalarFns.abs (0 : F) = 0
  abs_one : ScalarFns.abs (1 : F) = 1
  ln_one : ScalarFns.ln (1 : F) = 0
  exp_zero : ScalarFns.exp (0 : F) = 1
  gamma_one : ScalarFns.gamma (1 : F) = 1
  loggamma_one : ScalarFns.loggamma (1 : F) = 0
  cos_zero : ScalarFns.cos (0 : F) = 1
  cosh_zero : ScalarFns.cosh (0 : F) = 1
  acos_one : ScalarFns.acos (1 : F) = 0
  acosh_one : ScalarFns.acosh (1 : F) = 0
  sin_zero : ScalarFns.sin (0 : F) = 0
  sinh_zero : ScalarFns.sinh (0 : F) = 0
  asin_zero : ScalarFns.asin (0 : F) = 0
  asinh_zero : ScalarFns.asinh (0 : F) = 0
  tan_zero : ScalarFns.tan (0 : F) = 0
  tanh_zero : ScalarFns.tanh (0 : F) = 0
  atan_zero : ScalarFns.atan (0 : F) = 0
  atanh_zero : ScalarFns.atanh (0 : F) = 0

noncomputable instance : LawfulConstants ℝ where
  zero_div y _ := _root_.zero_div y
  one_div_one := _root_.div_one 1
  zero_pow _ h := Real.zero_rpow h
  zero_sq := Real.zero_rpow (by norm_num)
  abs_zero := _root_.abs_zero
  abs_one := _root_.abs_one
  ln_one := Real.log_one
  exp_zero := Real.exp_zero
  gamma_one := Real.Gamma_one
  loggamma_one := by
    show Real.log (Real.Gamma 1) = 0
    rw [Real.Gamma_one, Real.log_one]
  cos_zero := Real.cos_zero
  cosh_zero := Real.cosh_zero
  acos_one := Real.arccos_one
  acosh_one := by
    show Real.arcosh 1 = 0
    simp [Real.arcosh]
  sin_zero := Real.sin_zero
  sinh_zero := Real.sinh_zero
  asin_zero := Real.arcsin_zero
  asinh_zero := Real.arsinh_zero
  tan_zero := Real.tan_zero
  tanh_zero := Real.tanh_zero
  atan_zero := Real.arctan_zero
  atanh_zero := Real.artanh_zero

variable {F : Type} [Zero F] [One F] [Add F] [Sub F] [Mul F] [Div F] [Neg F] [ScalarFns F]
variable {Γ : Id → BTy}

/-- `e` evaluates to the scalar `x` in `c`. -/
def Yields (c : Ctx F Γ) (e : Node F) (x : F) : Prop :=
  ∃ (τ : BTy) (d : FnImpl Γ e τ) (b : Buf F τ), (d.evaluate c).1 = .ok b ∧ Buf.getU τ b [] = some x

/-- `Erf` is not applied to a symbolic zero or one, nor `DiGamma` to a symbolic one, and a symbolic
zero is neither divided by nor raised to something that evaluates to zero. Something raised to a
symbolic zero has an explicit buffer (for example a variable) or is not zero. -/
def SymbolicSafe (idText : Id → String) (numText : F → String) (c : Ctx F Γ) (e : Node F) : Prop :=
  (∀ n, SubExpr (.un .erf n) e → n.toExpr idText numText ≠ some .zero ∧
    n.toExpr idText numText ≠ some .one) ∧
  (∀ n, SubExpr (.un .digamma n) e → n.toExpr idText numText ≠ some .one) ∧
  (∀ l r, SubExpr (.div l r) e → l.toExpr idText numText = some .zero → ¬ Yields c r 0) ∧
  (∀ l r, SubExpr (.power l r) e → l.toExpr idText numText = some .zero → ¬ Yields c r 0) ∧
  (∀ l r, SubExpr (.power l r) e → r.toExpr idText numText = some .zero →
    EvalExplicit l ∨ ¬ Yields c l 0)

end Aegir.Spec
