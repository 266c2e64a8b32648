import Verif.Spec.Abstraction
import Verif.Spec.Forward
/-!
# Arithmetic of finite precision

What is asked of an arithmetic in which every operation, not only those of a ring, is rounded, and
where the result of an expression depends continuously on its data. Nothing here refers to how
expressions are evaluated.
-/

namespace Aegir.Spec

variable {F : Type}

/-- The operators that call a single function of the mathematical library. -/
def UnOp.library : UnOp → Bool
  | .ln | .exp | .gamma | .digamma | .logGamma | .erf | .cos | .cosh | .acos | .acosh | .sin | .sinh
  | .asin | .asinh | .tan | .tanh | .atan | .atanh => true
  | _ => false

/-- The standard model of floating-point arithmetic (`Rounding`), extended to the remaining
operations. Quotients are correct up to a relative error `u`. The functions of the library, inside of
their domains, and powers of positive numbers are correct up to an error of `u` relative to the larger
of the result and one (so that they may underflow). Absolute values and signs are exact, and
comparisons only succeed if they are right. -/
structure Approx [Zero F] [One F] [Add F] [Sub F] [Mul F] [Div F] [Neg F] [ScalarFns F]
    (val : F → ℝ) (u : ℝ) : Prop extends Rounding val u where
  div : ∀ x y, val y ≠ 0 → ∃ δ, |δ| ≤ u ∧ val (x / y) = val x / val y * (1 + δ)
  eqb : ∀ x y, ScalarFns.eqb x y = true → val x = val y
  leb : ∀ x y, ScalarFns.leb x y = true → val x ≤ val y
  abs : ∀ x, val (ScalarFns.abs x) = |val x|
  signum : ∀ x, val x ≠ 0 → val (ScalarFns.signum x) = ScalarFns.signum (val x)
  pow : ∀ x y, 0 < val x →
    |val (ScalarFns.pow x y) - val x ^ val y| ≤ u * (1 + |val x ^ val y|)
  library : ∀ op x, UnOp.library op = true → UnOp.Inside op (val x) →
    |val (op.apply x) - op.apply (val x)| ≤ u * (1 + |op.apply (val x)|)

/-- The scalar `x` is the number `a` up to an error of at most `ε`. -/
def Close (val : F → ℝ) (ε : ℝ) (x : F) (a : ℝ) : Prop := |val x - a| ≤ ε

/-- The same expression with constants that are correct up to an error of at most `ε`. -/
inductive Approximates [Zero F] (val : F → ℝ) (ε : ℝ) : Node F → Node ℝ → Prop
  | var (i) : Approximates val ε (.var i) (.var i)
  | varAdj (i t) : Approximates val ε (.varAdj i t) (.varAdj i t)
  | const {τ} {b : Buf F τ} {b' : Buf ℝ τ} : StandsFor (Close val ε) b (.ofBuf b') →
      Approximates val ε (.const τ b) (.const τ b')
  | constSpec {τ} {s : BSpec F τ} {s' : BSpec ℝ τ} : StandsFor (Close val ε) s.unwrap (.ofSpec s') →
      Approximates val ε (.constSpec τ s) (.constSpec τ s')
  | constAdj {n n'} (t) : Approximates val ε n n' → Approximates val ε (.constAdj n t) (.constAdj n' t)
  | cached {n n'} (i) : Approximates val ε n n' → Approximates val ε (.cached n i) (.cached n' i)
  | add {l l' r r'} : Approximates val ε l l' → Approximates val ε r r' →
      Approximates val ε (.add l r) (.add l' r')
  | sub {l l' r r'} : Approximates val ε l l' → Approximates val ε r r' →
      Approximates val ε (.sub l r) (.sub l' r')
  | mul {l l' r r'} : Approximates val ε l l' → Approximates val ε r r' →
      Approximates val ε (.mul l r) (.mul l' r')
  | div {l l' r r'} : Approximates val ε l l' → Approximates val ε r r' →
      Approximates val ε (.div l r) (.div l' r')
  | power {l l' r r'} : Approximates val ε l l' → Approximates val ε r r' →
      Approximates val ε (.power l r) (.power l' r')
  | contract {l l' r r'} (k) : Approximates val ε l l' → Approximates val ε r r' →
      Approximates val ε (.contract k l r) (.contract k l' r')
  | sum {n n'} : Approximates val ε n n' → Approximates val ε (.sum n) (.sum n')
  | un {op : UnOp} {n n'} : Approximates val ε n n' → Approximates val ε (.un op n) (.un op n')

/-- Conditions, node by node, for the value of an expression to depend continuously on its data where
the variables are `ρ`: divisors are not zero, operators are applied inside of their domains, bases of
powers are positive. There is no condition on the other operators. (What `ConstantAdjoint` wraps is
only asked for its shape.) -/
def ContinuousFor (ρ : Id → Tensor ℝ) : Node ℝ → Prop
  | .var _ => True
  | .varAdj _ _ => True
  | .const _ _ => True
  | .constSpec _ _ => True
  | .constAdj n _ => ContinuousFor ρ n
  | .cached _ _ => False
  | .add l r => ContinuousFor ρ l ∧ ContinuousFor ρ r
  | .sub l r => ContinuousFor ρ l ∧ ContinuousFor ρ r
  | .mul l r => ContinuousFor ρ l ∧ ContinuousFor ρ r
  | .div l r => ContinuousFor ρ l ∧ ContinuousFor ρ r ∧
      ∀ ix, InBounds (den ρ r).dims ix → (den ρ r).val ix ≠ 0
  | .power l r => ContinuousFor ρ l ∧ ContinuousFor ρ r ∧ 0 < (den ρ l).val []
  | .contract _ l r => ContinuousFor ρ l ∧ ContinuousFor ρ r
  | .sum n => ContinuousFor ρ n
  | .un op n => ContinuousFor ρ n ∧
      ∀ ix, InBounds (den ρ n).dims ix → op = .abs ∨ UnOp.Inside op ((den ρ n).val ix)

end Aegir.Spec
