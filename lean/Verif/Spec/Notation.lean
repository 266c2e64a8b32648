import Verif.Spec.Tensor
import Verif.Spec.Real
import Verif.Model.Fmt
/-!
# Reading mathematical notation

What a text means under the usual rules of precedence: brackets and calls bind tightest, then
powers, signs, products and quotients, and finally sums and differences. Nothing here depends on how
the code decides where to put brackets.
-/

namespace Aegir.Spec

/-- Functions by the name under which they are printed. -/
noncomputable def namedFn : String → Option (ℝ → ℝ)
  | "ln" => some Real.log
  | "sgn" => some fun x => SignType.sign x
  | "σ" => some fun x => 1 / (1 + Real.exp (-x))
  | "Γ" => some Real.Gamma
  | "ψ" => some (logDeriv Real.Gamma)
  | "lnΓ" => some fun x => Real.log (Real.Gamma x)
  | "erf" => some fun x => 2 / Real.sqrt Real.pi * ∫ t in (0 : ℝ)..x, Real.exp (-t ^ 2)
  | "cos" => some Real.cos
  | "cosh" => some Real.cosh
  | "acos" => some Real.arccos
  | "acosh" => some Real.arcosh
  | "sin" => some Real.sin
  | "sinh" => some Real.sinh
  | "asin" => some Real.arcsin
  | "asinh" => some Real.arsinh
  | "tan" => some Real.tan
  | "tanh" => some Real.tanh
  | "atan" => some Real.arctan
  | "atanh" => some Real.artanh
  | _ => none

/-- `Means nm k s x`: the text `s` stands for the number `x`, and its outermost operation has level
`k` (0 atom, 1 power, 2 sign, 3 product or quotient, 4 sum or difference). `nm` gives the meaning of
names and numerals. All numbers are scalars, so a sum over an index has one term. -/
inductive Means (nm : String → ℝ → Prop) : Nat → String → ℝ → Prop
  | name {s x} : nm s x → Means nm 0 s x
  | zero : Means nm 0 "0" 0
  | one : Means nm 0 "1" 1
  | two : Means nm 0 "2" 2
  | half : Means nm 0 "½" (1 / 2)
  | euler : Means nm 0 "𝑒" (Real.exp 1)
  | pi2 : Means nm 3 "π/2" (Real.pi / 2)
  | pi4 : Means nm 3 "π/4" (Real.pi / 4)
  | bracket {k s x} : Means nm k s x → Means nm 0 ("(" ++ s ++ ")") x
  | bars {k s x} : Means nm k s x → Means nm 0 ("|" ++ s ++ "|") |x|
  | call {f g k s x} : namedFn f = some g → Means nm k s x → Means nm 0 (f ++ "(" ++ s ++ ")") (g x)
  | inner {k s x m t y} : Means nm k s x → Means nm m t y →
      Means nm 0 ("⟨" ++ s ++ ", " ++ t ++ "⟩") (x * y)
  | sigma {k s x} : Means nm k s x → Means nm 0 ("Σ_i (" ++ s ++ ")_i") x
  | pow {s x m t y} : Means nm 0 s x → Means nm m t y → m ≤ 2 → Means nm 1 (s ++ "^" ++ t) (x ^ y)
  | neg {k s x} : Means nm k s x → k ≤ 3 → Means nm (max 2 k) ("-" ++ s) (-x)
  | mul {o k s x m t y} : o ∈ [" ∘ ", " ⊗ ", " : "] → Means nm k s x → k ≤ 3 → Means nm m t y →
      m ≤ 3 → Means nm 3 (s ++ o ++ t) (x * y)
  | div {k s x m t y} : Means nm k s x → k ≤ 3 → Means nm m t y → m ≤ 2 →
      Means nm 3 (s ++ " / " ++ t) (x / y)
  | add {k s x m t y} : Means nm k s x → k ≤ 4 → Means nm m t y → m ≤ 3 →
      Means nm 4 (s ++ " + " ++ t) (x + y)
  | sub {k s x m t y} : Means nm k s x → k ≤ 4 → Means nm m t y → m ≤ 3 →
      Means nm 4 (s ++ " - " ++ t) (x - y)

/-- Unbracketed texts that are products or quotients, possibly with signs in front: doubled
expressions and fractions of `π`. -/
def Loose (p : PreWrap) : Prop :=
  p.needsWrap = false ∧ ∃ n t, p.text.toList = List.replicate n '-' ++ t ∧
    (['2', ' ', '∘'] <+: t ∨ ['π', '/'] <+: t)

/-- Unbracketed texts that cannot be raised to a power: the above, signs and powers. -/
def LooseBase (p : PreWrap) : Prop :=
  Loose p ∨ p.needsWrap = false ∧ ('^' ∈ p.text.toList ∨ ['-'] <+: p.text.toList)

/-- The rendering of `op` on an operand rendered as `E` with value `x` is a real number and not one
of the wrong ones. -/
def UnOp.Clear (op : UnOp) (E : Expr) (x : ℝ) : Prop :=
  match op, E with
  | .addOne, .text _ => False
  | .asin, .text _ => False
  | .sinh, .one => False
  | .erf, .zero | .erf, .one => False
  | .digamma, .zero | .digamma, .one => False
  | .dirac, _ => False
  | .sign, .zero => False
  | .ln, .zero | .gamma, .zero | .logGamma, .zero | .acosh, .zero | .atanh, .one => False
  | .xlnx, .text _ => 0 ≤ x
  | .exp, .text p => ¬ Loose p
  | _, _ => True

/-- Every operand is rendered so that the usual precedence reads it as intended, no symbolic zero is
divided by or raised to zero, nothing is divided by a symbolic zero, and every unary operator is
`Clear`. -/
def Clear (idText : Id → String) (numText : ℝ → String) (ρ : Id → Tensor ℝ) : Node ℝ → Prop
  | .var _ | .varAdj _ _ | .const .scalar _ => True
  | .constAdj n _ => Clear idText numText ρ n
  | .add l r | .sub l r | .mul l r => Clear idText numText ρ l ∧ Clear idText numText ρ r
  | .contract k l r => k ≤ 2 ∧ Clear idText numText ρ l ∧ Clear idText numText ρ r
  | .div l r => Clear idText numText ρ l ∧ Clear idText numText ρ r ∧ (den ρ r).val [] ≠ 0 ∧
      r.toExpr idText numText ≠ some .zero ∧
      ∀ p, r.toExpr idText numText = some (.text p) → ¬ Loose p
  | .power l r => Clear idText numText ρ l ∧ Clear idText numText ρ r ∧
      (l.toExpr idText numText = some .zero → (den ρ r).val [] ≠ 0) ∧
      (∀ p, l.toExpr idText numText = some (.text p) → ¬ LooseBase p) ∧
      ∀ p, r.toExpr idText numText = some (.text p) → ¬ Loose p
  | .un op n => Clear idText numText ρ n ∧
      ∀ E, n.toExpr idText numText = some E → UnOp.Clear op E ((den ρ n).val [])
  | _ => False

/-- The same for `Display`, which also prints sums, and prints a symbolic zero as the empty text: that
is not the case for any part that `Display` prints separately. -/
def ClearDisplay (idText : Id → String) (numText : ℝ → String) (ρ : Id → Tensor ℝ) : Node ℝ → Prop
  | .sum n => ClearDisplay idText numText ρ n
  | .constAdj n _ => Clear idText numText ρ n
  | .contract 2 l r => ClearDisplay idText numText ρ l ∧ ClearDisplay idText numText ρ r
  | e => Clear idText numText ρ e ∧ e.toExpr idText numText ≠ some .zero

/-- Names stand for the values of the variables, and numerals for the numbers they are printed for. -/
def ReadsAs (idText : Id → String) (numText : ℝ → String) (ρ : Id → Tensor ℝ) (s : String) (x : ℝ) :
    Prop :=
  (∃ i, s = idText i ∧ x = (ρ i).val []) ∨ s = numText x

end Aegir.Spec
