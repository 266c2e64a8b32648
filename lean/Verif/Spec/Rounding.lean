import Verif.Spec.Tensor
import Verif.Spec.Real
/-!
# Rounded arithmetic

What floating-point operations promise, and the quantities in terms of which rounding errors of an
expression are bounded. Nothing here refers to how expressions are evaluated.
-/

namespace Aegir.Spec

variable {F : Type}

/-- The standard model of floating-point arithmetic: `val x` is the real number a scalar stands for,
and the result of every operation is the exact result up to a relative error of at most `u`. It holds
for IEEE arithmetic as long as nothing overflows, underflows or is a NaN. `powf(x, 2)` is assumed to
be as accurate as a product. -/
structure Rounding [Zero F] [One F] [Add F] [Sub F] [Mul F] [Neg F] [ScalarFns F] (val : F → ℝ)
    (u : ℝ) : Prop where
  nonneg : 0 ≤ u
  zero : val 0 = 0
  one : val 1 = 1
  isZero : ∀ x, ScalarFns.isZero x = true → val x = 0
  neg : ∀ x, val (-x) = -val x
  add : ∀ x y, ∃ δ, |δ| ≤ u ∧ val (x + y) = (val x + val y) * (1 + δ)
  sub : ∀ x y, ∃ δ, |δ| ≤ u ∧ val (x - y) = (val x - val y) * (1 + δ)
  mul : ∀ x y, ∃ δ, |δ| ≤ u ∧ val (x * y) = val x * val y * (1 + δ)
  square : ∀ x, ∃ δ, |δ| ≤ u ∧ val (ScalarFns.pow x (1 + 1)) = val x ^ 2 * (1 + δ)
  fromUsize : ∀ n k, ScalarFns.fromUsize n = some k → ∃ δ, |δ| ≤ u ∧ val k = n * (1 + δ)

/-- The compressed buffer with every scalar converted. -/
def convSpec {G : Type} (f : F → G) {τ : BTy} : BSpec F τ → BSpec G τ
  | .raw b => .raw (Buf.map τ b f)
  | .full s x => .full s (f x)
  | .diagonal s x => .diagonal s (f x)

/-- The expression with every constant converted. -/
def conv {G : Type} (f : F → G) : Node F → Node G
  | .var i => .var i
  | .varAdj i t => .varAdj i t
  | .const τ b => .const τ (Buf.map τ b f)
  | .constSpec τ s => .constSpec τ (convSpec f s)
  | .constAdj n t => .constAdj (conv f n) t
  | .cached n i => .cached (conv f n) i
  | .add l r => .add (conv f l) (conv f r)
  | .sub l r => .sub (conv f l) (conv f r)
  | .mul l r => .mul (conv f l) (conv f r)
  | .div l r => .div (conv f l) (conv f r)
  | .power l r => .power (conv f l) (conv f r)
  | .contract k l r => .contract k (conv f l) (conv f r)
  | .sum n => .sum (conv f n)
  | .un op n => .un op (conv f n)

/-- The context with every scalar converted. -/
def convCtx {G : Type} {Γ : Id → BTy} (f : F → G) (c : Ctx F Γ) : Ctx G Γ := fun i =>
  (c i).map fun b => Buf.map (Γ i) b f

/-- The expression with all signs made positive: differences become sums, constants are replaced by
their absolute values. -/
noncomputable def positive (val : F → ℝ) : Node F → Node ℝ
  | .var i => .var i
  | .varAdj i t => .varAdj i t
  | .const τ b => .const τ (Buf.map τ b fun x => |val x|)
  | .constSpec τ s => .constSpec τ (convSpec (fun x => |val x|) s)
  | .constAdj n t => .constAdj (positive val n) t
  | .cached n i => .cached (positive val n) i
  | .add l r => .add (positive val l) (positive val r)
  | .sub l r => .add (positive val l) (positive val r)
  | .mul l r => .mul (positive val l) (positive val r)
  | .div l r => .div (positive val l) (positive val r)
  | .power l r => .power (positive val l) (positive val r)
  | .contract k l r => .contract k (positive val l) (positive val r)
  | .sum n => .sum (positive val n)
  | .un .subOne n => .un .addOne (positive val n)
  | .un .oneSub n => .un .addOne (positive val n)
  | .un .negate n => positive val n
  | .un .rabbit n => .mul (positive val n) (.un .addOne (positive val n))
  | .un op n => .un op (positive val n)

/-- Sums, differences, products and contractions of variables and constants, and their adjoints:
the expressions that only need ring operations. -/
def RingExpr : Node F → Prop
  | .var _ => True
  | .varAdj _ _ => True
  | .const _ _ => True
  | .constSpec _ _ => True
  | .constAdj n _ => RingExpr n
  | .cached _ _ => False
  | .add l r => RingExpr l ∧ RingExpr r
  | .sub l r => RingExpr l ∧ RingExpr r
  | .mul l r => RingExpr l ∧ RingExpr r
  | .div _ _ => False
  | .power _ _ => False
  | .contract _ l r => RingExpr l ∧ RingExpr r
  | .sum n => RingExpr n
  | .un op n => op ∈ [.subOne, .oneSub, .addOne, .square, .double, .negate, .rabbit] ∧ RingExpr n

/-- The extents of the value of an expression, when variable `i` has extents `D i`. -/
def extents (D : Id → Dims) : Node F → Dims
  | .var i => D i
  | .varAdj i t => D i ++ D t
  | .const τ b => Buf.dims τ b
  | .constSpec τ s => Shp.dims τ s.shape
  | .constAdj n t => extents D n ++ D t
  | .cached n _ => extents D n
  | .add l r => if extents D l = [] then extents D r else extents D l
  | .sub l r => if extents D l = [] then extents D r else extents D l
  | .mul l r => if extents D l = [] then extents D r else extents D l
  | .div l r => if extents D l = [] then extents D r else extents D l
  | .power _ _ => []
  | .contract k l r =>
      let k := if extents D l = [] ∧ extents D r = [] then 0 else k
      (extents D l).take ((extents D l).length - k) ++ (extents D r).drop k
  | .sum _ => []
  | .un _ n => extents D n

/-- The extents of the values stored in a context. -/
def ctxDims {Γ : Id → BTy} (c : Ctx F Γ) : Id → Dims := fun i =>
  match c i with
  | some b => Buf.dims (Γ i) b
  | none => []

/-- Sums, products and contractions of variables, their adjoints and non-negative constants: nothing
that could cancel. -/
def PositiveExpr (val : F → ℝ) : Node F → Prop
  | .var _ => True
  | .varAdj _ _ => True
  | .const τ b => ∀ ix x, Buf.getU τ b ix = some x → 0 ≤ val x
  | .constSpec τ (.raw b) => ∀ ix x, Buf.getU τ b ix = some x → 0 ≤ val x
  | .constSpec _ (.full _ x) => 0 ≤ val x
  | .constSpec _ (.diagonal _ x) => 0 ≤ val x
  | .constAdj n _ => PositiveExpr val n
  | .add l r => PositiveExpr val l ∧ PositiveExpr val r
  | .mul l r => PositiveExpr val l ∧ PositiveExpr val r
  | .contract _ l r => PositiveExpr val l ∧ PositiveExpr val r
  | .sum n => PositiveExpr val n
  | .un op n => op ∈ [.addOne, .square, .double] ∧ PositiveExpr val n
  | _ => False

/-- How many roundings an entry of the value accumulates at most: a factor collects those of its
operands and its own, a sum those of its worst term and one for every addition. -/
def roundings (D : Id → Dims) : Node F → ℕ
  | .add l r => max (roundings D l) (roundings D r) + 1
  | .sub l r => max (roundings D l) (roundings D r) + 1
  | .mul l r => roundings D l + roundings D r + 1
  | .contract k l r => roundings D l + roundings D r + ((extents D r).take k).prod + 3
  | .sum n => roundings D n + (extents D n).prod + 2
  | .un .subOne n => roundings D n + 1
  | .un .oneSub n => roundings D n + 1
  | .un .addOne n => roundings D n + 1
  | .un .double n => roundings D n + 2
  | .un .square n => 2 * roundings D n + 1
  | .un .negate n => roundings D n
  | .un .rabbit n => 2 * roundings D n + 2
  | _ => 0

end Aegir.Spec
