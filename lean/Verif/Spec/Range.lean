import Verif.Spec.Rounding
/-!
# Arithmetic of limited range

What IEEE operations promise, including overflow, underflow and NaNs, and the intermediate results of
an expression whose size matters. Nothing here refers to how expressions are evaluated.
-/

namespace Aegir.Spec

variable {F : Type}

/-- The model of IEEE arithmetic: `fin x` says that `x` is a number rather than an infinity or a NaN,
and `val x` is the number it stands for. Every operation rounds with a relative error of at most `u`,
except that products smaller than `lo`, the smallest normal number, are only accurate to `u * lo`.
Results of absolute value at most `hi` do not overflow, and once there is an infinity or a NaN it
does not go away. `powf(x, 2)` is assumed to be as accurate as a product. -/
structure Ranged [Zero F] [One F] [Add F] [Sub F] [Mul F] [Neg F] [ScalarFns F] (val : F → ℝ)
    (fin : F → Prop) (u lo hi : ℝ) : Prop where
  nonneg : 0 ≤ u
  two_le : 2 ≤ hi
  zero : fin 0 ∧ val 0 = 0
  one : fin 1 ∧ val 1 = 1
  isZero : ∀ x, ScalarFns.isZero x = true → fin x ∧ val x = 0
  neg : ∀ x, (fin (-x) ↔ fin x) ∧ (fin x → val (-x) = -val x)
  add : ∀ x y, fin (x + y) →
    fin x ∧ fin y ∧ |val (x + y) - (val x + val y)| ≤ u * |val x + val y|
  add_fin : ∀ x y, fin x → fin y → |val x + val y| ≤ hi → fin (x + y)
  sub : ∀ x y, fin (x - y) →
    fin x ∧ fin y ∧ |val (x - y) - (val x - val y)| ≤ u * |val x - val y|
  sub_fin : ∀ x y, fin x → fin y → |val x - val y| ≤ hi → fin (x - y)
  mul : ∀ x y, fin (x * y) → fin x ∧ fin y ∧
    |val (x * y) - val x * val y| ≤ u * max |val x * val y| lo ∧ (val x * val y = 0 → val (x * y) = 0)
  mul_fin : ∀ x y, fin x → fin y → |val x * val y| ≤ hi → fin (x * y)
  square : ∀ x, fin (ScalarFns.pow x (1 + 1)) → fin x ∧
    |val (ScalarFns.pow x (1 + 1)) - val x ^ 2| ≤ u * max (val x ^ 2) lo ∧
    (val x = 0 → val (ScalarFns.pow x (1 + 1)) = 0)
  square_fin : ∀ x, fin x → val x ^ 2 ≤ hi → fin (ScalarFns.pow x (1 + 1))
  fromUsize : ∀ n k, ScalarFns.fromUsize n = some k → fin k ∧ ∃ δ, |δ| ≤ u ∧ val k = n * (1 + δ)

/-- The size of a number, counting those smaller than `θ` as `θ`. -/
noncomputable def atLeast (θ : ℝ) (val : F → ℝ) : F → ℝ := fun x => max θ |val x|

/-- A result of magnitude `m` after `k` roundings neither overflows nor gets lost by underflow, in an
expression whose variables and constants count as at least `θ`. -/
def inRange (u lo hi θ : ℝ) (k : ℕ) (m : ℝ) : Prop := lo ≤ θ ^ (k + 1) ∧ m ≤ hi / (1 + u) ^ k

/-- All entries of the tensor satisfy `P`. -/
def Tensor.Every (T : Tensor ℝ) (P : ℝ → Prop) : Prop := ∀ ix, InBounds T.dims ix → P (T.val ix)

/-- The constants satisfy `Q`, and every intermediate result satisfies `R`, given the roundings it
went through and its magnitude: what is computed when all signs are made positive. When a contraction
has two constant operands, the code first multiplies the number of terms by the entry of the first.
Unless `lax`, no sum may be empty. -/
def Ranges (Q : F → Prop) (R : ℕ → ℝ → Prop) (lax : Prop) (D : Id → Dims) (σ : Id → Tensor ℝ)
    (wt : F → ℝ) : Node F → Prop
  | .var _ => True
  | .varAdj _ _ => True
  | .const τ b => ∀ ix x, Buf.getU τ b ix = some x → Q x
  | .constSpec τ (.raw b) => ∀ ix x, Buf.getU τ b ix = some x → Q x
  | .constSpec _ (.full _ x) => Q x
  | .constSpec _ (.diagonal _ x) => Q x
  | .constAdj n _ => Ranges Q R lax D σ wt n
  | .add l r => Ranges Q R lax D σ wt l ∧ Ranges Q R lax D σ wt r ∧
      (den σ (positive wt (.add l r))).Every (R (roundings D (.add l r)))
  | .sub l r => Ranges Q R lax D σ wt l ∧ Ranges Q R lax D σ wt r ∧
      (den σ (positive wt (.sub l r))).Every (R (roundings D (.sub l r)))
  | .mul l r => Ranges Q R lax D σ wt l ∧ Ranges Q R lax D σ wt r ∧
      (den σ (positive wt (.mul l r))).Every (R (roundings D (.mul l r)))
  | .contract k l r => Ranges Q R lax D σ wt l ∧ Ranges Q R lax D σ wt r ∧
      (den σ (positive wt (.contract k l r))).Every (R (roundings D (.contract k l r))) ∧
      (Tensor.contract (if (den σ (positive wt l)).dims = [] ∧ (den σ (positive wt r)).dims = []
          then 0 else k) (den σ (positive wt l)) ((den σ (positive wt r)).map fun _ => 1)).Every
        (R (roundings D l + 2)) ∧
      (((extents D r).take k).prod ≠ 0 ∨ lax)
  | .sum n => Ranges Q R lax D σ wt n ∧
      (den σ (positive wt (.sum n))).Every (R (roundings D (.sum n))) ∧
      ((extents D n).prod ≠ 0 ∨ lax)
  | .un .negate n => Ranges Q R lax D σ wt n
  | .un .rabbit n => Ranges Q R lax D σ wt n ∧
      (den σ (positive wt (.un .oneSub n))).Every (R (roundings D (.un .oneSub n))) ∧
      (den σ (positive wt (.un .rabbit n))).Every (R (roundings D (.un .rabbit n)))
  | .un op n => Ranges Q R lax D σ wt n ∧
      (den σ (positive wt (.un op n))).Every (R (roundings D (.un op n)))
  | _ => False

/-- All constants of the expression satisfy `P`. -/
def ConstsAll (P : F → Prop) : Node F → Prop
  | .var _ => True
  | .varAdj _ _ => True
  | .const τ b => ∀ ix x, Buf.getU τ b ix = some x → P x
  | .constSpec τ (.raw b) => ∀ ix x, Buf.getU τ b ix = some x → P x
  | .constSpec _ (.full _ x) => P x
  | .constSpec _ (.diagonal _ x) => P x
  | .constAdj n _ => ConstsAll P n
  | .cached n _ => ConstsAll P n
  | .add l r => ConstsAll P l ∧ ConstsAll P r
  | .sub l r => ConstsAll P l ∧ ConstsAll P r
  | .mul l r => ConstsAll P l ∧ ConstsAll P r
  | .div l r => ConstsAll P l ∧ ConstsAll P r
  | .power l r => ConstsAll P l ∧ ConstsAll P r
  | .contract _ l r => ConstsAll P l ∧ ConstsAll P r
  | .sum n => ConstsAll P n
  | .un _ n => ConstsAll P n

/-- No sum of the expression is empty, when variable `i` has extents `D i`. -/
def NonemptySums (D : Id → Dims) : Node F → Prop
  | .var _ => True
  | .varAdj _ _ => True
  | .const _ _ => True
  | .constSpec _ _ => True
  | .constAdj n _ => NonemptySums D n
  | .cached n _ => NonemptySums D n
  | .add l r => NonemptySums D l ∧ NonemptySums D r
  | .sub l r => NonemptySums D l ∧ NonemptySums D r
  | .mul l r => NonemptySums D l ∧ NonemptySums D r
  | .div l r => NonemptySums D l ∧ NonemptySums D r
  | .power l r => NonemptySums D l ∧ NonemptySums D r
  | .contract k l r => NonemptySums D l ∧ NonemptySums D r ∧ ((extents D r).take k).prod ≠ 0
  | .sum n => NonemptySums D n ∧ (extents D n).prod ≠ 0
  | .un _ n => NonemptySums D n

/-- All entries of the context satisfy `P`. -/
def CtxAll {Γ : Id → BTy} (P : F → Prop) (c : Ctx F Γ) : Prop :=
  ∀ i b, c i = some b → ∀ ix x, Buf.getU _ b ix = some x → P x

end Aegir.Spec
