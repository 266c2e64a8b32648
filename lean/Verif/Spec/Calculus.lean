import Verif.Spec.Tensor
import Verif.Spec.Occurs
import Verif.Spec.Real
/-!
# Where and when adjoints are expected to be derivatives
-/

namespace Aegir.Spec

/-- The environment in which entry `k` of variable `t` is `s` and everything else is as in `ρ`. -/
def perturb {F : Type} (ρ : Id → Tensor F) (t : Id) (k : Idx) (s : F) : Id → Tensor F := fun i =>
  if i = t then ⟨(ρ t).dims, fun ix => if ix = k then s else (ρ t).val ix⟩ else ρ i

/-- The buffer `b` with entry `k` replaced by `s`. -/
def setEntry {F : Type} [Zero F] {τ : BTy} (b : Buf F τ) (k : Idx) (s : F) : Buf F τ :=
  Buf.build τ (Buf.shape τ b) fun ix => if ix = k then s else (Buf.getU τ b ix).getD 0

/-- Entry `ix` of the value of `d`, as a function of entry `k` of the variable `t` that has the
value `b` in the context `c` (junk value `0` if evaluation fails or `ix` is out of bounds). -/
noncomputable def along {Γ : Id → BTy} {e : Node ℝ} {τ : BTy} (d : FnImpl Γ e τ) (c : Ctx ℝ Γ)
    (t : Id) (b : Buf ℝ (Γ t)) (k ix : Idx) (s : ℝ) : ℝ :=
  match (d.evaluate (c.write t (setEntry b k s))).1 with
  | .ok v => (Buf.getU τ v ix).getD 0
  | _ => 0

/-- All variables and constants are scalars or vectors of length `n`, as in a linear model with `n`
weights. -/
def VectorModel {F : Type} (Γ : Id → BTy) (n : Nat) (e : Node F) : Prop :=
  (∀ i, SubExpr (.var i) e → Γ i = .scalar ∨ Γ i = .array [n]) ∧
    (∀ τ b, SubExpr (.const τ b) e → τ = .scalar ∨ τ = .array [n]) ∧
    ∀ i j, ¬ SubExpr (.varAdj i j) e

/-- Points at which a unary operator is differentiable (as a real function, with the usual
domain). -/
def UnOp.SmoothAt : UnOp → ℝ → Prop
  | .sign, x => x ≠ 0
  | .abs, x => x ≠ 0
  | .ln, x => 0 < x
  | .xlnx, x => 0 < x
  | .gamma, x => ∀ m : ℕ, x ≠ -m
  | .logGamma, x => ∀ m : ℕ, x ≠ -m
  | _, _ => True

/-- Sums, differences, multiples and shifts of variables, their adjoints, and constants; the factor of
a multiple is a scalar expression in which the target `t` does not occur. -/
inductive Affine {F : Type} [CommRing F] [Div F] [ScalarFns F] (ρ : Id → Tensor F) (t : Id) :
    Node F → Prop
  | var (i : Id) : Affine ρ t (.var i)
  | varAdj (i j : Id) : Affine ρ t (.varAdj i j)
  | const (τ : BTy) (b : Buf F τ) : Affine ρ t (.const τ b)
  | add {l r : Node F} (hl : Affine ρ t l) (hr : Affine ρ t r) : Affine ρ t (.add l r)
  | sub {l r : Node F} (hl : Affine ρ t l) (hr : Affine ρ t r) : Affine ρ t (.sub l r)
  | un {op : UnOp} {n : Node F} (h : op ∈ [.subOne, .oneSub, .addOne, .double, .negate])
      (hn : Affine ρ t n) : Affine ρ t (.un op n)
  | scaleR {l s : Node F} (hl : Affine ρ t l) (hs : ¬ Occurs s t) (hd : (den ρ s).dims = []) :
      Affine ρ t (.contract 0 l s)
  | scaleL {s r : Node F} (hs : ¬ Occurs s t) (hd : (den ρ s).dims = []) (hr : Affine ρ t r) :
      Affine ρ t (.contract 0 s r)

/-- Conditions, node by node, for the adjoint of `e` with respect to `t` to be its derivative at
`ρ`: operators are applied where they are differentiable; a sum is over a single entry (C31); the
factors of a contraction are contracted over the right axes, that is, the target is a scalar, or the
right factor of a tensor product is a scalar or the left one does not mention the target (C32), or it
is the dot product of vectors of the target's length with an affine left factor. A `Power` either has
a positive base, or a natural number as exponent that does not depend on the target; then the base
may be anything but a compressed zero to the power one (C19). -/
def Smooth (ρ : Id → Tensor ℝ) (t : Id) : Node ℝ → Prop
  | .var _ => True
  | .varAdj _ _ => True
  | .const _ _ => True
  | .constSpec _ _ => True
  | .constAdj n _ => Smooth ρ t n
  | .cached n _ => Smooth ρ t n
  | .add l r => Smooth ρ t l ∧ Smooth ρ t r
  | .sub l r => Smooth ρ t l ∧ Smooth ρ t r
  | .mul l r => Smooth ρ t l ∧ Smooth ρ t r
  | .div l r => Smooth ρ t l ∧ Smooth ρ t r ∧
      ∀ ix, InBounds (den ρ r).dims ix → (den ρ r).val ix ≠ 0
  | .power l r => Smooth ρ t l ∧ Smooth ρ t r ∧
      (0 < (den ρ l).val [] ∨
        ¬ Occurs r t ∧ ∃ n : ℕ, 1 ≤ n ∧ (den ρ r).val [] = n ∧
          (EvalExplicit l ∨ (den ρ l).val [] ≠ 0 ∨ 2 ≤ n))
  | .contract k l r => Smooth ρ t l ∧ Smooth ρ t r ∧
      ((ρ t).dims = [] ∨ k = 0 ∧ (den ρ r).dims = [] ∨ k = 0 ∧ ¬ Occurs l t ∨
        k = 1 ∧ (∃ n, (ρ t).dims = [n] ∧ (den ρ l).dims = [n] ∧ (den ρ r).dims = [n]) ∧
          Affine ρ t l)
  | .sum n => Smooth ρ t n ∧ (den ρ n).dims = []
  | .un op n => Smooth ρ t n ∧
      ∀ ix, InBounds (den ρ n).dims ix → UnOp.SmoothAt op ((den ρ n).val ix)

end Aegir.Spec
