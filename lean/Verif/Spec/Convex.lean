import Verif.Spec.TotalDeriv
import Verif.Spec.Occurs
/-!
# Expressions that are convex by construction

Rules by which an expression is seen to be an affine, convex or concave function of some variables, from
the way it is put together (the rules of disciplined convex programming, without domains).
-/

namespace Aegir.Spec

/-- How a function bends. -/
inductive Curvature
  | affine
  | convex
  | concave

/-- The curvature of the function times minus one. -/
def Curvature.neg : Curvature → Curvature
  | .affine => .affine
  | .convex => .concave
  | .concave => .convex

/-- How the value of a function at a mean of points relates to the mean of its values at the points. -/
def Curvature.Rel : Curvature → ℝ → ℝ → Prop
  | .affine, a, b => a = b
  | .convex, a, b => a ≤ b
  | .concave, a, b => b ≤ a

/-- None of the variables in `T` occurs. -/
def Fixed (T : Id → Prop) (n : Node ℝ) : Prop := ∀ i, T i → ¬ Occurs n i

/-- A factor that preserves curvature: any, for affine functions, else one that is nowhere negative. -/
def Factor (ρ : Id → Tensor ℝ) (k : Curvature) (s : Node ℝ) : Prop :=
  k = .affine ∨ ∀ ix, 0 ≤ (den ρ s).val ix

/-- The expression is affine, convex or concave in the variables `T`, the others being as in `ρ`. -/
inductive Curved (ρ : Id → Tensor ℝ) (T : Id → Prop) : Curvature → Node ℝ → Prop
  | fixed {k : Curvature} {n : Node ℝ} (h : Fixed T n) : Curved ρ T k n
  | var {k : Curvature} (i : Id) : Curved ρ T k (.var i)
  | affine {k : Curvature} {n : Node ℝ} (h : Curved ρ T .affine n) : Curved ρ T k n
  | add {k : Curvature} {l r : Node ℝ} (hl : Curved ρ T k l) (hr : Curved ρ T k r) : Curved ρ T k (.add l r)
  | sub {k : Curvature} {l r : Node ℝ} (hl : Curved ρ T k l) (hr : Curved ρ T k.neg r) : Curved ρ T k (.sub l r)
  | shift {k : Curvature} {op : UnOp} {n : Node ℝ} (ho : op ∈ [.addOne, .subOne, .double]) (h : Curved ρ T k n) :
      Curved ρ T k (.un op n)
  | flip {k : Curvature} {op : UnOp} {n : Node ℝ} (ho : op ∈ [.oneSub, .negate]) (h : Curved ρ T k.neg n) :
      Curved ρ T k (.un op n)
  | mulL {k : Curvature} {l r : Node ℝ} (hl : Fixed T l) (hf : Factor ρ k l) (hr : Curved ρ T k r) :
      Curved ρ T k (.mul l r)
  | mulR {k : Curvature} {l r : Node ℝ} (hl : Curved ρ T k l) (hr : Fixed T r) (hf : Factor ρ k r) :
      Curved ρ T k (.mul l r)
  | div {k : Curvature} {l r : Node ℝ} (hl : Curved ρ T k l) (hr : Fixed T r) (hf : Factor ρ k r) :
      Curved ρ T k (.div l r)
  | contractL {k : Curvature} {m : Nat} {l r : Node ℝ} (hl : Fixed T l) (hf : Factor ρ k l) (hr : Curved ρ T k r) :
      Curved ρ T k (.contract m l r)
  | contractR {k : Curvature} {m : Nat} {l r : Node ℝ} (hl : Curved ρ T k l) (hr : Fixed T r) (hf : Factor ρ k r) :
      Curved ρ T k (.contract m l r)
  | sum {k : Curvature} {n : Node ℝ} (h : Curved ρ T k n) : Curved ρ T k (.sum n)
  | cup {op : UnOp} {n : Node ℝ} (ho : op ∈ [.square, .abs, .cosh]) (h : Curved ρ T .affine n) :
      Curved ρ T .convex (.un op n)
  | exp {n : Node ℝ} (h : Curved ρ T .convex n) : Curved ρ T .convex (.un .exp n)
  | lnSigmoid {n : Node ℝ} (h : Curved ρ T .affine n) : Curved ρ T .concave (.un .ln (.un .sigmoid n))
  | lnOneSub {n : Node ℝ} (h : Curved ρ T .affine n) :
      Curved ρ T .concave (.un .ln (.un .oneSub (.un .sigmoid n)))
  /-- the logarithm of the likelihood of a label, zero or one, as in `examples/logistic.rs` -/
  | likelihood {n y : Node ℝ} (h : Curved ρ T .affine n) (hy : Fixed T y)
      (h01 : ∀ ix, (den ρ y).val ix = 0 ∨ (den ρ y).val ix = 1) :
      Curved ρ T .concave (.un .ln (.add (.mul (.un .sigmoid n) y)
        (.mul (.un .oneSub (.un .sigmoid n)) (.un .oneSub y))))

end Aegir.Spec
