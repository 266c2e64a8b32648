import Verif.Spec.Node
/-!
# Which expressions can be differentiated once, and twice
-/

namespace Aegir.Spec

variable {F : Type}

/-- The unary operators with a derivative rule. -/
def ruleOps : List UnOp :=
  [.subOne, .oneSub, .addOne, .square, .double, .negate, .sign, .abs, .ln, .xlnx, .exp, .rabbit,
    .sigmoid, .gamma, .logGamma, .cos, .sin]

/-- Of those, the ones whose derivative uses only operators with a derivative rule (the derivative
of `sign` is a Dirac impulse, those of `gamma` and `logGamma` use the digamma function). -/
def twiceOps : List UnOp :=
  [.subOne, .oneSub, .addOne, .square, .double, .negate, .abs, .ln, .xlnx, .exp, .rabbit, .sigmoid,
    .cos, .sin]

/-- Everything in `e` has a derivative rule for the target `t`. -/
def Once (t : Id) (e : Node F) : Prop :=
  (∀ τ s, ¬ SubExpr (.constSpec τ s) e) ∧ (∀ n i, ¬ SubExpr (.constAdj n i) e) ∧
    (∀ n i, SubExpr (.cached n i) e → t = i) ∧ ∀ op n, SubExpr (.un op n) e → op ∈ ruleOps

/-- Only variables at the leaves, and operators that can be differentiated twice. -/
def Twice (e : Node F) : Prop :=
  (∀ τ b, ¬ SubExpr (.const τ b) e) ∧ (∀ i j, ¬ SubExpr (.varAdj i j) e) ∧
    ∀ op n, SubExpr (.un op n) e → op ∈ twiceOps

end Aegir.Spec
