import Verif.Spec.Ieee
/-!
# Where the operators are defined in floating-point arithmetic
-/

namespace Aegir.Spec.Fp
variable {p q E : ℕ}

/-- The arguments at which an operator has a value, or a limit; NaN only for the operator that compares its
argument with zero. -/
def Defined (op : UnOp) : Fp p q E → Prop
  | num x _ =>
    match op with
    | .ln => 0 ≤ x
    | .acos | .asin | .atanh => |x| ≤ 1
    | .acosh => 1 ≤ x
    | .gamma | .digamma | .logGamma => NoPole x
    | _ => True
  | inf s =>
    match op with
    | .ln | .acosh | .gamma | .digamma => s = false
    | .cos | .sin | .tan | .acos | .asin | .atanh => False
    | _ => True
  | nan => op = .dirac

end Aegir.Spec.Fp
