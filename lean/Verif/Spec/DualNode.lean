import Verif.Spec.Dual
import Verif.Model.Node
/-!
# Programs over dual numbers as expressions
-/

namespace Aegir.Spec

variable {F : Type}

/-- The expression with the same operations. Plain values become constants. -/
def Prog.node : Prog Id F → Node F
  | .input i => .var i
  | .const v => .const .scalar v
  | .neg p => .un .negate p.node
  | .add p q | .addRef p q => .add p.node q.node
  | .addV p v | .addRefV p v => .add p.node (.const .scalar v)
  | .sub p q | .subRef p q => .sub p.node q.node
  | .subV p v | .subRefV p v => .sub p.node (.const .scalar v)
  | .mul p q | .mulRef p q => .mul p.node q.node

/-- The inputs that the program uses. -/
def Prog.Uses {ι : Type} : Prog ι F → ι → Prop
  | .input j, i => j = i
  | .const _, _ => False
  | .neg p, i | .addV p _, i | .addRefV p _, i | .subV p _, i | .subRefV p _, i => p.Uses i
  | .add p q, i | .addRef p q, i | .sub p q, i | .subRef p q, i | .mul p q, i | .mulRef p q, i =>
      p.Uses i ∨ q.Uses i

end Aegir.Spec
