import Verif.Spec.Caching
/-!
# Substitution
-/

namespace Aegir.Spec

variable {F : Type}

/-- `e` with the variable `i` replaced by the expression `n`. -/
def subst (i : Id) (n : Node F) : Node F → Node F
  | .var j => if j = i then n else .var j
  | .varAdj j t => .varAdj j t
  | .const τ b => .const τ b
  | .constSpec τ s => .constSpec τ s
  | .constAdj m t => .constAdj m t
  | .cached m j => .cached (subst i n m) j
  | .add l r => .add (subst i n l) (subst i n r)
  | .sub l r => .sub (subst i n l) (subst i n r)
  | .mul l r => .mul (subst i n l) (subst i n r)
  | .div l r => .div (subst i n l) (subst i n r)
  | .power l r => .power (subst i n l) (subst i n r)
  | .contract k l r => .contract k (subst i n l) (subst i n r)
  | .sum m => .sum (subst i n m)
  | .un op m => .un op (subst i n m)

/-- `i` is not mentioned by adjoints in `e`: only variables `i` depend on it. -/
def Plain (i : Id) : Node F → Prop
  | .var _ | .const _ _ | .constSpec _ _ => True
  | .varAdj j t => j ≠ i ∧ t ≠ i
  | .constAdj m t => m.contains i = false ∧ t ≠ i
  | .cached m j => Plain i m ∧ j ≠ i
  | .add l r | .sub l r | .mul l r | .div l r | .power l r | .contract _ l r => Plain i l ∧ Plain i r
  | .sum m | .un _ m => Plain i m

end Aegir.Spec
