import Verif.Spec.Node
import Verif.Model.Eval
import Mathlib.Logic.Relation
/-!
# Occurrence of identifiers, histories of contexts
-/

namespace Aegir.Spec

variable {F : Type} {Γ : Id → BTy}

/-- `x` occurs in the expression: as a variable, as the target of an adjoint, or as the identifier
of a cache. -/
inductive Occurs : Node F → Id → Prop
  | var (i : Id) : Occurs (.var i) i
  | varAdjValue (i t : Id) : Occurs (.varAdj i t) i
  | varAdjTarget (i t : Id) : Occurs (.varAdj i t) t
  | constAdjTarget (n : Node F) (t : Id) : Occurs (.constAdj n t) t
  | cacheId (n : Node F) (i : Id) : Occurs (.cached n i) i
  | child {e e' : Node F} {x : Id} (hc : e' ∈ children e) (h : Occurs e' x) : Occurs e x

section
variable [Zero F] [One F] [Add F] [Sub F] [Mul F] [Div F] [Neg F] [ScalarFns F]

/-- One step in the life of a context: an evaluation of some expression by one of the three methods
(successful or not), or the assignment (`some`) or clearing (`none`) of an entry in `W`. -/
inductive Step (W : Id → Prop) : Ctx F Γ → Ctx F Γ → Prop
  | evaluate {e : Node F} {τ : BTy} (d : FnImpl Γ e τ) (c : Ctx F Γ) : Step W c (d.evaluate c).2
  | evaluateSpec {e : Node F} {τ : BTy} (d : FnImpl Γ e τ) (c : Ctx F Γ) :
      Step W c (d.evaluateSpec c).2
  | evaluateShape {e : Node F} {τ : BTy} (d : FnImpl Γ e τ) (c : Ctx F Γ) :
      Step W c (d.evaluateShape c).2
  | assign {c c' : Ctx F Γ} (j : Id) (hj : W j) (h : ∀ k, k ≠ j → c' k = c k) : Step W c c'

/-- Any number of steps. -/
def Steps (W : Id → Prop) : Ctx F Γ → Ctx F Γ → Prop := Relation.ReflTransGen (Step W)

end

end Aegir.Spec
