import Verif.Spec.Errors
/-!
# Vocabulary about error messages
-/

namespace Aegir.Spec

variable {F : Type}

/-- What went wrong, without the position in the expression. -/
inductive Cause where
  /-- an identifier without a value -/
  | missing (i : Id)
  /-- two dynamic shapes that do not fit together -/
  | clash (l r : Dims)
deriving DecidableEq, Repr

/-- The cause at the end of the tags of an error. -/
inductive CausedBy : EvalErr → Cause → Prop
  | undefined (i : Id) : CausedBy (.undefined i) (.missing i)
  | output (s : IncShapes) : CausedBy (.output s) (.clash s.left s.right)
  | left {e : EvalErr} {k : Cause} (h : CausedBy e k) : CausedBy (.left e) k
  | right {e : EvalErr} {k : Cause} (h : CausedBy e k) : CausedBy (.right e) k

/-- The identifiers that an expression without caches looks at, from left to right: for its value
(`true`) or for its shape only (`false`). The shape of a power or of a sum is known without looking
at the operands; a constant adjoint needs the shape of its node and then the target. -/
def reads : Bool → Node F → List Id
  | _, .var i => [i]
  | _, .varAdj i t => [i, t]
  | _, .const _ _ => []
  | _, .constSpec _ _ => []
  | _, .constAdj n t => reads false n ++ [t]
  | b, .cached n _ => reads b n
  | b, .add l r => reads b l ++ reads b r
  | b, .sub l r => reads b l ++ reads b r
  | b, .mul l r => reads b l ++ reads b r
  | b, .div l r => reads b l ++ reads b r
  | b, .contract _ l r => reads b l ++ reads b r
  | true, .power l r => reads true l ++ reads true r
  | false, .power _ _ => []
  | true, .sum n => reads true n
  | false, .sum _ => []
  | b, .un _ n => reads b n

/-- `i` is the first identifier of the list without a value in `c`. -/
def FirstMissing {Γ : Id → BTy} (c : Ctx F Γ) (ids : List Id) (i : Id) : Prop :=
  ∃ before after, ids = before ++ i :: after ∧ c i = none ∧ ∀ j ∈ before, c j ≠ none

end Aegir.Spec
