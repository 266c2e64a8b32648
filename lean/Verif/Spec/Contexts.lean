import Verif.Model.EvalIn
import Verif.Spec.Node
/-!
# Lawful context types
-/

namespace Aegir.Spec

variable {F : Type} {Γ : Id → BTy} {σ : Type}

/-- What the documentation of `Read` and `Write` asks of a context type: the three ways of reading
agree, and after a write to an identifier in `W` exactly that identifier reads differently, namely
as the value written. -/
structure LawfulCtx (I : CtxImpl F Γ σ) (W : Id → Prop) : Prop where
  spec : ∀ s i, I.readSpec s i = (I.read s i).map .raw
  shape : ∀ s i, I.readShape s i = (I.read s i).map (Buf.shape _)
  same : ∀ s i v, W i → I.read (I.write s i v) i = some v
  other : ∀ s i v j, W i → j ≠ i → I.read (I.write s i v) j = I.read s j

end Aegir.Spec
