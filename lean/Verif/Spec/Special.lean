import Verif.Model.Eval
/-!
# Entrywise operators
-/

namespace Aegir.Spec

variable {F : Type} [Zero F] [One F] [Add F] [Sub F] [Mul F] [Div F] [Neg F] [ScalarFns F]

/-- `b` has the shape of `a`, and its entries are the images of those of `a`. -/
def Image (f : F → F) {τ : BTy} (a b : Buf F τ) : Prop :=
  Buf.shape τ b = Buf.shape τ a ∧ ∀ ix, Buf.getU τ b ix = (Buf.getU τ a ix).map f

/-- Same outcome, up to an image of the value. -/
def ImageRes (f : F → F) {τ : BTy} : Res EvalErr (Buf F τ) → Res EvalErr (Buf F τ) → Prop
  | .ok a, .ok b => Image f a b
  | .err e, .err e' => e = e'
  | .panic, .panic => True
  | _, _ => False

/-- `e` applies `f` to every entry of `n`, whatever the buffer type and context, by `evaluate` and by
`evaluate_spec`; it can be evaluated wherever `n` can, fails as `n` does, has the shape of `n` and the
same effect on the context. -/
def Maps (f : F → F) (n e : Node F) : Prop :=
  ∀ (Γ : Id → BTy) (τ : BTy), (Nonempty (FnImpl Γ e τ) ↔ Nonempty (FnImpl Γ n τ)) ∧
    ∀ (d : FnImpl Γ e τ), ∃ dn : FnImpl Γ n τ, ∀ c : Ctx F Γ,
      (ImageRes f (dn.evaluate c).1 (d.evaluate c).1 ∧ (d.evaluate c).2 = (dn.evaluate c).2) ∧
      (ImageRes f ((dn.evaluateSpec c).1.map BSpec.unwrap) ((d.evaluateSpec c).1.map BSpec.unwrap) ∧
        (d.evaluateSpec c).2 = (dn.evaluateSpec c).2) ∧
      d.evaluateShape c = dn.evaluateShape c

end Aegir.Spec
