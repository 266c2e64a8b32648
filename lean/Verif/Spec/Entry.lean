import Verif.Spec.TotalDeriv
/-!
# Entries of values
-/

namespace Aegir.Spec

/-- Entry `ix` of the value of `d` in the context `c` is `q`. -/
def HasEntry {Γ : Id → BTy} {e : Node ℝ} {τ : BTy} (d : FnImpl Γ e τ) (c : Ctx ℝ Γ) (ix : Idx) (q : ℝ) : Prop :=
  ∃ w, (d.evaluate c).1 = .ok w ∧ Buf.getU τ w ix = some q

end Aegir.Spec
