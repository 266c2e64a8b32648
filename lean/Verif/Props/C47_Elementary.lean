import Verif.Spec.Elementary
import Verif.Props.C45_Special
/-!
# C47: elementary functions
-/

namespace Aegir

open Spec

/-- The logarithmic, exponential, trigonometric, hyperbolic, inverse and gamma operators compute the
functions they are named after, entrywise. -/
theorem C47_named {op : UnOp} {f : ℝ → ℝ} (h : Named op f) (n : Node ℝ) : Maps f n (.un op n) := by
  have : f = op.apply := by cases h <;> rfl
  rw [this]
  exact C45_entrywise op n

/-- Over any scalar type, `Dirac` is infinite at zero and zero elsewhere. -/
theorem C47_dirac {F : Type} [Zero F] [One F] [Add F] [Sub F] [Mul F] [Div F] [Neg F]
    [ScalarFns F] (n : Node F) : ∃ f : F → F, Maps f n (.un .dirac n) ∧ ∀ x : F,
      (ScalarFns.eqb x 0 = true → f x = ScalarFns.infinity) ∧
      (ScalarFns.eqb x 0 = false → f x = 0) :=
  ⟨_, C45_entrywise .dirac n, fun x => ⟨fun h => by simp [UnOp.apply, h],
    fun h => by simp [UnOp.apply, h]⟩⟩

/-- Over any scalar type, `Sign` returns zeros unchanged and otherwise the primitive sign. -/
theorem C47_sign {F : Type} [Zero F] [One F] [Add F] [Sub F] [Mul F] [Div F] [Neg F]
    [ScalarFns F] (n : Node F) : ∃ f : F → F, Maps f n (.un .sign n) ∧ ∀ x : F,
      (ScalarFns.isZero x = true → f x = x) ∧
      (ScalarFns.isZero x = false → f x = ScalarFns.signum x) :=
  ⟨_, C45_entrywise .sign n, fun x => ⟨fun h => by simp [UnOp.apply, h],
    fun h => by simp [UnOp.apply, h]⟩⟩

private theorem inverse_apply {g f : UnOp} {s : Set ℝ} (h : Inverse g f s) {x : ℝ} (hx : x ∈ s) :
    g.apply (f.apply x) = x := by
  cases h with
  | ln => exact Real.log_exp x
  | exp => exact Real.exp_log hx
  | sin => exact Real.sin_arcsin hx.1 hx.2
  | asin => exact Real.arcsin_sin hx.1 hx.2
  | cos => exact Real.cos_arccos hx.1 hx.2
  | acos => exact Real.arccos_cos hx.1 hx.2
  | tan => exact Real.tan_arctan x
  | atan => exact Real.arctan_tan hx.1 hx.2
  | sinh => exact Real.sinh_arsinh x
  | asinh => exact Real.arsinh_sinh x
  | cosh => exact Real.cosh_arcosh hx
  | acosh => exact Real.arcosh_cosh hx
  | tanh => exact Real.tanh_artanh hx
  | atanh => exact Real.artanh_tanh x
  | negate => exact neg_neg x
  | oneSub => exact sub_sub_cancel 1 x
  | addOne => exact sub_add_cancel x 1
  | subOne => exact add_sub_cancel_right x 1

/-- Inverse operators cancel: if all entries of the value of `n` lie in the domain, `g(f(n))`
evaluates to the value of `n`. -/
theorem C47_inverse {g f : UnOp} {s : Set ℝ} (h : Inverse g f s) {n : Node ℝ} {Γ : Id → BTy}
    {τ : BTy} (d : FnImpl Γ (.un g (.un f n)) τ) (c : Ctx ℝ Γ) (b : Buf ℝ τ)
    (hb : (d.evaluate c).1 = .ok b) : ∃ (dn : FnImpl Γ n τ) (bn : Buf ℝ τ),
      (dn.evaluate c).1 = .ok bn ∧
        ((∀ ix x, Buf.getU τ bn ix = some x → x ∈ s) → b = bn) := by
  obtain ⟨dn, bn, hn, hs, hi⟩ :=
    C45_entry (C45_compose (C45_entrywise f n) (C45_entrywise g _)) d c b hb
  refine ⟨dn, bn, hn, fun hd => Buf.ext τ b bn hs fun ix _ => ?_⟩
  rw [hi]
  cases hx : Buf.getU τ bn ix with
  | none => rfl
  | some x =>
    show some _ = _
    rw [Function.comp, inverse_apply h (hd ix x hx)]

/-- `ln (exp x)` for the vector `(2, 0, -1)`. -/
example : ∃ (d : FnImpl (fun _ => .vec) (.un .ln (.un .exp (.var 0))) .vec) (b : List ℝ),
    (d.evaluate (fun _ => some ([2, 0, -1] : List ℝ))).1 = .ok b ∧ Inverse .ln .exp Set.univ :=
  ⟨.un .ln (.un .exp (.var (Γ := fun _ => .vec) 0)), _, rfl, .ln⟩

end Aegir
