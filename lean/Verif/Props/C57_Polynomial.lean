import Verif.Lemmas.Polynomial
import Verif.Lemmas.Symbolic
import Verif.Spec.Instances
import Verif.Props.C19_Tensor
import Verif.Props.C20_C22_Errors
import Verif.Props.C37_C38_Rendering
import Mathlib.Data.ZMod.Basic
/-!
# C57: over any commutative ring the adjoint of a polynomial expression is its formal derivative
-/

namespace Aegir.Props

open Spec MvPolynomial

section
variable {F : Type} [CommRing F] [Div F] [ScalarFns F] [LawfulScalar F] [LawfulPow F]
  [LawfulSquare F] {e e' : Node F} {p : MvPolynomial Id F} {t : Id}

/-- The value of each variable (zero for those without value). -/
def point (c : Ctx F allScalars) : Id → F := fun i => (c i).getD (0 : F)

/-- A polynomial expression is a function on scalar contexts, and evaluates without error to the value
of the polynomial as soon as its variables have values. -/
theorem C57_value (h : IsPoly e p) :
    Nonempty (FnImpl allScalars e .scalar) ∧ ∀ (d : FnImpl allScalars e .scalar)
      (c : Ctx F allScalars), (∀ i, NeedsId e i → c i ≠ none) →
        (d.evaluate c).1 = .ok (eval (point c) p) := by
  refine ⟨h.typed, fun d c hc => ?_⟩
  obtain ⟨⟨v, c', hv⟩, -⟩ := C21_total_partial (by simp [LawfulScalar.fromUsize_eq]) d h.fixedSize
    (h.regular d).2.inRange c hc
  have ht := C19_value_cache_free_partial d h.cacheFree c (h.powSafe _) (h.regular d).2 v (by rw [hv])
  have hd := h.den (ρ := envOf c) (by intro i; simp only [envOf]; cases c i <;> rfl)
  have hx : (fun i => ((envOf c) i).val []) = point c := by
    funext i
    simp only [envOf, point]
    cases c i <;> rfl
  rw [hx] at hd
  rw [hv, ← hd.2, (IsTensor.scalar_val ht).2]

omit [Div F] [ScalarFns F] [LawfulScalar F] [LawfulPow F] [LawfulSquare F] in
/-- Differentiation gives an expression for the formal partial derivative; it is defined as long as
the expression does not itself contain the adjoint of a constant. -/
theorem C57_derivative (h : IsPoly e p) :
    (ConstAdjFree e → ∃ e', e.adjoint t = some e') ∧
      ∀ e', e.adjoint t = some e' → IsPoly e' (pderiv t p) :=
  ⟨fun hf => h.adjoint_exists hf t, fun _ ha => h.adjoint ha⟩

/-- Evaluating the adjoint gives the value of the formal partial derivative. -/
theorem C57_gradient (h : IsPoly e p) (ha : e.adjoint t = some e') (d : FnImpl allScalars e' .scalar)
    (c : Ctx F allScalars) (hc : ∀ i, NeedsId e i ∨ i = t → c i ≠ none) :
    (d.evaluate c).1 = .ok (eval (point c) (pderiv t p)) :=
  (C57_value (h.adjoint ha)).2 d c fun i hi => hc i (adjoint_needs ha hi)

/-- In terms of values alone: if the target moves by `δ` then the value moves by `δ` times the
evaluated adjoint, up to a multiple of `δ²`. -/
theorem C57_increment (h : IsPoly e p) (ha : e.adjoint t = some e')
    (d : FnImpl allScalars e .scalar) (da : FnImpl allScalars e' .scalar) (c : Ctx F allScalars) {b : F}
    (hb : c t = some b) (hc : ∀ i, NeedsId e i → c i ≠ none) (δ : F) :
    ∃ v v' g k : F, (d.evaluate c).1 = .ok v ∧ (d.evaluate (c.write t (b + δ : F))).1 = .ok v' ∧
      (da.evaluate c).1 = .ok g ∧ v' = v + δ * g + δ * δ * k := by
  obtain ⟨k, hk⟩ := eval_increment (point c) t δ p
  have hpt : point c t = b := by simp only [point, hb]; rfl
  refine ⟨_, _, _, k, (C57_value h).2 d c hc, (C57_value h).2 d _ fun i hi => ?_,
    C57_gradient h ha da c fun i hi => ?_, ?_⟩
  · by_cases hit : i = t
    · subst hit; simp [Ctx.write]
    · simpa [Ctx.write, hit] using hc i hi
  · rcases hi with hi | rfl
    · exact hc i hi
    · simp [hb]
  · rw [← hk]
    congr 2
    funext i
    by_cases hit : i = t
    · subst hit
      simp only [Function.update_self, hpt]
      simp [point, Ctx.write]
    · simp [point, Ctx.write, hit]

/-- Expressions for the same polynomial have the same value and the same derivatives: the syntax
does not matter. -/
theorem C57_extensional {f f' : Node F} (h : IsPoly e p) (h' : IsPoly f p)
    (ha : e.adjoint t = some e') (ha' : f.adjoint t = some f') (d : FnImpl allScalars e' .scalar)
    (d' : FnImpl allScalars f' .scalar) (c : Ctx F allScalars)
    (hc : ∀ i, NeedsId e i ∨ NeedsId f i ∨ i = t → c i ≠ none) :
    (d.evaluate c).1 = (d'.evaluate c).1 := by
  rw [C57_gradient h ha d c fun i hi => hc i (by tauto),
    C57_gradient h' ha' d' c fun i hi => hc i (by tauto)]

/-- Second derivatives may be taken in either order. -/
theorem C57_symmetric {s : Id} {u v u' v' : Node F} (h : IsPoly e p) (hu : e.adjoint s = some u)
    (hu' : u.adjoint t = some u') (hv : e.adjoint t = some v) (hv' : v.adjoint s = some v')
    (d : FnImpl allScalars u' .scalar) (d' : FnImpl allScalars v' .scalar) (c : Ctx F allScalars)
    (hc : ∀ i, NeedsId e i ∨ i = s ∨ i = t → c i ≠ none) :
    (d.evaluate c).1 = (d'.evaluate c).1 := by
  rw [C57_gradient (h.adjoint hu) hu' d c fun i hi => hc i ?_,
    C57_gradient (h.adjoint hv) hv' d' c fun i hi => hc i ?_, pderiv_comm]
  · rcases hi with hi | rfl
    · have := adjoint_needs hv hi; tauto
    · tauto
  · rcases hi with hi | rfl
    · have := adjoint_needs hu hi; tauto
    · tauto

end

/-! ### Concrete cases -/

instance : LawfulSquare ℤ where
  sq x := by simp [ScalarFns.pow, pow_two]

noncomputable instance : LawfulSquare ℝ where
  sq x := by
    show x ^ ((1 : ℝ) + 1) = x * x
    rw [one_add_one_eq_two, Real.rpow_two, pow_two]

/-- `(x · y) + (x + 1)²` -/
def polyExpr : Node ℤ := .add (.mul (.var 0) (.var 1)) (.un .square (.un .addOne (.var 0)))

/-- Its polynomial. -/
theorem polyExpr_poly : IsPoly polyExpr (X 0 * X 1 + (X 0 + 1) ^ 2) :=
  .add (.mul (.var 0) (.var 1)) (.square (.addOne (.var 0)))

example : ConstAdjFree polyExpr := by
  intro n t hs
  cases hs with
  | step hc hs =>
    simp only [polyExpr, children, List.mem_cons, List.not_mem_nil, or_false] at hc
    rcases hc with rfl | rfl
    · cases hs with
      | step hc hs =>
        simp only [children, List.mem_cons, List.not_mem_nil, or_false] at hc
        rcases hc with rfl | rfl <;> cases hs with | step hc _ => simp [children] at hc
    · cases hs with
      | step hc hs =>
        simp only [children, List.mem_cons, List.not_mem_nil, or_false] at hc
        subst hc
        cases hs with
        | step hc hs =>
          simp only [children, List.mem_cons, List.not_mem_nil, or_false] at hc
          subst hc
          cases hs with | step hc _ => simp [children] at hc

/-- At `x = 3`, `y = 5` the adjoint in `x` evaluates to `y + 2(x + 1) = 13`. -/
example {e' : Node ℤ} (ha : polyExpr.adjoint 0 = some e') (d : FnImpl allScalars e' .scalar) :
    (d.evaluate fun i => some (if i = 0 then (3 : ℤ) else 5 : ℤ)).1 = .ok (13 : ℤ) := by
  rw [C57_gradient polyExpr_poly ha d _ (by simp)]
  simp [point, pow_two]

/-- In the ring of bytes with wrapping arithmetic `x² + 255·x²` is the zero polynomial, hence so is
its derivative. -/
example : (X 0 ^ 2 + C 255 * X 0 ^ 2 : MvPolynomial Id (ZMod 256)) = 0 := by
  have : (C 255 : MvPolynomial Id (ZMod 256)) = -1 := by
    rw [show (255 : ZMod 256) = -1 from by decide, map_neg, map_one]
  rw [this]
  ring

end Aegir.Props
