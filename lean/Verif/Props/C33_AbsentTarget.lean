import Verif.Lemmas.AdjointZero
import Verif.Props.C23_C27_Contexts
import Verif.Spec.Instances
/-!
# C33: adjoints with respect to absent identifiers
-/

namespace Aegir.Props

open Aegir Aegir.Spec

section
variable {F : Type} {Γ : Id → BTy} [CommRing F] [Div F] [ScalarFns F] [LawfulScalar F]

/-- If `t` does not occur in `e`, whatever `adjoint(t)` evaluates to is zero in every entry, and
evaluating it leaves the context alone. `hden` says that the denominators of the adjoint have no zero
entries. Scalars are any commutative ring whose division satisfies `0 / x = 0` for `x ≠ 0`. -/
theorem C33_zero (hdiv : ∀ x : F, x ≠ 0 → 0 / x = 0) {e e' : Node F} {t : Id}
    (h : e.adjoint t = some e') (ht : ¬ Occurs e t) (c : Ctx F Γ)
    (hden : ∀ a b, SubExpr (.div a b) e' → ∀ {β : BTy} (db : FnImpl Γ b β) (v : Buf F β),
      (db.evaluate c).1 = .ok v → ∀ ix, InBounds (Buf.dims β v) ix → Buf.getU β v ix ≠ some 0)
    {σ : BTy} (da : FnImpl Γ e' σ) :
    (da.evaluate c).2 = c ∧ ∀ v, (da.evaluate c).1 = .ok v →
      ∀ ix, InBounds (Buf.dims σ v) ix → Buf.getU σ v ix = some 0 := by
  have ht' : e.contains t = false := by
    cases hc : e.contains t with
    | false => rfl
    | true => exact absurd ((C25_contains_iff e t).1 hc) ht
  have h1 := adjoint_zero hdiv h ht' c hden da
  have h2 : At c da.evaluate (fun v => AllZero v) := by
    show At c da.fn.evaluate _
    rw [FnImpl.evaluate_eq]
    exact h1.map fun _ h => h
  exact h2

/-- The same for `evaluate_spec`. -/
theorem C33_zero_spec (hdiv : ∀ x : F, x ≠ 0 → 0 / x = 0) {e e' : Node F} {t : Id}
    (h : e.adjoint t = some e') (ht : ¬ Occurs e t) (c : Ctx F Γ)
    (hden : ∀ a b, SubExpr (.div a b) e' → ∀ {β : BTy} (db : FnImpl Γ b β) (v : Buf F β),
      (db.evaluate c).1 = .ok v → ∀ ix, InBounds (Buf.dims β v) ix → Buf.getU β v ix ≠ some 0)
    {σ : BTy} (da : FnImpl Γ e' σ) :
    (da.evaluateSpec c).2 = c ∧ ∀ s, (da.evaluateSpec c).1 = .ok s →
      ∀ ix, InBounds (Shp.dims σ s.shape) ix → Buf.getU σ s.unwrap ix = some 0 := by
  have ht' : e.contains t = false := by
    cases hc : e.contains t with
    | false => rfl
    | true => exact absurd ((C25_contains_iff e t).1 hc) ht
  have h1 := adjoint_zero hdiv h ht' c hden da
  refine ⟨h1.1, fun s hs ix hix => h1.2 s hs ix ?_⟩
  rw [Buf.dims, BSpec.shape_unwrap]
  exact hix

end

/-! ## A case: `d/dz (x / y)` at `x = 6`, `y = 2` -/

/-- all identifiers scalars -/
def c33Ty : Id → BTy := fun _ => .scalar

/-- `x = 6`, `y = 2`, `z = 5` -/
def c33Ctx : Ctx ℤ c33Ty := fun i =>
  if i = 0 then some (6 : ℤ) else if i = 1 then some (2 : ℤ) else if i = 2 then some (5 : ℤ) else none

/-- `x / y` -/
def c33E : Node ℤ := .div (.var 0) (.var 1)

/-- its adjoint w.r.t. `z` -/
def c33A : FnImpl (F := ℤ) c33Ty
    (.div (.sub (.mul (.var 1) (.varAdj 0 2)) (.mul (.var 0) (.varAdj 1 2))) (.un .square (.var 1)))
    .scalar :=
  .div (.sub (.mul (.var (Γ := c33Ty) 1) (.varAdj (Γ := c33Ty) 0 2 .ss (by decide)) .ss)
      (.mul (.var (Γ := c33Ty) 0) (.varAdj (Γ := c33Ty) 1 2 .ss (by decide)) .ss) .ss)
    (.un .square (.var (Γ := c33Ty) 1)) .ss

example : ∀ ix, InBounds [] ix → Buf.getU .scalar (F := ℤ) (0 : ℤ) ix = some 0 := by
  have hno : ¬ Occurs c33E 2 := by
    rw [← C25_contains_iff]; decide
  refine (C33_zero (F := ℤ) (e := c33E) (fun x _ => Int.zero_ediv x) rfl hno c33Ctx ?_ c33A).2 0 rfl
  intro a b hs β db v hv ix hix
  rw [SubExpr.iff_children] at hs
  simp [children] at hs
  obtain ⟨rfl, rfl⟩ := hs
  cases db with
  | un _ db =>
    cases db with
    | var =>
      cases hv
      cases hix
      show some (4 : ℤ) ≠ some 0
      decide

/-- Without the laws (`NanInt` has NaN) and with a zero denominator the claim fails: `ln(x)` at
`x = 0`, differentiated w.r.t. another variable, gives `0 / 0`. -/
theorem C33_nan_caveat :
    ∃ (e e' : Node NanInt) (da : FnImpl c33Ty e' .scalar) (c : Ctx NanInt c33Ty),
      e.adjoint 1 = some e' ∧ ¬ Occurs e 1 ∧ (da.evaluate c).1 = .ok NanInt.nan := by
  refine ⟨.un .ln (.var 0), _,
    .div (.varAdj (Γ := c33Ty) 0 1 .ss (by decide)) (.var (Γ := c33Ty) 0) .ss,
    fun _ => some (0 : NanInt), rfl, ?_, rfl⟩
  rw [← C25_contains_iff]
  decide

end Aegir.Props
