import Verif.Lemmas.EvalDeriv
import Verif.Lemmas.Repeat
import Verif.Lemmas.Resolve
import Verif.Model.Examples
/-!
# C36: differentiating repeatedly
-/

namespace Aegir.Props

open Aegir Aegir.Spec

variable {Γ : Id → BTy} {t : Id}

/-- An expression can be differentiated exactly when everything in it has a derivative rule. -/
theorem C36_first_exists {F : Type} (e : Node F) (t : Id) :
    (∃ e', e.adjoint t = some e') ↔ Once t e := once_iff t e

/-- A second adjoint exists exactly when all leaves are variables and all operators can be
differentiated twice. -/
theorem C36_second_exists {F : Type} {e e₁ : Node F} {t u : Id} (hf : CacheFree e)
    (h : e.adjoint t = some e₁) : (∃ e₂, e₁.adjoint u = some e₂) ↔ Twice e := twice_iff hf h

/-- Second derivatives: if the second adjoint of a scalar expression exists, both adjoints evaluate,
and the second one evaluates to the second derivative. Missing: higher orders, and expressions
without second adjoint, see the violations below; and `Cached` nodes (C28). -/
theorem C36_second_derivative_partial {e e₁ e₂ : Node ℝ} (h₁ : e.adjoint t = some e₁)
    (h₂ : e₁.adjoint t = some e₂) (hf : CacheFree e) (hsc : AllScalar Γ e) (ht : Γ t = .scalar)
    (d : FnImpl Γ e .scalar) :
    ∃ (_ : FnImpl Γ e₁ .scalar) (d₂ : FnImpl Γ e₂ .scalar), ∀ (c : Ctx ℝ Γ),
      (∀ i, NeedsId e i → c i ≠ none) → ∀ (b : Buf ℝ (Γ t)), c t = some b →
      Smooth (envOf c) t e → Smooth (envOf c) t e₁ →
      ∃ a x : ℝ, (d₂.evaluate c).1 = .ok a ∧ Buf.getU _ b [] = some x ∧
        HasDerivAt (deriv (along d c t b [] [])) a x := by
  have hf₁ := adjoint_cacheFree h₁ hf
  have hsc₁ := AllScalar.adjoint h₁ hf hsc ht
  obtain ⟨d₁⟩ := scalar_adjoint_impl h₁ hf hsc ht d
  obtain ⟨d₂⟩ := scalar_adjoint_impl h₂ hf₁ hsc₁ ht d₁
  refine ⟨d₁, d₂, fun c hc b hb hs hs₁ => ?_⟩
  have hr := (hsc.regular d).2
  have hr₁ := (hsc₁.regular d₁).2
  have hr₂ := ((AllScalar.adjoint h₂ hf₁ hsc₁ ht).regular d₂).2
  have hK : InBounds (Buf.dims _ b) [] := by rw [dims_scalar ht]; exact .nil
  have htn : c t ≠ none := by simp [hb]
  obtain ⟨⟨v, hv⟩, -⟩ := eval_total h₁ hf d d₁ hr hr₁ c hc htn
  obtain ⟨-, a, ha⟩ := eval_total h₂ hf₁ d₁ d₂ hr₁ hr₂ c (fun i hi => by
    rcases adjoint_needs h₁ hi with h | rfl
    · exact hc i h
    · exact htn) htn
  obtain ⟨g, x, hg, hx, hd⟩ := (eval_deriv2 h₁ h₂ hf d d₁ d₂ hr hr₁ hr₂ c hc hb hs hs₁ hv ha hK hK).2
    [] .nil
  cases hg
  refine ⟨a, x, ha, hx, ?_⟩
  refine hd.congr_of_eventuallyEq (Filter.Eventually.of_forall fun s => ?_)
  have h3 : along d (c.write t (setEntry b [] s)) t (setEntry b [] s) [] [] = along d c t b [] [] := by
    funext s'
    simp only [along, setEntry_setEntry, Ctx.write_write]
  simp only [h3, getU_setEntry b [] s hK]
  simp

/-- `(sin x)²` can be differentiated twice, with second derivative `2 cos(2x)` everywhere. -/
example (x : ℝ) : ∃ (e₁ e₂ : Node ℝ) (d₂ : FnImpl (fun _ => .scalar) e₂ .scalar) (a : ℝ),
    (Node.un .square (.un .sin (.var 0))).adjoint 0 = some e₁ ∧ e₁.adjoint 0 = some e₂ ∧
    (d₂.evaluate (fun _ => some x)).1 = .ok a ∧
    HasDerivAt (deriv (along (.un .square (.un .sin (.var (Γ := fun _ => .scalar) 0)))
      (fun _ => some x) 0 x [] [])) a x := by
  obtain ⟨-, d₂, h⟩ := C36_second_derivative_partial (Γ := fun _ => .scalar) (t := 0)
    (e := .un .square (.un .sin (.var 0))) rfl rfl (by simp [CacheFree])
    ⟨fun _ _ => rfl, fun τ b h => by simp at h, fun τ b h => by simp at h⟩ rfl
    (.un .square (.un .sin (.var (Γ := fun _ => .scalar) 0)))
  obtain ⟨a, x', ha, hx, hd⟩ := h (fun _ => some x) (by simp) x rfl
    ⟨⟨trivial, fun _ _ => trivial⟩, fun _ _ => trivial⟩
    ⟨⟨⟨trivial, fun _ _ => trivial⟩, fun _ _ => trivial⟩, trivial, trivial, fun _ _ => trivial⟩
  cases hx
  exact ⟨_, _, d₂, a, rfl, rfl, ha, hd⟩

/-- Second adjoints with respect to array variables: entry `[ix.., k.., k'..]` of the second adjoint
is the second partial derivative, whenever both adjoints can be evaluated. Missing: as above, and the
forms for which `evaluate` itself is wrong (C19). -/
theorem C36_second_partials_partial {e e₁ e₂ : Node ℝ} {τ σ₁ σ₂ : BTy} (h₁ : e.adjoint t = some e₁)
    (h₂ : e₁.adjoint t = some e₂) (hf : CacheFree e) (d : FnImpl Γ e τ) (d₁ : FnImpl Γ e₁ σ₁)
    (d₂ : FnImpl Γ e₂ σ₂) (hr : FnImpl.Regular d) (hr₁ : FnImpl.Regular d₁)
    (hr₂ : FnImpl.Regular d₂) (c : Ctx ℝ Γ) (hc : ∀ i, NeedsId e i → c i ≠ none)
    {b : Buf ℝ (Γ t)} (hb : c t = some b) (hs : Smooth (envOf c) t e)
    (hs₁ : Smooth (envOf c) t e₁) :
    ∃ v a, (d.evaluate c).1 = .ok v ∧ (d₂.evaluate c).1 = .ok a ∧
      ∀ K₁ K₂, InBounds (Buf.dims _ b) K₁ → InBounds (Buf.dims _ b) K₂ →
        Buf.dims σ₂ a = Buf.dims τ v ++ Buf.dims _ b ++ Buf.dims _ b ∧
        ∀ ix, InBounds (Buf.dims τ v) ix →
          ∃ g x, Buf.getU σ₂ a (ix ++ K₁ ++ K₂) = some g ∧ Buf.getU _ b K₂ = some x ∧
            HasDerivAt (fun s => deriv (along d (c.write t (setEntry b K₂ s)) t (setEntry b K₂ s) K₁ ix)
              ((Buf.getU _ (setEntry b K₂ s) K₁).getD 0)) g x := by
  have htn : c t ≠ none := by simp [hb]
  obtain ⟨⟨v, hv⟩, -⟩ := eval_total h₁ hf d d₁ hr hr₁ c hc htn
  obtain ⟨-, a, ha⟩ := eval_total h₂ (adjoint_cacheFree h₁ hf) d₁ d₂ hr₁ hr₂ c (fun i hi => by
    rcases adjoint_needs h₁ hi with h | rfl
    · exact hc i h
    · exact htn) htn
  exact ⟨v, a, hv, ha, fun K₁ K₂ hK₁ hK₂ =>
    eval_deriv2 h₁ h₂ hf d d₁ d₂ hr hr₁ hr₂ c hc hb hs hs₁ hv ha hK₁ hK₂⟩

/-- `s² ⊗ x` for a scalar `s` and a vector `x`, with respect to `s`. -/
example (s : ℝ) (x : NArr ℝ [3]) : ∃ (Γ : Id → BTy) (e e₁ e₂ : Node ℝ) (d : FnImpl Γ e (.array [3]))
    (d₁ : FnImpl Γ e₁ (.array [3])) (d₂ : FnImpl Γ e₂ (.array [3])) (c : Ctx ℝ Γ),
    e.adjoint 0 = some e₁ ∧ e₁.adjoint 0 = some e₂ ∧ CacheFree e ∧ FnImpl.Regular d ∧
    FnImpl.Regular d₁ ∧ FnImpl.Regular d₂ ∧ (∀ i, c i ≠ none) ∧ Smooth (envOf c) 0 e ∧
    Smooth (envOf c) 0 e₁ := by
  let Γ : Id → BTy := fun i => match i with | 0 => .scalar | _ + 1 => .array [3]
  let v0 : FnImpl Γ (.var 0 : Node ℝ) .scalar := .var (Γ := Γ) 0
  let v1 : FnImpl Γ (.var 1 : Node ℝ) (.array [3]) := .var (Γ := Γ) 1
  let a0 : FnImpl Γ (.varAdj 0 0 : Node ℝ) .scalar := .varAdj (Γ := Γ) 0 0 .ss (by decide)
  let a1 : FnImpl Γ (.varAdj 1 0 : Node ℝ) (.array [3]) := .varAdj (Γ := Γ) 1 0 (.as [3]) (by decide)
  let b0 : FnImpl Γ (.constAdj (.varAdj 0 0) 0 : Node ℝ) .scalar := .constAdj a0 0 .ss
  let b1 : FnImpl Γ (.constAdj (.varAdj 1 0) 0 : Node ℝ) (.array [3]) := .constAdj a1 0 (.as [3])
  let q : FnImpl Γ (.un .square (.var 0) : Node ℝ) .scalar := .un .square v0
  let q' : FnImpl Γ (.mul (.un .double (.var 0)) (.varAdj 0 0) : Node ℝ) .scalar :=
    .mul (.un .double v0) a0 .ss
  let q'' := FnImpl.add (.mul (.un .double a0) a0 .ss) (.mul b0 (.un .double v0) .ss) .ss
  exact ⟨Γ, .contract 0 (.un .square (.var 0)) (.var 1), _, _, .contract q v1 (.sv0 3),
    .add (.contract q a1 (.sv0 3)) (.contract q' v1 (.sv0 3)) (.aa [3]),
    .add (.add (.contract q b1 (.sv0 3)) (.contract q' a1 (.sv0 3)) (.aa [3]))
      (.add (.contract q' a1 (.sv0 3)) (.contract q'' v1 (.sv0 3)) (.aa [3])) (.aa [3]),
    fun i => match i with | 0 => some s | _ + 1 => some x, rfl, rfl, by simp [CacheFree],
    by simp [q, v0, v1, FnImpl.Regular], by simp [q, q', v0, v1, a0, a1, FnImpl.Regular],
    by simp [q, q', q'', v0, v1, a0, a1, b0, b1, FnImpl.Regular], fun i => by cases i <;> simp,
    ⟨⟨trivial, fun _ _ => trivial⟩, trivial, .inl rfl⟩,
    ⟨⟨⟨trivial, fun _ _ => trivial⟩, trivial, .inl rfl⟩, ⟨⟨trivial, fun _ _ => trivial⟩, trivial⟩,
      trivial, .inl rfl⟩⟩

/-! ## Violations -/

/-- Nothing can be differentiated three times, whatever the targets (`ConstantAdjoint`, which the
second adjoint of every leaf is made of, does not implement `Differentiable`:
`meta/variable.rs` L219-234, `meta/constant.rs` L117-190). -/
theorem C36_violation_third {F : Type} {e e₁ e₂ : Node F} {t u w : Id} (h₁ : e.adjoint t = some e₁)
    (h₂ : e₁.adjoint u = some e₂) : e₂.adjoint w = none := no_third_adjoint h₁ h₂

example : ∃ e₁ e₂ : Node ℝ, (Node.un .exp (.var 0)).adjoint 0 = some e₁ ∧ e₁.adjoint 0 = some e₂ ∧
    e₂.adjoint 0 = none := ⟨_, _, rfl, rfl, rfl⟩

/-- `x + 1` and `x · x · gamma(x)` cannot be differentiated twice. -/
theorem C36_violation_second {F : Type} (t u : Id) (τ : BTy) (b : Buf F τ) :
    (∃ e₁, (Node.add (.var t) (.const τ b)).adjoint t = some e₁ ∧ e₁.adjoint u = none) ∧
    ∃ e₁ : Node F, (Node.un .gamma (.var t)).adjoint t = some e₁ ∧ e₁.adjoint u = none :=
  ⟨⟨_, rfl, rfl⟩, _, rfl, rfl⟩

/-- The Hessian of an inner product has no value: for vectors of any length, the second adjoint of
`dot(x, w)` with respect to `w` contracts `x` with a tensor of rank 3, for which there is no
`Contract` impl (`arrays/contraction_ops.rs`), so that evaluating it does not compile. The same holds of
the squared error of the linear regression example (`examples/linear.rs` L32-34), whose first adjoint
it evaluates. -/
theorem C36_violation_hessian {F : Type} (n : Nat) :
    (∃ e₁ e₂ : Node F, (Node.contract 1 (.var Examples.X) (.var Examples.W)).adjoint Examples.W = some e₁ ∧
      e₁.adjoint Examples.W = some e₂ ∧ Nonempty (FnImpl (Examples.types n) e₁ (.array [n])) ∧
      ∀ τ, IsEmpty (FnImpl (Examples.types n) e₂ τ)) ∧
    ∃ e₁ e₂ : Node F, (Examples.sse : Node F).adjoint Examples.W = some e₁ ∧
      e₁.adjoint Examples.W = some e₂ ∧ Nonempty (FnImpl (Examples.types n) e₁ (.array [n])) ∧
      ∀ τ, IsEmpty (FnImpl (Examples.types n) e₂ τ) := by
  have key : ∀ τ, FnImpl (F := F) (Examples.types n)
      (.contract 1 (.var Examples.X) (.constAdj (.varAdj Examples.W Examples.W) Examples.W)) τ →
      False := fun τ d => by
    have := d.resolve_eq
    cases this
  have hd : FnImpl (F := F) (Examples.types n) (.add (.contract 1 (.var Examples.X)
      (.varAdj Examples.W Examples.W)) (.contract 1 (.varAdj Examples.X Examples.W) (.var Examples.W)))
      (.array [n]) := .add
    (.contract (.var (Γ := Examples.types n) Examples.X)
      (.varAdj Examples.W Examples.W (.aa [n] [n] (by simp)) (by simp [Examples.types, BTy.rank])) (.vm n n))
    (.contract (.varAdj Examples.X Examples.W (.aa [n] [n] (by simp)) (by simp [Examples.types, BTy.rank]))
      (.var (Γ := Examples.types n) Examples.W) (.mv n n)) (.aa [n])
  refine ⟨⟨_, _, rfl, rfl, ⟨hd⟩, fun τ => ⟨fun d => ?_⟩⟩, _, _, rfl, rfl, ⟨Examples.sseImpl n⟩,
    fun τ => ⟨fun d => ?_⟩⟩
  · cases d with
    | add dl dr z =>
      cases dl with
      | add dl dr z => exact key _ dl
  · cases d with
    | add dl dr z =>
      cases dr with
      | mul dl dr z =>
        cases dl with
        | sub dl dr z =>
          cases dl with
          | add dl dr z =>
            cases dl with
            | add dl dr z => exact key _ dl

end Aegir.Props
