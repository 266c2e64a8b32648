import Verif.Lemmas.Symbolic
import Verif.Lemmas.Parse
import Verif.Spec.Instances
import Mathlib.NumberTheory.Harmonic.GammaDeriv
/-!
# C37, C38: symbolic rendering
-/

namespace Aegir

open Spec

/-! ## C37 -/

section
variable {F : Type} {Γ : Id → BTy} [CommRing F] [Div F] [ScalarFns F] [LawfulScalar F]
  [LawfulPow F] [LawfulConstants F] {idText : Id → String} {numText : F → String} {e : Node F}
  {c : Ctx F Γ}

/-- A scalar expression rendered as symbolic zero (one) evaluates to zero (one) in every context in
which it evaluates. Missing: `Cached` nodes (they have no rendering, but can occur below a
`ConstantAdjoint`) and the cases excluded by `SymbolicSafe`, which are wrong
(`C37_violation_*`). -/
theorem C37_sound_partial (d : FnImpl Γ e .scalar) (hs : AllScalar Γ e) (hf : CacheFree e)
    (hsafe : SymbolicSafe idText numText c e) {v : F}
    (hv : (d.evaluate c).1 = .ok v) :
    (e.toExpr idText numText = some .zero → v = 0) ∧
      (e.toExpr idText numText = some .one → v = 1) := by
  have h1 : (d.fn.evaluate c).1 = .ok v := hv
  rw [FnImpl.evaluate_eq] at h1
  obtain ⟨s, hs1, hs2⟩ := (Res.map_ok_iff _ _ _).1 h1
  have := symbolic_spec d hs hf hsafe (Prod.ext hs1 (d.ctx_eq hf c).2.1)
  rw [hs2] at this
  exact ⟨fun h => isTensor_scalar_iff.1 (this.1 h), fun h => isTensor_scalar_iff.1 (this.2 h)⟩

end

/-- Names of the identifiers used in the examples. -/
def names : Id → String
  | 0 => "x"
  | 1 => "y"
  | 2 => "z"
  | _ => "w"

/-- All identifiers are scalars. -/
abbrev allScalars : Id → BTy := fun _ => .scalar

/-- `d/dx (x * y) - y * 1` hidden in a product, with `cos 0` and `1 / 1` around: rendered as zero. -/
example (v : ℝ) (c : Ctx ℝ allScalars)
    (d : FnImpl allScalars (.mul (.un .cos (.varAdj 0 1))
      (.sub (.div (.varAdj 1 1) (.varAdj 0 0)) (.un .exp (.varAdj 2 1)))) .scalar)
    (hv : (d.evaluate c).1 = .ok v) : v = 0 := by
  refine (C37_sound_partial (idText := names) (numText := fun _ => "0") d ?_ ?_ ?_ hv).1 rfl
  · exact ⟨fun _ _ => rfl, fun τ b h => by simp at h,
      fun τ b h => by simp at h⟩
  · intro n i h; simp at h
  · refine ⟨?_, ?_, ?_, ?_, ?_⟩
    · intro n h; simp at h
    · intro n h; simp at h
    · intro l r h; simp at h; simp [h, Node.toExpr]
    · intro n r h; simp at h
    · intro n r h; simp at h

/-- `erf 0` is rendered as symbolic one and evaluates to zero. -/
theorem C37_violation_erf (idText : Id → String) (numText : ℝ → String) :
    ∃ (e : Node ℝ) (d : FnImpl allScalars e .scalar) (c : Ctx ℝ allScalars),
      e.toExpr idText numText = some .one ∧ (d.evaluate c).1 = .ok (0 : ℝ) := by
  refine ⟨.un .erf (.varAdj 0 1), .un .erf (.varAdj 0 1 .ss (by decide)), fun _ => some (2 : ℝ),
    rfl, ?_⟩
  have : ScalarFns.erf (0 : ℝ) = 0 := by simp [ScalarFns.erf]
  exact congrArg Res.ok this

/-- `digamma 1` is rendered as symbolic one and evaluates to minus the Euler-Mascheroni constant. -/
theorem C37_violation_digamma (idText : Id → String) (numText : ℝ → String) :
    ∃ (e : Node ℝ) (d : FnImpl allScalars e .scalar) (c : Ctx ℝ allScalars) (v : ℝ),
      e.toExpr idText numText = some .one ∧ (d.evaluate c).1 = .ok v ∧ v < 0 := by
  refine ⟨.un .digamma (.varAdj 0 0), .un .digamma (.varAdj 0 0 .ss (by decide)),
    fun _ => some (2 : ℝ), ScalarFns.digamma 1, rfl, rfl, ?_⟩
  have h1 : ScalarFns.digamma (1 : ℝ) = deriv Real.Gamma 1 := by
    simp [ScalarFns.digamma, logDeriv]
  have h2 := Real.eulerMascheroniConstant_eq_neg_deriv
  have h3 := Real.one_half_lt_eulerMascheroniConstant
  rw [h1]
  linarith

/-- `0 ^ 0` is rendered as symbolic zero and evaluates to one. -/
theorem C37_violation_power (idText : Id → String) (numText : ℝ → String) :
    ∃ (e : Node ℝ) (d : FnImpl allScalars e .scalar) (c : Ctx ℝ allScalars),
      e.toExpr idText numText = some .zero ∧ (d.evaluate c).1 = .ok (1 : ℝ) := by
  refine ⟨.power (.varAdj 0 1) (.varAdj 0 1),
    .power (.varAdj 0 1 .ss (by decide)) (.varAdj 0 1 .ss (by decide)), fun _ => some (2 : ℝ),
    rfl, ?_⟩
  have : ScalarFns.eqb (0 : ℝ) 0 = true := by simp [ScalarFns.eqb]
  show Res.ok ((powSpec (.full () 0) (.full () 0) : BSpec ℝ .scalar).unwrap) = _
  simp only [powSpec, this]
  rfl

/-- The rendering of arrays confuses the identity matrix with a matrix of ones: `I - (1 - 0)` is
rendered as symbolic zero and evaluates to a matrix that is not zero. -/
theorem C37_violation_arrays (idText : Id → String) (numText : ℤ → String) :
    ∃ (e : Node ℤ) (d : FnImpl (fun _ => .array [2]) e (.array [2, 2]))
      (c : Ctx ℤ (fun _ => .array [2])) (v : Buf ℤ (.array [2, 2])),
      e.toExpr idText numText = some .zero ∧ (d.evaluate c).1 = .ok v ∧
        Buf.getU (.array [2, 2]) v [0, 1] = some (-1) := by
  refine ⟨.sub (.varAdj 0 0) (.un .oneSub (.varAdj 1 0)),
    .sub (.varAdj 0 0 (.aa [2] [2] (by decide)) (by decide))
      (.un .oneSub (.varAdj 1 0 (.aa [2] [2] (by decide)) (by decide))) (.aa _),
    fun _ => some (Buf.full (.array [2]) () 5), _, rfl, rfl, rfl⟩

/-- Only derivatives give rise to symbolic zeros and ones: the rendering of any other expression
is a text. -/
theorem C37_text {F : Type} {idText : Id → String} {numText : F → String} {e : Node F}
    (h : ∀ i t, ¬ SubExpr (.varAdj i t) e) (h' : ∀ n t, ¬ SubExpr (.constAdj n t) e) {x : Expr}
    (hx : e.toExpr idText numText = some x) : ∃ p, x = .text p :=
  toExpr_text h h' hx

example : (Node.mul (.un .cos (.var 0)) (.power (.var 0) (.var 1)) : Node ℤ).toExpr names
    (fun n => toString n) = some (.text ⟨"cos(x) ∘ x^y", true⟩) := rfl

/-! ## C38 -/

/-- Within the readable fragment (`Readable`), with distinct names that cannot be confused with the
notation, expressions displayed as the same text are equal. Missing: everything outside of
`Readable`, in particular the operators with ambiguous texts (`C38_violation_*`), and
`TensorDoubleDot` at the root, which has a `Display` impl of its own. -/
theorem C38_injective_partial {F : Type} {idText : Id → String} {numText : F → String}
    (hinj : Function.Injective idText) (hn : ∀ i, GoodName (idText i)) {e₁ e₂ : Node F}
    (h₁ : Readable e₁) (h₂ : Readable e₂) (r₁ : ∀ l r, e₁ ≠ .contract 2 l r)
    (r₂ : ∀ l r, e₂ ≠ .contract 2 l r)
    (h : e₁.display idText numText = e₂.display idText numText) : e₁ = e₂ := by
  have hd : ∀ {e : Node F}, Readable e → (∀ l r, e ≠ .contract 2 l r) →
      e.display idText numText = (e.toExpr idText numText).map Expr.display := by
    intro e he hr
    cases e with
    | contract k l r =>
      have hk := he.1
      match k, hk with
      | 0, _ | 1, _ => rfl
      | 2, _ => exact absurd rfl (hr l r)
    | constAdj | sum => exact he.elim
    | _ => rfl
  rw [hd h₁ r₁, hd h₂ r₂] at h
  exact toExpr_inj hinj hn h₁ h₂ h

/-- A readable expression with its text; the brackets matter. -/
example : Readable (.div (.sub (.var 0) (.sub (.var 1) (.var 2))) (.power (.un .sin (.var 0))
      (.contract 1 (.var 1) (.un .negate (.var 2)))) : Node ℤ) ∧
    (Node.div (.sub (.var 0) (.sub (.var 1) (.var 2))) (.power (.un .sin (.var 0))
      (.contract 1 (.var 1) (.un .negate (.var 2)))) : Node ℤ).display names (fun n => toString n)
      = some "(x - (y - z)) / sin(x)^⟨y, -z⟩" :=
  ⟨by simp [Readable, BaseOk], rfl⟩

/-- There are such names: `a`, `aa`, `aaa`, ... -/
example : ∃ idText : Id → String, Function.Injective idText ∧ ∀ i, GoodName (idText i) := by
  refine ⟨fun i => String.ofList (List.replicate (i + 1) 'a'), fun i j h => ?_, fun i => ⟨?_, ?_⟩⟩
  · have := congrArg String.length h
    simpa using this
  · intro ch hch
    have : ch = 'a' := by simpa using hch
    subst this; decide
  · exact ⟨'a', List.replicate i 'a', by simp [List.replicate_succ], by decide⟩

/-- `x + 1` and `1 - x` are displayed as the same text. -/
theorem C38_violation_addOne : ∃ (e₁ e₂ : Node ℤ) (d₁ : FnImpl allScalars e₁ .scalar)
    (d₂ : FnImpl allScalars e₂ .scalar) (c : Ctx ℤ allScalars), (∀ numText : ℤ → String,
      e₁.display names numText = some "1 - x" ∧ e₂.display names numText = some "1 - x") ∧
      (d₁.evaluate c).1 = .ok (4 : ℤ) ∧ (d₂.evaluate c).1 = .ok (-2 : ℤ) :=
  ⟨.un .addOne (.var 0), .un .oneSub (.var 0), .un .addOne (.var (Γ := allScalars) 0),
    .un .oneSub (.var (Γ := allScalars) 0), fun _ => some (3 : ℤ), fun _ => ⟨rfl, rfl⟩, rfl, rfl⟩

/-- `(x ^ y) ^ z` and `x ^ (y ^ z)` are displayed as the same text. -/
theorem C38_violation_power : ∃ (e₁ e₂ : Node ℝ) (d₁ : FnImpl allScalars e₁ .scalar)
    (d₂ : FnImpl allScalars e₂ .scalar) (c : Ctx ℝ allScalars) (v₁ v₂ : ℝ), (∀ numText : ℝ → String,
      e₁.display names numText = some "x^y^z" ∧ e₂.display names numText = some "x^y^z") ∧
      (d₁.evaluate c).1 = .ok v₁ ∧ (d₂.evaluate c).1 = .ok v₂ ∧ v₁ ≠ v₂ := by
  refine ⟨.power (.power (.var 0) (.var 1)) (.var 2), .power (.var 0) (.power (.var 1) (.var 2)),
    .power (.power (.var (Γ := allScalars) 0) (.var (Γ := allScalars) 1))
      (.var (Γ := allScalars) 2),
    .power (.var (Γ := allScalars) 0)
      (.power (.var (Γ := allScalars) 1) (.var (Γ := allScalars) 2)),
    fun i => some (if i = 0 then 2 else if i = 1 then 1 else 2 : ℝ), ((2 : ℝ) ^ (1 : ℝ)) ^ (2 : ℝ),
    (2 : ℝ) ^ ((1 : ℝ) ^ (2 : ℝ)), fun _ => ⟨rfl, rfl⟩, ?_, ?_, ?_⟩
  · show Res.ok (((((if (0 : Id) = 0 then 2 else if (0 : Id) = 1 then 1 else 2 : ℝ)) ^
      (if (1 : Id) = 0 then 2 else if (1 : Id) = 1 then 1 else 2 : ℝ) : ℝ)) ^
      (if (2 : Id) = 0 then 2 else if (2 : Id) = 1 then 1 else 2 : ℝ) : ℝ) = _
    norm_num
  · show Res.ok ((((if (0 : Id) = 0 then 2 else if (0 : Id) = 1 then 1 else 2 : ℝ)) ^
      ((if (1 : Id) = 0 then 2 else if (1 : Id) = 1 then 1 else 2 : ℝ) ^
      (if (2 : Id) = 0 then 2 else if (2 : Id) = 1 then 1 else 2 : ℝ) : ℝ)) : ℝ) = _
    norm_num
  · norm_num

/-- `- (x ^ y)` and `(- x) ^ y` are displayed as the same text. -/
theorem C38_violation_negate : ∃ (e₁ e₂ : Node ℝ) (d₁ : FnImpl allScalars e₁ .scalar)
    (d₂ : FnImpl allScalars e₂ .scalar) (c : Ctx ℝ allScalars) (v₁ v₂ : ℝ), (∀ numText : ℝ → String,
      e₁.display names numText = some "-x^y" ∧ e₂.display names numText = some "-x^y") ∧
      (d₁.evaluate c).1 = .ok v₁ ∧ (d₂.evaluate c).1 = .ok v₂ ∧ v₁ ≠ v₂ := by
  refine ⟨.un .negate (.power (.var 0) (.var 1)), .power (.un .negate (.var 0)) (.var 1),
    .un .negate (.power (.var (Γ := allScalars) 0) (.var (Γ := allScalars) 1)),
    .power (.un .negate (.var (Γ := allScalars) 0)) (.var (Γ := allScalars) 1),
    fun _ => some (2 : ℝ), -((2 : ℝ) ^ (2 : ℝ)), (-2 : ℝ) ^ (2 : ℝ), fun _ => ⟨rfl, rfl⟩, rfl, rfl,
    ?_⟩
  norm_num

/-- `asin x` and `acos x` are displayed as the same text. -/
theorem C38_violation_asin : ∃ (e₁ e₂ : Node ℝ) (d₁ : FnImpl allScalars e₁ .scalar)
    (d₂ : FnImpl allScalars e₂ .scalar) (c : Ctx ℝ allScalars) (v₁ v₂ : ℝ), (∀ numText : ℝ → String,
      e₁.display names numText = some "acos(x)" ∧ e₂.display names numText = some "acos(x)") ∧
      (d₁.evaluate c).1 = .ok v₁ ∧ (d₂.evaluate c).1 = .ok v₂ ∧ v₁ ≠ v₂ := by
  refine ⟨.un .asin (.var 0), .un .acos (.var 0), .un .asin (.var (Γ := allScalars) 0),
    .un .acos (.var (Γ := allScalars) 0), fun _ => some (0 : ℝ), Real.arcsin 0, Real.arccos 0,
    fun _ => ⟨rfl, rfl⟩, rfl, rfl, ?_⟩
  rw [Real.arcsin_zero, Real.arccos_zero]
  have := Real.pi_pos
  intro h
  linarith

/-- A symbolic zero is displayed as the empty text, also inside of another one. -/
theorem C38_violation_empty {F : Type} (idText : Id → String) (numText : F → String) {i t : Id}
    (h : i ≠ t) : (Node.varAdj i t : Node F).display idText numText = some "" ∧
      (Node.un .sign (.varAdj i t) : Node F).display idText numText = some "sgn()" := by
  simp [Node.display, Node.toExpr, h, Expr.display, UnOp.expr, Expr.plain]

end Aegir
