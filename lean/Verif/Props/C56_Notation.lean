import Verif.Lemmas.Notation
import Verif.Lemmas.Symbolic
import Verif.Props.C19_Tensor
import Verif.Props.C37_C38_Rendering
import Mathlib.Analysis.Convex.Deriv
import Mathlib.Analysis.SpecialFunctions.Gamma.BohrMollerup
/-!
# C56: rendered text, read with the usual rules of precedence, stands for the value
-/

namespace Aegir

open Spec Filter Topology

/-! ## The text of a scalar expression -/

section
variable {idText : Id → String} {numText : ℝ → String} {e : Node ℝ} {c : Ctx ℝ allScalars}

theorem envOf_scalar (c : Ctx ℝ allScalars) (i : Id) : (envOf c i).dims = [] := by
  simp only [envOf]
  cases c i <;> rfl

/-- Whatever a scalar expression evaluates to, its symbolic form says so: a symbolic zero is zero, a
symbolic one is one, and a text is a correct mathematical notation for the value. Missing: what
`Clear` excludes, most of which is wrong (`C56_violation_*`). -/
theorem C56_meaning_partial (d : FnImpl allScalars e .scalar) (hp : PowSafe (envOf c) e)
    (hc : Clear idText numText (envOf c) e) {v : ℝ} (hv : (d.evaluate c).1 = .ok v) :
    (e.toExpr idText numText = some .zero → v = 0) ∧
      (e.toExpr idText numText = some .one → v = 1) ∧
      ∀ p, e.toExpr idText numText = some (.text p) →
        ∃ k, Means (ReadsAs idText numText (envOf c)) k p.text v := by
  have hpl := plain_of_clear hc
  have ht := Props.C19_value_cache_free_partial d hpl.cacheFree c hp
    (hpl.regular (fun _ => rfl) d).2 v hv
  have hval : (den (envOf c) e).val [] = v := (IsTensor.scalar_val ht).2
  have key := fun E => says_den (nm := ReadsAs idText numText (envOf c)) (e := e) (E := E)
    (envOf_scalar c) reads_id reads_num hc
  rw [hval] at key
  exact ⟨fun h => key _ h, fun h => key _ h, fun p h => (key _ h).any⟩

/-- The same for `Display`. -/
theorem C56_display_partial (d : FnImpl allScalars e .scalar) (hp : PowSafe (envOf c) e)
    (hc : ClearDisplay idText numText (envOf c) e) {v : ℝ} (hv : (d.evaluate c).1 = .ok v)
    {s : String} (hs : e.display idText numText = some s) :
    ∃ k, Means (ReadsAs idText numText (envOf c)) k s v := by
  have hpl := plain_of_clearDisplay hc
  have ht := Props.C19_value_cache_free_partial d hpl.cacheFree c hp
    (hpl.regular (fun _ => rfl) d).2 v hv
  have hval : (den (envOf c) e).val [] = v := (IsTensor.scalar_val ht).2
  rw [← hval]
  exact (says_display (envOf_scalar c) reads_id reads_num hc hs).2

/-- `Display` for expressions that cannot be evaluated at all (there is no `Contract` impl for two
axes): the text stands for the number that the expression denotes. -/
theorem C56_denotation_partial {ρ : Id → Tensor ℝ} (hρ : ∀ i, (ρ i).dims = [])
    (hc : ClearDisplay idText numText ρ e) {s : String} (hs : e.display idText numText = some s) :
    (den ρ e).dims = [] ∧ ∃ k, Means (ReadsAs idText numText ρ) k s ((den ρ e).val []) :=
  says_display hρ reads_id reads_num hc hs

end

/-! ### Concrete cases -/

/-- `Σ ((x + 1) ∘ (0 - y))` with a symbolic one and zero meets the hypotheses. -/
example (c : Ctx ℝ allScalars) (numText : ℝ → String)
    (d : FnImpl allScalars (.sum (.mul (.add (.var 0) (.varAdj 2 2)) (.sub (.varAdj 2 0) (.var 1))))
      .scalar) {v : ℝ} (hv : (d.evaluate c).1 = .ok v) :
    ∃ k, Means (ReadsAs names numText (envOf c)) k "Σ_i ((x + 1) ∘ -y)_i" v :=
  C56_display_partial (idText := names) (numText := numText) d (by intro l r h; simp at h)
    (by simp [ClearDisplay, Clear, Node.toExpr, addExpr, subExpr, prodExpr, mulText, Expr.wrapped,
      Expr.plain]) hv rfl

/-- A `ConstantAdjoint` is printed as `0`. -/
example (c : Ctx ℝ allScalars) (numText : ℝ → String)
    (d : FnImpl allScalars (.constAdj (.const .scalar (3 : ℝ)) 0) .scalar) {v : ℝ}
    (hv : (d.evaluate c).1 = .ok v) : ∃ k, Means (ReadsAs names numText (envOf c)) k "0" v :=
  C56_display_partial (idText := names) (numText := numText) d (by intro l r h; simp at h)
    trivial hv rfl

/-- A double contraction of sums. -/
example (ρ : Id → Tensor ℝ) (hρ : ∀ i, (ρ i).dims = []) (numText : ℝ → String) :
    ∃ k, Means (ReadsAs names numText ρ) k "(x + y) : (Σ_i (z)_i)"
      ((den ρ (.contract 2 (.add (.var 0) (.var 1)) (.sum (.var 2)))).val []) :=
  (C56_denotation_partial (idText := names) (numText := numText) hρ
    (by simp [ClearDisplay, Clear, Node.toExpr, addExpr, Expr.wrapped, Expr.plain]) rfl).2

/-! ## Texts that are read as something else -/

/-- The context `x = a`, `y = b`. -/
def twoCtx (a b : ℝ) : Ctx ℝ allScalars := fun i => some (if i = 0 then a else b : ℝ)

theorem twoCtx_x (numText : ℝ → String) (a b : ℝ) :
    Means (ReadsAs names numText (envOf (twoCtx a b))) 0 "x" a := .name (.inl ⟨0, rfl, rfl⟩)

theorem twoCtx_y (numText : ℝ → String) (a b : ℝ) :
    Means (ReadsAs names numText (envOf (twoCtx a b))) 0 "y" b := .name (.inl ⟨1, rfl, rfl⟩)

/-- `exp(2 x)` is printed as `𝑒^2 ∘ x`, which is `𝑒² x`. -/
theorem C56_violation_exp (numText : ℝ → String) : ∃ (e : Node ℝ) (d : FnImpl allScalars e .scalar)
    (c : Ctx ℝ allScalars) (v w : ℝ), e.display names numText = some "𝑒^2 ∘ x" ∧
      Means (ReadsAs names numText (envOf c)) 3 "𝑒^2 ∘ x" w ∧ (d.evaluate c).1 = .ok v ∧ v ≠ w := by
  refine ⟨.un .exp (.un .double (.var 0)), .un .exp (.un .double (.var (Γ := allScalars) 0)),
    twoCtx 0 0, Real.exp ((1 + 1) * 0), Real.exp 1 ^ (2 : ℝ) * 0, rfl, ?_, rfl, ?_⟩
  · exact .mul (o := " ∘ ") (s := "𝑒^2") (t := "x") (by simp) (.pow .euler .two (by omega)) (by omega)
      (twoCtx_x _ _ _) (by omega)
  · simp

/-- `y / (2 x)` is printed as `y / 2 ∘ x`, which is `(y / 2) x`. -/
theorem C56_violation_div (numText : ℝ → String) : ∃ (e : Node ℝ) (d : FnImpl allScalars e .scalar)
    (c : Ctx ℝ allScalars) (v w : ℝ), e.display names numText = some "y / 2 ∘ x" ∧
      Means (ReadsAs names numText (envOf c)) 3 "y / 2 ∘ x" w ∧ (d.evaluate c).1 = .ok v ∧ v ≠ w := by
  refine ⟨.div (.var 1) (.un .double (.var 0)), .div (.var (Γ := allScalars) 1)
    (.un .double (.var (Γ := allScalars) 0)) .ss, twoCtx 2 4, 4 / ((1 + 1) * 2), 4 / 2 * 2, rfl, ?_,
    rfl, ?_⟩
  · exact .mul (o := " ∘ ") (s := "y / 2") (t := "x") (by simp)
      (.div (s := "y") (t := "2") (twoCtx_y _ _ _) (by omega) .two (by omega)) (by omega)
      (twoCtx_x _ _ _) (by omega)
  · norm_num

/-- `x ^ (2 y)` is printed as `x^2 ∘ y`, which is `x² y`. -/
theorem C56_violation_power (numText : ℝ → String) :
    ∃ (e : Node ℝ) (d : FnImpl allScalars e .scalar)
    (c : Ctx ℝ allScalars) (v w : ℝ), e.display names numText = some "x^2 ∘ y" ∧
      Means (ReadsAs names numText (envOf c)) 3 "x^2 ∘ y" w ∧ (d.evaluate c).1 = .ok v ∧ v ≠ w := by
  refine ⟨.power (.var 0) (.un .double (.var 1)), .power (.var (Γ := allScalars) 0)
    (.un .double (.var (Γ := allScalars) 1)), twoCtx 1 3, (1 : ℝ) ^ ((1 + 1) * 3 : ℝ),
    (1 : ℝ) ^ (2 : ℝ) * 3, rfl, ?_, rfl, ?_⟩
  · exact .mul (o := " ∘ ") (s := "x^2") (t := "y") (by simp)
      (.pow (s := "x") (t := "2") (twoCtx_x _ _ _) .two (by omega)) (by omega)
      (twoCtx_y _ _ _) (by omega)
  · simp

/-- `sinh 1` is printed as `sin(1)`. -/
theorem C56_violation_sinh (numText : ℝ → String) :
    ∃ (e : Node ℝ) (d : FnImpl allScalars e .scalar)
    (c : Ctx ℝ allScalars) (v w : ℝ), e.display names numText = some "sin(1)" ∧
      Means (ReadsAs names numText (envOf c)) 0 "sin(1)" w ∧ (d.evaluate c).1 = .ok v ∧ v ≠ w := by
  refine ⟨.un .sinh (.varAdj 0 0), .un .sinh (.varAdj 0 0 .ss (by decide)), twoCtx 0 0, Real.sinh 1,
    Real.sin 1, rfl, .call (f := "sin") (s := "1") (by simp [namedFn]) .one, rfl, ?_⟩
  have h1 := Real.sin_le_one 1
  have h2 : (1 : ℝ) < Real.sinh 1 := Real.self_lt_sinh_iff.2 one_pos
  exact ne_of_gt (by linarith)

/-- `1 + x` is printed as `1 - x`. -/
theorem C56_violation_addOne (numText : ℝ → String) :
    ∃ (e : Node ℝ) (d : FnImpl allScalars e .scalar)
    (c : Ctx ℝ allScalars) (v w : ℝ), e.display names numText = some "1 - x" ∧
      Means (ReadsAs names numText (envOf c)) 4 "1 - x" w ∧ (d.evaluate c).1 = .ok v ∧ v ≠ w := by
  refine ⟨.un .addOne (.var 0), .un .addOne (.var (Γ := allScalars) 0), twoCtx 1 0, 1 + 1, 1 - 1, rfl,
    .sub (s := "1") (t := "x") .one (by omega) (twoCtx_x _ _ _) (by omega), rfl, by norm_num⟩

/-! ## Infinities -/

/-- What an infinity stands for. -/
inductive Infinity : String → Filter ℝ → Prop
  | pos : Infinity "∞" atTop
  | neg : Infinity "-∞" atBot

theorem tendsto_gamma : Tendsto Real.Gamma (𝓝[>] 0) atTop := by
  have h1 : Tendsto (fun x : ℝ => Real.Gamma (x + 1)) (𝓝[>] 0) (𝓝 1) := by
    have hc : ContinuousAt Real.Gamma 1 :=
      (Real.differentiableAt_Gamma fun m => by
        have : (0 : ℝ) ≤ m := Nat.cast_nonneg m
        intro h; linarith).continuousAt
    have ha : Tendsto (fun x : ℝ => x + 1) (𝓝[>] 0) (𝓝 1) := by
      have : Tendsto (fun x : ℝ => x + 1) (𝓝 0) (𝓝 (0 + 1)) := tendsto_id.add_const 1
      rw [zero_add] at this
      exact this.mono_left nhdsWithin_le_nhds
    have := hc.tendsto.comp ha
    rwa [Real.Gamma_one] at this
  have h2 := h1.pos_mul_atTop one_pos tendsto_inv_nhdsGT_zero
  refine h2.congr' ?_
  filter_upwards [self_mem_nhdsWithin] with x hx
  have hx' : x ≠ 0 := ne_of_gt hx
  rw [Real.Gamma_add_one hx']
  field_simp

theorem tendsto_artanh : Tendsto Real.artanh (𝓝[<] 1) atTop := by
  have h0 : Tendsto (fun x : ℝ => 1 - x) (𝓝[<] 1) (𝓝[>] 0) := by
    refine tendsto_nhdsWithin_of_tendsto_nhds_of_eventually_within _ ?_ ?_
    · have : Tendsto (fun x : ℝ => 1 - x) (𝓝 1) (𝓝 (1 - 1)) := tendsto_const_nhds.sub tendsto_id
      rw [sub_self] at this
      exact this.mono_left nhdsWithin_le_nhds
    · filter_upwards [self_mem_nhdsWithin] with x hx
      exact sub_pos.2 (Set.mem_Iio.1 hx)
  have h1 : Tendsto (fun x : ℝ => 1 + x) (𝓝[<] 1) (𝓝 (1 + 1)) :=
    (tendsto_const_nhds.add tendsto_id).mono_left nhdsWithin_le_nhds
  have h2 := h1.pos_mul_atTop (by norm_num) (tendsto_inv_nhdsGT_zero.comp h0)
  have h3 := (Real.tendsto_log_atTop.comp h2).const_mul_atTop (r := 1 / 2) (by norm_num)
  refine h3.congr' ?_
  filter_upwards [Ioo_mem_nhdsLT (show (-1 : ℝ) < 1 by norm_num)] with x hx
  rw [Real.artanh_eq_half_log ⟨hx.1.le, hx.2.le⟩, div_eq_mul_inv (1 + x)]
  rfl

/-- Where a rendering of a symbolic zero or one is infinite, so is the limit, with the right sign. -/
theorem C56_limits :
    (∀ op ∈ [UnOp.ln, .gamma, .logGamma], ∃ s l, op.expr .zero = .plain s ∧ Infinity s l ∧
      Tendsto (op.apply : ℝ → ℝ) (𝓝[>] 0) l) ∧
    ∃ s l, UnOp.atanh.expr .one = .plain s ∧ Infinity s l ∧
      Tendsto (UnOp.atanh.apply : ℝ → ℝ) (𝓝[<] 1) l := by
  refine ⟨fun op h => ?_, _, _, rfl, .pos, tendsto_artanh⟩
  simp only [List.mem_cons, List.not_mem_nil, or_false] at h
  rcases h with rfl | rfl | rfl
  · exact ⟨_, _, rfl, .neg, Real.tendsto_log_nhdsGT_zero⟩
  · exact ⟨_, _, rfl, .pos, tendsto_gamma⟩
  · exact ⟨_, _, rfl, .pos, Real.tendsto_log_atTop.comp tendsto_gamma⟩

/-- The imaginary unit, in a product and a quotient. -/
inductive Imaginary : String → ℂ → Prop
  | halfPi : Imaginary "𝑖π/2" (Complex.I * Real.pi / 2)

/-- The one complex number that is ever printed, `acosh` of a symbolic zero: it is the principal value,
of real part zero and imaginary part between `0` and `π`. -/
theorem C56_imaginary : ∃ s z, UnOp.acosh.expr .zero = .plain s ∧ Imaginary s z ∧
    Complex.cosh z = 0 ∧ z.re = 0 ∧ 0 ≤ z.im ∧ z.im ≤ Real.pi := by
  have h : Complex.I * Real.pi / 2 = (Real.pi / 2 : ℝ) * Complex.I := by push_cast; ring
  refine ⟨_, _, rfl, .halfPi, ?_⟩
  rw [h, Complex.cosh_mul_I, ← Complex.ofReal_cos, Real.cos_pi_div_two]
  refine ⟨rfl, by simp, ?_, ?_⟩ <;> simp only [Complex.im_ofReal_mul,
    Complex.I_im, mul_one] <;> linarith [Real.pi_pos]

theorem tendsto_digamma : Tendsto (logDeriv Real.Gamma) (𝓝[>] 0) atBot := by
  have hl := Real.tendsto_log_atTop.comp tendsto_gamma
  refine tendsto_atBot_mono' _ ?_ (tendsto_neg_atTop_atBot.comp hl)
  filter_upwards [Ioo_mem_nhdsGT (show (0 : ℝ) < 1 by norm_num), hl.eventually_ge_atTop 0] with x hx h0
  have hd : DifferentiableAt ℝ Real.Gamma x := Real.differentiableAt_Gamma fun m => by
    have : (0 : ℝ) ≤ m := Nat.cast_nonneg m
    intro h; linarith [hx.1]
  have hpos := Real.Gamma_pos_of_pos hx.1
  have hder : HasDerivAt (Real.log ∘ Real.Gamma) (logDeriv Real.Gamma x) x := by
    have := hd.hasDerivAt.log hpos.ne'
    rw [logDeriv_apply]
    exact this
  have hs := Real.convexOn_log_Gamma.le_slope_of_hasDerivAt (x := x) (y := 1) hx.1
    (Set.mem_Ioi.2 one_pos) hx.2 hder
  refine hs.trans ?_
  simp only [Function.comp_apply] at h0 ⊢
  rw [slope_def_field]
  simp only [Function.comp_apply, Real.Gamma_one, Real.log_one]
  rw [div_le_iff₀ (by linarith [hx.2])]
  nlinarith [hx.1]

/-- `ψ(0)` is printed as `∞`, but the limit from the right is `-∞`. -/
theorem C56_violation_digamma : UnOp.digamma.expr .zero = .plain "∞" ∧
    Tendsto (UnOp.digamma.apply : ℝ → ℝ) (𝓝[>] 0) atBot :=
  ⟨rfl, tendsto_digamma⟩

/-- A quotient by a symbolic zero is printed as `∞`, also if the limit is `-∞`. -/
theorem C56_violation_quotient : divExpr (subExpr .zero .one) .zero = .plain "∞" ∧
    Tendsto (fun x : ℝ => (0 - 1) / x) (𝓝[>] 0) atBot := by
  refine ⟨rfl, ?_⟩
  have := tendsto_neg_atTop_atBot.comp (tendsto_inv_nhdsGT_zero (𝕜 := ℝ))
  refine this.congr fun x => ?_
  simp [neg_div]

end Aegir
