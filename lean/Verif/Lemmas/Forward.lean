import Verif.Lemmas.Convert
import Verif.Spec.Forward
import Verif.Lemmas.Calculus
import Mathlib.Analysis.SpecialFunctions.Gamma.Beta
import Mathlib.Analysis.Complex.RealDeriv
import Mathlib.Analysis.Complex.CauchyIntegral
import Mathlib.Analysis.SpecialFunctions.Trigonometric.InverseDeriv
import Mathlib.Analysis.SpecialFunctions.Trigonometric.ArctanDeriv
import Mathlib.Analysis.SpecialFunctions.Trigonometric.DerivHyp
import Mathlib.MeasureTheory.Integral.IntervalIntegral.FundThmCalculus
import Mathlib.Analysis.SpecialFunctions.Sqrt
/-!
# Evaluation over dual numbers
-/

namespace Aegir

open Spec TrivSqZeroExt

/-! ## Laws of the scalars -/

theorem jet_ext {z w : Jet} (h1 : z.fst = w.fst) (h2 : z.snd = w.snd) : z = w :=
  TrivSqZeroExt.ext h1 h2

theorem fst_extend (f : ℝ → ℝ) (z : Jet) : (extend f z).fst = f z.fst := by simp [extend]

theorem snd_extend (f : ℝ → ℝ) (z : Jet) : (extend f z).snd = deriv f z.fst * z.snd := by
  simp [extend]

theorem fst_extend₂ (f : ℝ → ℝ → ℝ) (z w : Jet) : (extend₂ f z w).fst = f z.fst w.fst := by
  simp [extend₂]

theorem snd_extend₂ (f : ℝ → ℝ → ℝ) (z w : Jet) : (extend₂ f z w).snd =
    deriv (fun x => f x w.fst) z.fst * z.snd + deriv (fun y => f z.fst y) w.fst * w.snd := by
  simp [extend₂]

theorem jet_div (z w : Jet) : z / w = z * w⁻¹ := rfl

theorem fst_jet_div (z w : Jet) : (z / w).fst = z.fst / w.fst := by
  rw [jet_div, fst_mul, fst_inv, div_eq_mul_inv]

theorem snd_jet_div (z w : Jet) :
    (z / w).snd = z.snd / w.fst - z.fst * w.snd / w.fst ^ 2 := by
  rw [jet_div, snd_mul, fst_inv, snd_inv]
  simp only [smul_eq_mul, MulOpposite.smul_eq_mul_unop, MulOpposite.unop_op]
  by_cases h : w.fst = 0
  · simp [h]
  · field_simp
    ring

noncomputable instance : LawfulScalar Jet where
  isZero_iff x := by simp [ScalarFns.isZero]
  fromUsize_eq n := rfl

noncomputable instance : LawfulPow Jet where
  eqb_iff x y := by simp [ScalarFns.eqb]
  pow_zero z := by
    apply jet_ext
    · show (extend₂ ScalarFns.pow z 0).fst = _
      rw [fst_extend₂]
      show z.fst ^ (0 : ℝ) = _
      simp
    · show (extend₂ ScalarFns.pow z 0).snd = _
      rw [snd_extend₂]
      have : (fun x : ℝ => ScalarFns.pow x (fst (0 : Jet))) = fun _ => 1 := by
        funext x; show x ^ (0 : ℝ) = 1; simp
      rw [this]
      simp
  one_pow z := by
    apply jet_ext
    · show (extend₂ ScalarFns.pow 1 z).fst = _
      rw [fst_extend₂]
      show (1 : ℝ) ^ z.fst = _
      simp
    · show (extend₂ ScalarFns.pow 1 z).snd = _
      rw [snd_extend₂]
      have : (fun y : ℝ => ScalarFns.pow (fst (1 : Jet)) y) = fun _ => 1 := by
        funext x; show (1 : ℝ) ^ x = 1; simp
      rw [this]
      simp

/-! ## Unary operators -/

theorem differentiableAt_digamma {x : ℝ} (h : ∀ m : ℕ, x ≠ -m) :
    DifferentiableAt ℝ (logDeriv Real.Gamma) x := by
  have hx : ∀ m : ℕ, (x : ℂ) ≠ -m := fun m hm => h m (by exact_mod_cast hm)
  have hent : AnalyticAt ℂ (fun s : ℂ => (Complex.Gamma s)⁻¹) x :=
    Complex.differentiable_one_div_Gamma.analyticAt _
  have hne : (Complex.Gamma x)⁻¹ ≠ 0 := inv_ne_zero (Complex.Gamma_ne_zero hx)
  have han : AnalyticAt ℂ Complex.Gamma x := by
    have := hent.inv hne
    have h2 : (fun s : ℂ => (Complex.Gamma s)⁻¹)⁻¹ = Complex.Gamma := by
      funext s; simp
    rwa [h2] at this
  have hd : DifferentiableAt ℂ (deriv Complex.Gamma) x := han.deriv.differentiableAt
  have hev : deriv Real.Gamma =ᶠ[nhds x] fun y : ℝ => (deriv Complex.Gamma y).re := by
    have h1 : ∀ᶠ s in nhds (x : ℂ), DifferentiableAt ℂ Complex.Gamma s :=
      han.eventually_analyticAt.mono fun s hs => hs.differentiableAt
    have h2 : ∀ᶠ y : ℝ in nhds x, DifferentiableAt ℂ Complex.Gamma (y : ℂ) :=
      Complex.continuous_ofReal.continuousAt.eventually h1
    filter_upwards [h2] with y hy
    have h3 := hy.hasDerivAt.real_of_complex
    have h4 : (fun y : ℝ => (Complex.Gamma y).re) = Real.Gamma := by
      funext y; rw [Complex.Gamma_ofReal]; simp
    rw [h4] at h3
    exact h3.deriv
  have h5 : DifferentiableAt ℝ (deriv Real.Gamma) x :=
    (hd.hasDerivAt.real_of_complex.differentiableAt).congr_of_eventuallyEq hev
  have h6 : DifferentiableAt ℝ Real.Gamma x := Real.differentiableAt_Gamma h
  have h7 : logDeriv Real.Gamma = fun y => deriv Real.Gamma y / Real.Gamma y := by
    funext y; rfl
  rw [h7]
  exact h5.div h6 (Real.Gamma_ne_zero h)

theorem differentiableAt_un (op : UnOp) (x : ℝ) (h : UnOp.Inside op x) :
    DifferentiableAt ℝ (op.apply : ℝ → ℝ) x := by
  by_cases hop : op.diffable = true
  · have h' : UnOp.SmoothAt op x := by cases op <;> first | exact h | cases hop
    exact (hasDerivAt_un op hop x h').differentiableAt
  · cases op <;> try exact absurd rfl hop
    case dirac =>
      have h0 : x ≠ 0 := h
      refine (differentiableAt_const (0 : ℝ)).congr_of_eventuallyEq ?_
      filter_upwards [isOpen_ne.mem_nhds h0] with y hy
      have : ¬ y = 0 := hy
      simp [UnOp.apply, ScalarFns.eqb, this]
    case digamma => exact differentiableAt_digamma h
    case erf =>
      have hc : Continuous fun t : ℝ => Real.exp (-t ^ 2) := by fun_prop
      have : HasDerivAt (fun u => ∫ t in (0 : ℝ)..u, Real.exp (-t ^ 2)) (Real.exp (-x ^ 2)) x :=
        intervalIntegral.integral_hasDerivAt_right (hc.intervalIntegrable _ _)
          (hc.stronglyMeasurableAtFilter _ _) hc.continuousAt
      exact (this.const_mul (2 / Real.sqrt Real.pi)).differentiableAt
    case cosh => exact Real.differentiable_cosh x
    case acos => exact Real.differentiableAt_arccos.2 ⟨ne_of_gt h.1, ne_of_lt h.2⟩
    case acosh => exact (Real.hasDerivAt_arcosh h).differentiableAt
    case sinh => exact Real.differentiable_sinh x
    case asin => exact Real.differentiableAt_arcsin.2 ⟨ne_of_gt h.1, ne_of_lt h.2⟩
    case asinh => exact (Real.hasDerivAt_arsinh x).differentiableAt
    case tan => exact Real.differentiableAt_tan.2 h
    case tanh =>
      have h1 : (UnOp.apply .tanh : ℝ → ℝ) = fun y => Real.sinh y / Real.cosh y := by
        funext y; exact Real.tanh_eq_sinh_div_cosh y
      rw [h1]
      exact (Real.differentiable_sinh x).div (Real.differentiable_cosh x) (Real.cosh_pos x).ne'
    case atan => exact Real.differentiable_arctan x
    case atanh =>
      have h1 : 0 < 1 + x := by linarith [h.1]
      have h2 : 0 < 1 - x := by linarith [h.2]
      have h3 : DifferentiableAt ℝ (fun y : ℝ => (1 + y) / (1 - y)) x :=
        (differentiableAt_id.const_add 1).div (differentiableAt_id.const_sub 1) h2.ne'
      exact (h3.sqrt (div_pos h1 h2).ne').log (Real.sqrt_pos.2 (div_pos h1 h2)).ne'

theorem jet_un (op : UnOp) (z : Jet) (h : UnOp.Inside op z.fst) :
    (op.apply z).fst = op.apply z.fst ∧
      (op.apply z).snd = deriv (op.apply : ℝ → ℝ) z.fst * z.snd := by
  cases op
  case subOne =>
    have : deriv (UnOp.apply .subOne : ℝ → ℝ) z.fst = 1 := (hasDerivAt_un .subOne rfl _ h).deriv
    rw [this]
    simp [UnOp.apply]
  case oneSub =>
    have : deriv (UnOp.apply .oneSub : ℝ → ℝ) z.fst = -1 := (hasDerivAt_un .oneSub rfl _ h).deriv
    rw [this]
    simp [UnOp.apply]
  case addOne =>
    have : deriv (UnOp.apply .addOne : ℝ → ℝ) z.fst = 1 := (hasDerivAt_un .addOne rfl _ h).deriv
    rw [this]
    simp [UnOp.apply]
  case square =>
    have h1 : (UnOp.apply .square z) = extend₂ ScalarFns.pow z (1 + 1) := rfl
    have h2 : (fst (1 + 1 : Jet)) = 1 + 1 := by simp
    have h3 : (snd (1 + 1 : Jet)) = 0 := by simp
    rw [h1, fst_extend₂, snd_extend₂, h2, h3, mul_zero, add_zero]
    exact ⟨rfl, rfl⟩
  case double =>
    have : deriv (UnOp.apply .double : ℝ → ℝ) z.fst = 1 + 1 := (hasDerivAt_un .double rfl _ h).deriv
    rw [this]
    simp [UnOp.apply]
  case negate =>
    have : deriv (UnOp.apply .negate : ℝ → ℝ) z.fst = -1 := (hasDerivAt_un .negate rfl _ h).deriv
    rw [this]
    simp [UnOp.apply]
  case rabbit =>
    have : deriv (UnOp.apply .rabbit : ℝ → ℝ) z.fst = 1 - (1 + 1) * z.fst :=
      (hasDerivAt_un .rabbit rfl _ h).deriv
    rw [this]
    simp [UnOp.apply]
    ring
  case dirac =>
    have h0 : z.fst ≠ 0 := h
    have hz : z ≠ 0 := fun e => h0 (by rw [e]; rfl)
    have hd : deriv (UnOp.apply .dirac : ℝ → ℝ) z.fst = 0 := by
      have : (UnOp.apply .dirac : ℝ → ℝ) = fun _ => 0 := by
        funext y; simp [UnOp.apply, ScalarFns.infinity]
      rw [this]; simp
    rw [hd]
    simp [UnOp.apply, ScalarFns.eqb, hz, h0]
  case sign =>
    have h0 : z.fst ≠ 0 := h
    have hz : z ≠ 0 := fun e => h0 (by rw [e]; rfl)
    have h1 : UnOp.apply .sign z = extend ScalarFns.signum z := by
      simp [UnOp.apply, ScalarFns.isZero, hz, ScalarFns.signum]
    have h2 : deriv (UnOp.apply .sign : ℝ → ℝ) z.fst = deriv ScalarFns.signum z.fst := by
      refine Filter.EventuallyEq.deriv_eq ?_
      filter_upwards [isOpen_ne.mem_nhds h0] with y hy
      have : ¬ y = 0 := hy
      simp [UnOp.apply, ScalarFns.isZero, this]
    rw [h1, fst_extend, snd_extend, h2]
    exact ⟨by simp [UnOp.apply, ScalarFns.isZero, h0], rfl⟩
  case xlnx =>
    have h0 : 0 < z.fst := h
    have : deriv (UnOp.apply .xlnx : ℝ → ℝ) z.fst = Real.log z.fst + 1 :=
      (hasDerivAt_un .xlnx rfl _ h).deriv
    rw [this]
    have hl : ScalarFns.leb z 0 = false := decide_eq_false (by rw [fst_zero]; exact not_le.2 h0)
    have hl' : ScalarFns.leb z.fst 0 = false := decide_eq_false (not_le.2 h0)
    have h1 : UnOp.apply .xlnx z = z * extend ScalarFns.ln z := by
      simp only [UnOp.apply, hl]; rfl
    rw [h1, fst_mul, snd_mul, fst_extend, snd_extend]
    have h2 : deriv (ScalarFns.ln : ℝ → ℝ) z.fst = (z.fst)⁻¹ := (Real.hasDerivAt_log h0.ne').deriv
    rw [h2]
    refine ⟨by simp only [UnOp.apply, hl']; rfl, ?_⟩
    simp only [smul_eq_mul, op_smul_eq_smul, ScalarFns.ln]
    field_simp
    ring
  case sigmoid =>
    have hd : deriv (UnOp.apply .sigmoid : ℝ → ℝ) z.fst = sigmoid z.fst * (1 - sigmoid z.fst) :=
      (hasDerivAt_un .sigmoid rfl _ h).deriv
    have he : ∀ x, deriv (ScalarFns.exp : ℝ → ℝ) x = Real.exp x := fun x =>
      (Real.hasDerivAt_exp x).deriv
    rw [hd, sigmoid_eq]
    simp only [UnOp.apply]
    rw [sigmoid_eq]
    by_cases h0 : 0 ≤ z.fst
    · have h1 : sigmoid z = 1 / (1 + extend ScalarFns.exp (-z)) := by
        simp [sigmoid, ScalarFns.leb, h0, ScalarFns.exp]
      rw [h1, fst_jet_div, snd_jet_div]
      simp only [fst_one, snd_one, fst_add, snd_add, fst_extend, snd_extend, he, fst_neg, snd_neg]
      have := Real.exp_pos (-z.fst)
      refine ⟨rfl, ?_⟩
      simp only [ScalarFns.exp]
      field_simp
      ring
    · have h1 : sigmoid z = extend ScalarFns.exp z / (1 + extend ScalarFns.exp z) := by
        simp [sigmoid, ScalarFns.leb, h0, ScalarFns.exp]
      rw [h1, fst_jet_div, snd_jet_div]
      simp only [fst_one, snd_one, fst_add, snd_add, fst_extend, snd_extend, he]
      have := Real.exp_pos (z.fst)
      simp only [ScalarFns.exp]
      rw [Real.exp_neg]
      constructor
      · field_simp
        ring
      · field_simp
        ring
  all_goals exact ⟨fst_extend _ _, snd_extend _ _⟩

/-! ## Expressions -/

section
variable {F G : Type} (f : F → G)

theorem children_conv (e : Node F) : children (conv f e) = (children e).map (conv f) := by
  cases e <;> rfl

theorem subExpr_conv {e : Node F} {s : Node G} (h : SubExpr s (conv f e)) :
    ∃ s', SubExpr s' e ∧ s = conv f s' := by
  generalize he : conv f e = e' at h
  induction h generalizing e with
  | refl => exact ⟨e, .refl e, he.symm⟩
  | step hc _ ih =>
    subst he
    rw [children_conv, List.mem_map] at hc
    obtain ⟨a, ha, rfl⟩ := hc
    obtain ⟨s', hs', rfl⟩ := ih rfl
    exact ⟨s', .step ha hs', rfl⟩

theorem cacheFree_conv {e : Node F} (h : CacheFree e) : CacheFree (conv f e) := by
  intro n i hs
  obtain ⟨s, hs, he⟩ := subExpr_conv f hs
  cases s <;> cases he
  exact h _ _ hs

theorem needsId_conv {e : Node F} {i : Id} (h : NeedsId (conv f e) i) : NeedsId e i := by
  rcases h with h | ⟨t, h⟩ | ⟨j, h⟩ | ⟨n, h⟩ <;> obtain ⟨s, hs, he⟩ := subExpr_conv f h <;>
    cases s <;> cases he
  · exact .inl hs
  · exact .inr (.inl ⟨_, hs⟩)
  · exact .inr (.inr (.inl ⟨_, hs⟩))
  · exact .inr (.inr (.inr ⟨_, hs⟩))

theorem contains_conv (e : Node F) (i : Id) : (conv f e).contains i = e.contains i := by
  induction e with
  | var | varAdj | const | constSpec => rfl
  | constAdj n t ih | cached n i ih => simp only [conv, Node.contains, ih]
  | sum n ih | un op n ih => simpa only [conv, Node.contains] using ih
  | add l r ihl ihr | sub l r ihl ihr | mul l r ihl ihr | div l r ihl ihr | power l r ihl ihr
  | contract k l r ihl ihr => simp only [conv, Node.contains, ihl, ihr]

theorem fixedSize_conv {Γ : Id → BTy} {e : Node F} (h : FixedSize Γ e) :
    FixedSize Γ (conv f e) := by
  refine ⟨fun i hi => h.1 i (by rwa [contains_conv] at hi), fun τ b hs => ?_, fun τ b hs => ?_⟩ <;>
    obtain ⟨s, hs', he⟩ := subExpr_conv f hs <;> cases s <;> cases he
  · exact h.2.1 _ _ hs'
  · exact h.2.2 _ _ hs'

theorem regular_conv {Γ : Id → BTy} {e : Node F} {τ : BTy} (d : FnImpl Γ e τ)
    (h : FnImpl.Regular d) : FnImpl.Regular (d.conv f) := by
  induction d with
  | var | varAdj | const | constSpec => trivial
  | constAdj d t k ih => exact ih h
  | cached i d ih => exact ih h
  | sum d ih => exact ih h
  | un op d ih => exact ih h
  | add dl dr z ihl ihr => exact ⟨ihl h.1, ihr h.2⟩
  | mul dl dr z ihl ihr => exact ⟨ihl h.1, ihr h.2⟩
  | power dl dr ihl ihr => exact ⟨ihl h.1, ihr h.2⟩
  | sub dl dr z ihl ihr => exact ⟨ihl h.1, ihr h.2.1, h.2.2⟩
  | div dl dr z ihl ihr => exact ⟨ihl h.1, ihr h.2.1, h.2.2⟩
  | contract dl dr z ihl ihr => exact ⟨ihl h.1, ihr h.2.1, h.2.2⟩

theorem evalExplicit_conv {e : Node F} : EvalExplicit (conv f e) ↔ EvalExplicit e := by
  induction e with
  | var | varAdj | const | constSpec | constAdj | cached | div | contract => exact Iff.rfl
  | sum n ih | un op n ih => exact ih
  | add l r ihl ihr | sub l r ihl ihr => exact or_congr ihl ihr
  | mul l r ihl ihr | power l r ihl ihr => exact and_congr ihl ihr

end

/-- The real point at time `s`. -/
noncomputable abbrev envAt (ρ : Id → Tensor Jet) (s : ℝ) : Id → Tensor ℝ := fun i =>
  tensorAt s (ρ i)

theorem den_jet_dims (ρ : Id → Tensor Jet) (s : ℝ) (e : Node ℝ) :
    (den ρ (conv inl e)).dims = (den (envAt ρ s) e).dims := by
  induction e with
  | var | varAdj => rfl
  | const τ b => simp only [conv, den, Tensor.ofBuf, Buf.dims_map]
  | constSpec τ b =>
    cases b
    · simp only [conv, convSpec, den, Tensor.ofSpec, Tensor.ofBuf, Buf.dims_map]
    · rfl
    · rfl
  | constAdj n t ih => simp only [conv, den, Tensor.const, ih]; rfl
  | cached n i ih => exact ih
  | add l r ihl ihr | sub l r ihl ihr | mul l r ihl ihr | div l r ihl ihr =>
    simp only [conv, den, Tensor.zip, ihl, ihr]
  | power l r ihl ihr => rfl
  | contract k l r ihl ihr => simp only [conv, den, Tensor.contract, ihl, ihr]
  | sum n ih => rfl
  | un op n ih => exact ih

theorem fst_sumOver (K : Dims) (f : Idx → Jet) :
    (sumOver K f).fst = sumOver K fun ix => (f ix).fst := by
  induction K generalizing f with
  | nil => rfl
  | cons d K ih => simp only [sumOver, fst_sum, ih]

theorem snd_sumOver (K : Dims) (f : Idx → Jet) :
    (sumOver K f).snd = sumOver K fun ix => (f ix).snd := by
  induction K generalizing f with
  | nil => rfl
  | cons d K ih => simp only [sumOver, snd_sum, ih]

theorem env_const {ρ : Id → Tensor Jet} {r : Node ℝ} (h : ∀ i, Occurs r i → ¬ Moves ρ i) (s : ℝ) :
    den (envAt ρ s) r = den (envAt ρ 0) r := by
  refine den_congr r fun i hi => ?_
  have := h i hi
  simp only [Moves, not_exists, not_not] at this
  simp only [envAt, tensorAt, Jet.at, this, mul_zero]

/-- Values and derivatives of a tensor expression by dual numbers. -/
theorem den_forward {ρ : Id → Tensor Jet} {e : Node ℝ} (hc : Compat (envAt ρ 0) e)
    (hs : SmoothFor ρ e) : ∀ ix, InBounds (den (envAt ρ 0) e).dims ix →
      ((den ρ (conv inl e)).val ix).fst = (den (envAt ρ 0) e).val ix ∧
      HasDerivAt (fun s => (den (envAt ρ s) e).val ix) ((den ρ (conv inl e)).val ix).snd 0 := by
  have pd : ∀ s n, (den (envAt ρ s) n).dims = (den (envAt ρ 0) n).dims := fun s n =>
    den_dims_congr (ρ := envAt ρ s) (ρ' := envAt ρ 0) (fun _ => rfl) n
  have jd : ∀ n, (den ρ (conv inl n)).dims = (den (envAt ρ 0) n).dims := den_jet_dims ρ 0
  induction e with
  | var i =>
    intro ix _
    refine ⟨by simp [den, conv, envAt, tensorAt, Jet.at], ?_⟩
    have := ((hasDerivAt_id (0 : ℝ)).mul_const ((ρ i).val ix).snd).const_add ((ρ i).val ix).fst
    simpa [den, conv, envAt, tensorAt, Jet.at] using this
  | varAdj i t =>
    intro ix _
    by_cases h : decide (i = t) = true ∧
        List.take (ρ i).dims.length ix = List.drop (ρ i).dims.length ix
    · have h1 : ∀ s, (den (envAt ρ s) (.varAdj i t)).val ix = 1 := fun s => if_pos h
      have h2 : (den ρ (conv inl (.varAdj i t))).val ix = 1 := if_pos h
      simp only [h1, h2]
      exact ⟨rfl, hasDerivAt_const _ _⟩
    · have h1 : ∀ s, (den (envAt ρ s) (.varAdj i t)).val ix = 0 := fun s => if_neg h
      have h2 : (den ρ (conv inl (.varAdj i t))).val ix = 0 := if_neg h
      simp only [h1, h2]
      exact ⟨rfl, hasDerivAt_const _ _⟩
  | const τ b =>
    intro ix hix
    have hix : InBounds (Buf.dims τ b) ix := hix
    obtain ⟨x, hx⟩ := Option.isSome_iff_exists.1 ((Buf.getU_isSome_iff _ _ _).2 hix)
    have h1 : (den ρ (conv inl (.const τ b))).val ix = inl x := by
      simp [den, conv, Tensor.ofBuf, Buf.getU_map, hx]
    rw [h1]
    refine ⟨by simp [den, Tensor.ofBuf, hx], ?_⟩
    rw [snd_inl]
    exact hasDerivAt_const _ _
  | constSpec τ b =>
    intro ix hix
    have h1 : (den ρ (conv inl (.constSpec τ b))).val ix
        = inl ((den (envAt ρ 0) (.constSpec τ b)).val ix) := by
      cases b with
      | raw b =>
        have hix : InBounds (Buf.dims τ b) ix := hix
        obtain ⟨x, hx⟩ := Option.isSome_iff_exists.1 ((Buf.getU_isSome_iff _ _ _).2 hix)
        simp [den, conv, convSpec, Tensor.ofSpec, Tensor.ofBuf, Buf.getU_map, hx]
      | full s x => rfl
      | diagonal s x =>
        simp only [den, conv, convSpec, Tensor.ofSpec]
        split <;> simp
    rw [h1]
    refine ⟨rfl, ?_⟩
    rw [snd_inl]
    exact hasDerivAt_const (0 : ℝ) ((Tensor.ofSpec b).val ix)
  | constAdj n t ih =>
    intro ix _
    exact ⟨rfl, hasDerivAt_const _ _⟩
  | cached n i ih => exact ih hc hs
  | add l r ihl ihr | sub l r ihl ihr | mul l r ihl ihr =>
    intro ix hix
    obtain ⟨bl, br⟩ := bcast_inBounds hc.2.2 hix
    obtain ⟨vl, dl⟩ := ihl hc.1 hs.1 _ bl
    obtain ⟨vr, dr⟩ := ihr hc.2.1 hs.2 _ br
    simp only [den, conv, Tensor.zip, pd, jd, fst_add, fst_sub, fst_mul, snd_add, snd_sub, snd_mul,
      vl, vr]
    refine ⟨trivial, ?_⟩
    first
      | exact dl.add dr
      | exact dl.sub dr
      | refine (dl.mul dr).congr_deriv ?_
        simp only [smul_eq_mul, op_smul_eq_smul]
        ring
  | div l r ihl ihr =>
    intro ix hix
    obtain ⟨bl, br⟩ := bcast_inBounds hc.2.2 hix
    obtain ⟨vl, dl⟩ := ihl hc.1 hs.1 _ bl
    obtain ⟨vr, dr⟩ := ihr hc.2.1 hs.2.1 _ br
    have h0 := hs.2.2 _ br
    simp only [den, conv, Tensor.zip, pd, jd, fst_jet_div, snd_jet_div, vl, vr]
    refine ⟨trivial, ?_⟩
    refine (dl.div dr h0).congr_deriv ?_
    field_simp
  | power l r ihl ihr =>
    intro ix hix
    have bl : InBounds (den (envAt ρ 0) l).dims [] := by rw [hc.2.2.1]; exact .nil
    have br : InBounds (den (envAt ρ 0) r).dims [] := by rw [hc.2.2.2]; exact .nil
    obtain ⟨vl, dl⟩ := ihl hc.1 hs.1 _ bl
    obtain ⟨vr, dr⟩ := ihr hc.2.1 hs.2.1 _ br
    show (extend₂ ScalarFns.pow ((den ρ (conv inl l)).val []) ((den ρ (conv inl r)).val [])).fst = _ ∧
      HasDerivAt (fun s => (den (envAt ρ s) l).val [] ^ (den (envAt ρ s) r).val [])
        (extend₂ ScalarFns.pow ((den ρ (conv inl l)).val []) ((den ρ (conv inl r)).val [])).snd 0
    rw [fst_extend₂, snd_extend₂, vl, vr]
    refine ⟨rfl, ?_⟩
    by_cases hpos : 0 < (den (envAt ρ 0) l).val []
    · refine (dl.rpow dr hpos).congr_deriv ?_
      have h1 := (Real.hasDerivAt_rpow_const (x := (den (envAt ρ 0) l).val [])
        (p := (den (envAt ρ 0) r).val []) (.inl hpos.ne')).deriv
      have h2 := ((Real.hasStrictDerivAt_const_rpow hpos
        ((den (envAt ρ 0) r).val [])).hasDerivAt).deriv
      have h1' : deriv (fun x : ℝ => ScalarFns.pow x ((den (envAt ρ 0) r).val []))
        ((den (envAt ρ 0) l).val []) = _ := h1
      have h2' : deriv (fun y : ℝ => ScalarFns.pow ((den (envAt ρ 0) l).val []) y)
        ((den (envAt ρ 0) r).val []) = _ := h2
      rw [h1', h2']
      ring
    · obtain ⟨hno, n, hn1, hn⟩ := hs.2.2.resolve_left hpos
      have hr : ∀ s, (den (envAt ρ s) r).val [] = n := fun s => by rw [env_const hno s]; exact hn
      have h0 : ((den ρ (conv inl r)).val []).snd = 0 := by
        refine dr.unique ?_
        simp only [hr]
        exact hasDerivAt_const _ _
      rw [h0, mul_zero, add_zero]
      simp only [hr, Real.rpow_natCast]
      have h1 : deriv (fun x : ℝ => ScalarFns.pow x (n : ℝ)) ((den (envAt ρ 0) l).val [])
          = n * ((den (envAt ρ 0) l).val []) ^ (n - 1) := by
        have : (fun x : ℝ => ScalarFns.pow x (n : ℝ)) = fun x => x ^ n := by
          funext x; exact Real.rpow_natCast x n
        rw [this]
        simp
      rw [h1]
      exact dl.pow n
  | contract c l r ihl ihr =>
    have vl := ihl hc.1 hs.1
    have vr := ihr hc.2.1 hs.2
    generalize hk0 : (if (den (envAt ρ 0) l).dims = [] ∧ (den (envAt ρ 0) r).dims = [] then 0 else c)
      = k0
    have hp : ∃ p q s, q.length = k0 ∧ (den (envAt ρ 0) l).dims = p ++ q ∧
        (den (envAt ρ 0) r).dims = q ++ s := by
      rcases hc.2.2 with ⟨h1, h2⟩ | ⟨p, q, s, hq, h1, h2⟩
      · exact ⟨[], [], [], by simpa [h1, h2] using hk0, h1, h2⟩
      · refine ⟨p, q, s, ?_, h1, h2⟩
        rw [← hk0]
        split
        · rename_i h; rw [h.1] at h1; simp_all
        · exact hq
    obtain ⟨p, q, s, hq, hL, hR⟩ := hp
    have e3 : ∀ x, den (envAt ρ x) (.contract c l r)
        = .contract k0 (den (envAt ρ x) l) (den (envAt ρ x) r) := by
      intro x
      simp only [den, pd x l, pd x r, hk0]
    have e4 : den ρ (conv inl (.contract c l r))
        = .contract k0 (den ρ (conv inl l)) (den ρ (conv inl r)) := by
      simp only [den, conv, jd, hk0]
    intro ix hix
    rw [e3, (tcontract_eq hL hR hq).1] at hix
    obtain ⟨i1, i2, h1, h2, rfl⟩ := inBounds_append.1 hix
    have e5 : ∀ x, (den (envAt ρ x) (.contract c l r)).val (i1 ++ i2) = sumOver q fun t' =>
        (den (envAt ρ x) l).val (i1 ++ t') * (den (envAt ρ x) r).val (t' ++ i2) := by
      intro x
      rw [e3 x]
      exact (tcontract_eq ((pd x l).trans hL) ((pd x r).trans hR) hq).2 i1 i2 h1
    have e6 : (den ρ (conv inl (.contract c l r))).val (i1 ++ i2) = sumOver q fun t' =>
        (den ρ (conv inl l)).val (i1 ++ t') * (den ρ (conv inl r)).val (t' ++ i2) := by
      rw [e4]
      exact (tcontract_eq ((jd l).trans hL) ((jd r).trans hR) hq).2 i1 i2 h1
    have key : ∀ t', InBounds q t' → _ := fun t' ht' =>
      And.intro (vl (i1 ++ t') (by rw [hL]; exact inBounds_append.2 ⟨_, _, h1, ht', rfl⟩))
        (vr (t' ++ i2) (by rw [hR]; exact inBounds_append.2 ⟨_, _, ht', h2, rfl⟩))
    rw [e6, fst_sumOver, snd_sumOver, e5]
    refine ⟨sumOver_congr fun t' ht' => ?_, ?_⟩
    · rw [fst_mul, (key t' ht').1.1, (key t' ht').2.1]
    · simp only [e5]
      refine hasDerivAt_sumOver (f := fun t' x => (den (envAt ρ x) l).val (i1 ++ t')
        * (den (envAt ρ x) r).val (t' ++ i2)) fun t' ht' => ?_
      refine ((key t' ht').1.2.mul (key t' ht').2.2).congr_deriv ?_
      rw [snd_mul, (key t' ht').1.1, (key t' ht').2.1]
      simp only [smul_eq_mul, op_smul_eq_smul]
      ring
  | sum n ih =>
    intro ix hix
    have vn := ih hc hs
    simp only [den, conv, pd, jd, fst_sumOver, snd_sumOver]
    exact ⟨sumOver_congr fun k hk => (vn k hk).1,
      hasDerivAt_sumOver (f := fun k s => (den (envAt ρ s) n).val k) fun k hk => (vn k hk).2⟩
  | un op n ih =>
    intro ix hix
    obtain ⟨vn, dn⟩ := ih hc hs.1 ix hix
    have hi := hs.2 ix hix
    have hd := (differentiableAt_un op _ hi).hasDerivAt
    obtain ⟨h1, h2⟩ := jet_un op ((den ρ (conv inl n)).val ix) (by rw [vn]; exact hi)
    rw [vn] at h1 h2
    refine ⟨h1, ?_⟩
    show HasDerivAt (fun s => op.apply ((den (envAt ρ s) n).val ix))
      (op.apply ((den ρ (conv inl n)).val ix)).snd 0
    rw [h2]
    exact hd.comp (0 : ℝ) dn

/-! ## The `Power` shortcuts -/

theorem powSafe_of_children {F : Type} [CommRing F] [Div F] [ScalarFns F] {ρ : Id → Tensor F} {e : Node F} (h : ∀ c ∈ children e, PowSafe ρ c)
    (hp : ∀ l r, e = .power l r →
      ((den ρ l).val [] = 0 → ScalarFns.pow 0 ((den ρ r).val []) = (0 : F))) : PowSafe ρ e := by
  intro l r hs
  cases hs with
  | refl => exact .inr (hp l r rfl)
  | step hc hs => exact h _ hc l r hs

open Filter Topology in
theorem powSafe_near {ρ : Id → Tensor Jet} {e : Node ℝ} (hc : Compat (envAt ρ 0) e)
    (hs : SmoothFor ρ e) : ∀ᶠ s in 𝓝 (0 : ℝ), PowSafe (envAt ρ s) e := by
  induction e with
  | var | varAdj | const | constSpec =>
    exact .of_forall fun s => powSafe_of_children (fun c h => nomatch h) nofun
  | constAdj n t ih =>
    refine .of_forall fun s => powSafe_of_children (fun c h => ?_) nofun
    rw [List.mem_singleton.1 h]
    exact fun l r h => absurd h (hs l r)
  | cached n i ih | sum n ih =>
    filter_upwards [ih hc hs] with s h
    refine powSafe_of_children (fun c hm => ?_) nofun
    rw [List.mem_singleton.1 hm]
    exact h
  | un op n ih =>
    filter_upwards [ih hc hs.1] with s h
    refine powSafe_of_children (fun c hm => ?_) nofun
    rw [List.mem_singleton.1 hm]
    exact h
  | add l r ihl ihr | sub l r ihl ihr | mul l r ihl ihr | contract k l r ihl ihr =>
    filter_upwards [ihl hc.1 hs.1, ihr hc.2.1 hs.2] with s h1 h2
    refine powSafe_of_children (fun c hm => ?_) nofun
    simp only [children, List.mem_cons, List.not_mem_nil, or_false] at hm
    rcases hm with rfl | rfl <;> assumption
  | div l r ihl ihr =>
    filter_upwards [ihl hc.1 hs.1, ihr hc.2.1 hs.2.1] with s h1 h2
    refine powSafe_of_children (fun c hm => ?_) nofun
    simp only [children, List.mem_cons, List.not_mem_nil, or_false] at hm
    rcases hm with rfl | rfl <;> assumption
  | power l r ihl ihr =>
    have key : ∀ᶠ s in 𝓝 (0 : ℝ), (den (envAt ρ s) l).val [] = 0 →
        ScalarFns.pow 0 ((den (envAt ρ s) r).val []) = (0 : ℝ) := by
      by_cases hpos : 0 < (den (envAt ρ 0) l).val []
      · have bl : InBounds (den (envAt ρ 0) l).dims [] := by rw [hc.2.2.1]; exact .nil
        have := (den_forward hc.1 hs.1 _ bl).2.continuousAt
        filter_upwards [this.eventually (lt_mem_nhds hpos)] with s h h0
        exact absurd h0 h.ne'
      · obtain ⟨hno, n, hn1, hn⟩ := hs.2.2.resolve_left hpos
        refine .of_forall fun s _ => ?_
        rw [env_const hno s, hn]
        exact Real.zero_rpow (by positivity)
    filter_upwards [ihl hc.1 hs.1, ihr hc.2.1 hs.2.1, key] with s h1 h2 h3
    refine powSafe_of_children (fun c hm => ?_) fun l' r' he => ?_
    · simp only [children, List.mem_cons, List.not_mem_nil, or_false] at hm
      rcases hm with rfl | rfl <;> assumption
    · cases he
      exact h3

theorem powSafe_jet {ρ : Id → Tensor Jet} {e : Node ℝ} (hc : Compat (envAt ρ 0) e)
    (hs : SmoothFor ρ e) : PowSafe ρ (conv inl e) := by
  induction e with
  | var | varAdj | const | constSpec => exact powSafe_of_children (fun c h => nomatch h) nofun
  | constAdj n t ih =>
    refine powSafe_of_children (fun c h => ?_) nofun
    rw [List.mem_singleton.1 h]
    intro l r h
    obtain ⟨s, hs', he⟩ := subExpr_conv _ h
    cases s <;> cases he
    exact absurd hs' (hs _ _)
  | cached n i ih | sum n ih =>
    refine powSafe_of_children (fun c hm => ?_) nofun
    rw [List.mem_singleton.1 hm]
    exact ih hc hs
  | un op n ih =>
    refine powSafe_of_children (fun c hm => ?_) nofun
    rw [List.mem_singleton.1 hm]
    exact ih hc hs.1
  | add l r ihl ihr | sub l r ihl ihr | mul l r ihl ihr | contract k l r ihl ihr =>
    refine powSafe_of_children (fun c hm => ?_) nofun
    simp only [conv, children, List.mem_cons, List.not_mem_nil, or_false] at hm
    rcases hm with rfl | rfl
    · exact ihl hc.1 hs.1
    · exact ihr hc.2.1 hs.2
  | div l r ihl ihr =>
    refine powSafe_of_children (fun c hm => ?_) nofun
    simp only [conv, children, List.mem_cons, List.not_mem_nil, or_false] at hm
    rcases hm with rfl | rfl
    · exact ihl hc.1 hs.1
    · exact ihr hc.2.1 hs.2.1
  | power l r ihl ihr =>
    refine powSafe_of_children (fun c hm => ?_) fun l' r' he => ?_
    · simp only [conv, children, List.mem_cons, List.not_mem_nil, or_false] at hm
      rcases hm with rfl | rfl
      · exact ihl hc.1 hs.1
      · exact ihr hc.2.1 hs.2.1
    · cases he
      intro h0
      have bl : InBounds (den (envAt ρ 0) l).dims [] := by rw [hc.2.2.1]; exact .nil
      have br : InBounds (den (envAt ρ 0) r).dims [] := by rw [hc.2.2.2]; exact .nil
      have vl := (den_forward hc.1 hs.1 _ bl).1
      obtain ⟨vr, dr⟩ := den_forward hc.2.1 hs.2.1 _ br
      rw [h0, fst_zero] at vl
      obtain ⟨hno, n, hn1, hn⟩ := hs.2.2.resolve_left (show ¬ 0 < (den (envAt ρ 0) l).val [] from by
        rw [← vl]; exact lt_irrefl 0)
      have hr : ∀ s, (den (envAt ρ s) r).val [] = n := fun s => by rw [env_const hno s]; exact hn
      have h0 : ((den ρ (conv inl r)).val []).snd = 0 := by
        refine dr.unique ?_
        simp only [hr]
        exact hasDerivAt_const _ _
      have hn' : (0 : ℝ) ^ (n : ℝ) = 0 := Real.zero_rpow (by positivity)
      refine jet_ext ?_ ?_
      · show (extend₂ _ _ _).fst = _
        rw [fst_extend₂, vr, hr, fst_zero]
        exact hn'
      · show (extend₂ _ _ _).snd = _
        rw [snd_extend₂, h0, snd_zero, mul_zero, mul_zero, add_zero]

/-! ## Contexts -/

theorem envOf_convCtx {Γ : Id → BTy} (c : Ctx Jet Γ) (s : ℝ) :
    envOf (convCtx (Jet.at s) c) = envAt (envOf c) s := by
  funext i
  unfold envAt tensorAt
  cases hci : c i with
  | none =>
    simp [envOf, convCtx, hci, Tensor.const, Jet.at]
  | some b =>
    simp only [envOf, convCtx, hci, Option.map_some, Tensor.ofBuf, Buf.dims_map, Buf.getU_map]
    congr 1
    funext ix
    cases Buf.getU _ b ix <;> simp [Jet.at]

end Aegir
