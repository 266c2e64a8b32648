import Verif.Lemmas.LearningIter
import Verif.Props.C54_LogisticExample
import Verif.Props.C75_LinearConverges
import Mathlib.Analysis.SpecialFunctions.Sigmoid
import Mathlib.Analysis.Calculus.MeanValue
/-!
# C79: the logistic regression example learns (`aegir/examples/logistic.rs`), over exact reals

C54 compares the weights of the moment with the best fixed weights, whatever the labels. Here samples
are independent and labels are drawn as the program draws them, with the probabilities of the true
weights.
-/

namespace Aegir.Examples

open MeasureTheory ProbabilityTheory Filter Topology
open scoped ENNReal

variable {N : Nat}

/-! ### The logistic function -/

theorem logistic_eq : logistic = Real.sigmoid := by
  funext z
  rw [logistic, Real.sigmoid_def, one_div]

theorem continuous_logistic : Continuous logistic := by
  rw [logistic_eq]
  exact continuous_sigmoid

/-- Symmetrised divergence of the label distributions with log-odds `a` and `b`. -/
noncomputable def gap (a b : ℝ) : ℝ := (logistic a - logistic b) * (a - b)

theorem gap_nonneg (a b : ℝ) : 0 ≤ gap a b := by
  rcases le_total a b with h | h
  · exact mul_nonneg_of_nonpos_of_nonpos (by linarith [logistic_mono h]) (by linarith)
  · exact mul_nonneg (by linarith [logistic_mono h]) (by linarith)

theorem gap_comm (a b : ℝ) : gap a b = gap b a := by unfold gap; ring

/-- The logistic function is nowhere steeper than `1 / 4`. -/
theorem logistic_sub_le {a b : ℝ} (h : b ≤ a) : logistic a - logistic b ≤ 1 / 4 * (a - b) := by
  rw [logistic_eq]
  refine Convex.image_sub_le_mul_sub_of_deriv_le (D := Set.univ) convex_univ
    continuous_sigmoid.continuousOn differentiable_sigmoid.differentiableOn
    (fun x _ => ?_) b (Set.mem_univ _) a (Set.mem_univ _) h
  rw [Real.deriv_sigmoid]
  nlinarith [sq_nonneg (Real.sigmoid x - 1 / 2)]

/-- The squared difference of the probabilities is at most a quarter of the divergence. -/
theorem sq_le_gap (a b : ℝ) : 4 * (logistic a - logistic b) ^ 2 ≤ gap a b := by
  wlog h : b ≤ a generalizing a b
  · have := this b a (le_of_not_ge h)
    rw [gap_comm a b]
    linarith [show (logistic b - logistic a) ^ 2 = (logistic a - logistic b) ^ 2 by ring]
  have h1 := logistic_sub_le h
  have h0 : 0 ≤ logistic a - logistic b := by linarith [logistic_mono h]
  unfold gap
  nlinarith

theorem logistic_slope (z : ℝ) : Real.exp (-|z|) / 4 ≤ logistic z * (1 - logistic z) := by
  wlog h : 0 ≤ z generalizing z
  · have := this (-z) (by linarith)
    rw [abs_neg, ← one_sub_logistic] at this
    linarith
  have h0 := Real.exp_pos (-z)
  have h1 : Real.exp (-z) ≤ 1 := Real.exp_le_one_iff.2 (by linarith)
  rw [abs_of_nonneg h]
  have e : logistic z * (1 - logistic z) = Real.exp (-z) / (1 + Real.exp (-z)) ^ 2 := by
    unfold logistic
    field_simp
    ring
  rw [e]
  gcongr
  nlinarith

/-- From below. -/
theorem gap_ge {β a b : ℝ} (hb : |b| ≤ β) :
    Real.exp (-(β + 1)) / 4 * ((a - b) ^ 2 / (1 + |a - b|)) ≤ gap a b := by
  have hm0 := Real.exp_pos (-(β + 1))
  have hslope : ∀ {c d : ℝ}, c ≤ d → |c| ≤ β + 1 → |d| ≤ β + 1 →
      Real.exp (-(β + 1)) / 4 * (d - c) ≤ logistic d - logistic c := fun {c d} hcd hc hd => by
    rw [logistic_eq]
    refine Convex.mul_sub_le_image_sub_of_le_deriv (D := Set.Icc c d) (convex_Icc c d)
      continuous_sigmoid.continuousOn differentiable_sigmoid.differentiableOn
      (fun x hx => ?_) c (Set.left_mem_Icc.2 hcd) d (Set.right_mem_Icc.2 hcd) hcd
    rw [interior_Icc] at hx
    rw [Real.deriv_sigmoid, ← logistic_eq]
    refine le_trans ?_ (logistic_slope x)
    have hx' : |x| ≤ β + 1 := abs_le.2 ⟨by linarith [(abs_le.1 hc).1, hx.1], by linarith [(abs_le.1 hd).2, hx.2]⟩
    gcongr
  set m := Real.exp (-(β + 1)) / 4 with hm
  have hm' : 0 < m := by positivity
  have hb' := abs_le.1 hb
  have hβ : 0 ≤ β := le_trans (abs_nonneg b) hb
  have hden : 0 < 1 + |a - b| := by positivity
  -- half of the claim
  have key : ∀ t : ℝ, 0 ≤ t → m * (t / (1 + t)) ≤ logistic (b + t) - logistic b ∧
      m * (t / (1 + t)) ≤ logistic b - logistic (b - t) := fun t ht => by
    have h1 : t / (1 + t) ≤ min t 1 := by
      refine le_min ?_ ?_
      · exact div_le_self ht (by linarith)
      · rw [div_le_one (by linarith)]; linarith
    have hmin0 : 0 ≤ min t 1 := le_min ht zero_le_one
    have hmin1 : min t 1 ≤ 1 := min_le_right _ _
    have hmint : min t 1 ≤ t := min_le_left _ _
    have h2 := hslope (c := b) (d := b + min t 1) (by linarith) (by linarith)
      (abs_le.2 ⟨by linarith, by linarith⟩)
    have h3 := hslope (c := b - min t 1) (d := b) (by linarith)
      (abs_le.2 ⟨by linarith, by linarith⟩) (by linarith)
    have h4 := logistic_mono (show b + min t 1 ≤ b + t by linarith)
    have h5 := logistic_mono (show b - t ≤ b - min t 1 by linarith)
    have h6 : m * (t / (1 + t)) ≤ m * min t 1 := by gcongr
    constructor <;> linarith
  rcases le_total b a with h | h
  · have h1 := (key (a - b) (by linarith)).1
    rw [abs_of_nonneg (by linarith : 0 ≤ a - b)]
    rw [add_sub_cancel] at h1
    have h2 := mul_le_mul_of_nonneg_right h1 (by linarith : 0 ≤ a - b)
    unfold gap
    refine le_trans (le_of_eq ?_) h2
    ring
  · have h1 := (key (b - a) (by linarith)).2
    rw [abs_of_nonpos (by linarith : a - b ≤ 0), neg_sub]
    rw [sub_sub_cancel] at h1
    have h2 := mul_le_mul_of_nonneg_right h1 (by linarith : 0 ≤ b - a)
    rw [gap_comm]
    unfold gap
    refine le_trans (le_of_eq ?_) h2
    ring

/-! ### One step -/

/-- Gradient ascent on the sample `x`, labelled by a coin: true if the uniform number `u` is below the
probability that the true weights give. -/
noncomputable def coinStep (η : ℝ) (tw w : Fin N → ℝ) (d : (Fin N → ℝ) × ℝ) : Fin N → ℝ :=
  ascent η w d.1 (decide (d.2 < logistic (prod' d.1 tw)))

/-- The distance after a step, on average over the label. -/
theorem ascent_mean (η : ℝ) (tw w x : Fin N → ℝ) :
    logistic (prod' x tw) * sqDist (ascent η w x true) tw +
      (1 - logistic (prod' x tw)) * sqDist (ascent η w x false) tw =
    sqDist w tw - 2 * η * gap (prod' x w) (prod' x tw) + η ^ 2 * prod' x x *
      (logistic (prod' x tw) * (1 - logistic (prod' x tw)) +
        (logistic (prod' x w) - logistic (prod' x tw)) ^ 2) := by
  have hd : ∀ b, sqDist (ascent η w x b) tw = sqDist w tw -
      2 * η * (((if b then 1 else 0) - logistic (prod' x w)) * (prod' x tw - prod' x w)) +
      η ^ 2 * (((if b then 1 else 0) - logistic (prod' x w)) ^ 2 * prod' x x) := fun b => by
    generalize hc : (if b then 1 else 0) - logistic (prod' x w) = c
    simp only [sqDist, prod', Finset.mul_sum, ← Finset.sum_sub_distrib, ← Finset.sum_add_distrib]
    refine Finset.sum_congr rfl fun i _ => ?_
    simp only [ascent, hc]
    ring
  rw [hd true, hd false]
  simp only [if_true, Bool.false_eq_true, if_false]
  unfold gap
  ring

/-- The distance shrinks by the divergence, and noise is added. -/
theorem ascent_mean_le {η B : ℝ} (tw w x : Fin N → ℝ) (hx : prod' x x ≤ B) :
    logistic (prod' x tw) * sqDist (ascent η w x true) tw +
      (1 - logistic (prod' x tw)) * sqDist (ascent η w x false) tw +
      (2 * η - η ^ 2 * B / 4) * gap (prod' x w) (prod' x tw) ≤ sqDist w tw + η ^ 2 * B / 4 := by
  have hx0 : 0 ≤ prod' x x := Finset.sum_nonneg fun i _ => mul_self_nonneg _
  have h1 := sq_le_gap (prod' x w) (prod' x tw)
  have h2 : logistic (prod' x tw) * (1 - logistic (prod' x tw)) ≤ 1 / 4 := by
    nlinarith [sq_nonneg (logistic (prod' x tw) - 1 / 2)]
  have h3 := gap_nonneg (prod' x w) (prod' x tw)
  rw [ascent_mean]
  set g := gap (prod' x w) (prod' x tw)
  have h4 : η ^ 2 * prod' x x * (logistic (prod' x tw) * (1 - logistic (prod' x tw)) +
      (logistic (prod' x w) - logistic (prod' x tw)) ^ 2) ≤ η ^ 2 * B * (1 / 4 + g / 4) := by
    refine mul_le_mul (mul_le_mul_of_nonneg_left hx (sq_nonneg η)) (by linarith) ?_ ?_
    · have := logistic_range (prod' x tw)
      have := mul_nonneg this.1.le (by linarith [this.2] : 0 ≤ 1 - logistic (prod' x tw))
      positivity
    · have := hx0.trans hx
      positivity
  linarith

/-! ### Measurability -/

theorem continuous_prod (v : Fin N → ℝ) : Continuous fun x => prod' x v := continuous_inner v

theorem continuous_prod2 : Continuous fun p : (Fin N → ℝ) × (Fin N → ℝ) => prod' p.1 p.2 := by
  unfold prod'
  fun_prop

theorem measurable_coinStep (η : ℝ) (tw : Fin N → ℝ) :
    Measurable fun p : (Fin N → ℝ) × ((Fin N → ℝ) × ℝ) => coinStep η tw p.1 p.2 := by
  have hset : MeasurableSet {p : (Fin N → ℝ) × ((Fin N → ℝ) × ℝ) |
      p.2.2 < logistic (prod' p.2.1 tw)} :=
    measurableSet_lt measurable_snd.snd
      (continuous_logistic.measurable.comp ((continuous_prod tw).measurable.comp measurable_snd.fst))
  have hb : ∀ b, Measurable fun p : (Fin N → ℝ) × ((Fin N → ℝ) × ℝ) => ascent η p.1 p.2.1 b := fun b => by
    refine Continuous.measurable (continuous_pi fun k => ?_)
    have h1 : Continuous fun p : (Fin N → ℝ) × ((Fin N → ℝ) × ℝ) => logistic (prod' p.2.1 p.1) :=
      continuous_logistic.comp (continuous_prod2.comp (continuous_snd.fst.prodMk continuous_fst))
    unfold ascent
    fun_prop
  have h : Measurable fun p : (Fin N → ℝ) × ((Fin N → ℝ) × ℝ) =>
      if p.2.2 < logistic (prod' p.2.1 tw) then ascent η p.1 p.2.1 true else ascent η p.1 p.2.1 false :=
    Measurable.ite hset (hb true) (hb false)
  refine (congrArg Measurable (funext fun p => ?_)).mp h
  unfold coinStep
  by_cases hp : p.2.2 < logistic (prod' p.2.1 tw)
  · rw [if_pos hp, decide_eq_true hp]
  · rw [if_neg hp, decide_eq_false hp]

/-- Independent samples `x` of a distribution on vectors of squared length at most `B`. -/
theorem coin_step_mean {η B : ℝ} {μ : Measure (Fin N → ℝ)} [IsProbabilityMeasure μ]
    (hη : 0 ≤ η) (hηB : η * B ≤ 8) (hB : ∀ᵐ x ∂μ, prod' x x ≤ B) (tw w : Fin N → ℝ) :
    (∫⁻ d, ENNReal.ofReal (sqDist (coinStep η tw w d) tw) ∂μ.prod uniform) +
      ENNReal.ofReal (2 * η - η ^ 2 * B / 4) *
        (∫⁻ x, ENNReal.ofReal (gap (prod' x w) (prod' x tw)) ∂μ) ≤
      ENNReal.ofReal (sqDist w tw) + ENNReal.ofReal (η ^ 2 * B / 4) := by
  have hc : 0 ≤ 2 * η - η ^ 2 * B / 4 := by nlinarith
  have hd0 : ∀ a : Fin N → ℝ, 0 ≤ sqDist a tw := fun a => dist2_nonneg a tw
  have hm1 : Measurable fun d : (Fin N → ℝ) × ℝ => ENNReal.ofReal (sqDist (coinStep η tw w d) tw) :=
    ENNReal.measurable_ofReal.comp ((continuous_dist2 tw).measurable.comp
      ((measurable_coinStep η tw).comp (measurable_const.prodMk measurable_id)))
  have hm2 : Measurable fun x => ENNReal.ofReal (gap (prod' x w) (prod' x tw)) := by
    refine ENNReal.measurable_ofReal.comp (Continuous.measurable ?_)
    have h1 := continuous_logistic.comp (continuous_prod w)
    have h2 := continuous_logistic.comp (continuous_prod tw)
    exact (h1.sub h2).mul ((continuous_prod w).sub (continuous_prod tw))
  have hB0 : 0 ≤ B := by
    obtain ⟨x, hx⟩ := hB.exists
    exact le_trans (Finset.sum_nonneg fun i _ => mul_self_nonneg (x i)) hx
  rw [lintegral_prod _ hm1.aemeasurable, ← lintegral_const_mul _ hm2, ← lintegral_add_right _
    (hm2.const_mul _)]
  calc ∫⁻ x, ((∫⁻ u, ENNReal.ofReal (sqDist (coinStep η tw w (x, u)) tw) ∂uniform) +
        ENNReal.ofReal (2 * η - η ^ 2 * B / 4) * ENNReal.ofReal (gap (prod' x w) (prod' x tw))) ∂μ
      ≤ ∫⁻ _, (ENNReal.ofReal (sqDist w tw) + ENNReal.ofReal (η ^ 2 * B / 4)) ∂μ := by
        refine lintegral_mono_ae (hB.mono fun x hx => ?_)
        have hr := logistic_range (prod' x tw)
        have hcoin := lintegral_coin hr.1.le hr.2.le
          (fun b => ENNReal.ofReal (sqDist (ascent η w x b) tw))
        have hr' : 0 ≤ 1 - logistic (prod' x tw) := by linarith [hr.2]
        have e : (∫⁻ u, ENNReal.ofReal (sqDist (coinStep η tw w (x, u)) tw) ∂uniform) =
            ENNReal.ofReal (logistic (prod' x tw) * sqDist (ascent η w x true) tw +
              (1 - logistic (prod' x tw)) * sqDist (ascent η w x false) tw) := by
          rw [ENNReal.ofReal_add (mul_nonneg hr.1.le (hd0 _)) (mul_nonneg hr' (hd0 _)),
            ENNReal.ofReal_mul hr.1.le, ENNReal.ofReal_mul hr', ← hcoin]
          rfl
        rw [e, ← ENNReal.ofReal_mul hc, ← ENNReal.ofReal_add
          (add_nonneg (mul_nonneg hr.1.le (hd0 _)) (mul_nonneg hr' (hd0 _)))
          (mul_nonneg hc (gap_nonneg _ _)), ← ENNReal.ofReal_add (hd0 _) (by positivity)]
        exact ENNReal.ofReal_le_ofReal (ascent_mean_le tw w x hx)
    _ = _ := by rw [lintegral_const, measure_univ, mul_one]

/-- The divergence from the true label distribution that the weights `w` leave. -/
noncomputable def excess (μ : Measure (Fin N → ℝ)) (tw w : Fin N → ℝ) : ℝ≥0∞ :=
  ∫⁻ x, ENNReal.ofReal (gap (prod' x w) (prod' x tw)) ∂μ

section
variable {Ω : Type} [MeasurableSpace Ω] {P : Measure Ω} [IsProbabilityMeasure P]
  {X : ℕ → Ω → (Fin N → ℝ) × ℝ} {μ : Measure (Fin N → ℝ)} [IsProbabilityMeasure μ] {η B : ℝ}

theorem continuous_gap (tw : Fin N → ℝ) : Continuous fun p : (Fin N → ℝ) × (Fin N → ℝ) =>
    gap (prod' p.2 p.1) (prod' p.2 tw) := by
  have h1 : Continuous fun p : (Fin N → ℝ) × (Fin N → ℝ) => prod' p.2 p.1 :=
    continuous_prod2.comp (continuous_snd.prodMk continuous_fst)
  have h2 : Continuous fun p : (Fin N → ℝ) × (Fin N → ℝ) => prod' p.2 tw :=
    (continuous_prod tw).comp continuous_snd
  exact ((continuous_logistic.comp h1).sub (continuous_logistic.comp h2)).mul (h1.sub h2)

theorem measurable_excess (tw : Fin N → ℝ) : Measurable (excess μ tw) := by
  have h : Measurable fun p : (Fin N → ℝ) × (Fin N → ℝ) =>
      ENNReal.ofReal (gap (prod' p.2 p.1) (prod' p.2 tw)) :=
    ENNReal.measurable_ofReal.comp (continuous_gap tw).measurable
  exact h.lintegral_prod_right'

/-- The divergence is bounded, on average over the iterations. -/
theorem excess_le (hX : ∀ k, Measurable (X k)) (hi : iIndepFun X P)
    (hμ : ∀ k, P.map (X k) = μ.prod uniform) (hη : 0 < η) (hηB : η * B < 8)
    (hB : ∀ᵐ x ∂μ, prod' x x ≤ B) (tw w : Fin N → ℝ) (n : ℕ) :
    (∫⁻ ω, ENNReal.ofReal (sqDist (along (coinStep η tw) w X n ω) tw) ∂P) +
      ∑ k ∈ Finset.range n, ∫⁻ ω, ENNReal.ofReal (2 * η - η ^ 2 * B / 4) *
        excess μ tw (along (coinStep η tw) w X k ω) ∂P ≤
      ENNReal.ofReal (sqDist w tw) + n * ENNReal.ofReal (η ^ 2 * B / 4) :=
  mean_spent (measurable_coinStep η tw) hX hi hμ
    (V := fun v => ENNReal.ofReal (sqDist v tw))
    (ENNReal.measurable_ofReal.comp (continuous_dist2 tw).measurable)
    ((measurable_excess tw).const_mul _) _
    (fun v => coin_step_mean hη.le hηB.le hB tw v) w n

/-- Anything that the divergence bounds. -/
theorem spent (hX : ∀ k, Measurable (X k)) (hi : iIndepFun X P)
    (hμ : ∀ k, P.map (X k) = μ.prod uniform) (hη : 0 < η) (hηB : η * B < 8)
    (hB : ∀ᵐ x ∂μ, prod' x x ≤ B) (tw w : Fin N → ℝ) {f : (Fin N → ℝ) → ℝ} (hf : Measurable f)
    (hf0 : ∀ v, 0 ≤ f v) {κ : ℝ} (hκ : 0 < κ) (hle : ∀ v, ENNReal.ofReal (κ * f v) ≤ excess μ tw v)
    (n : ℕ) :
    (∀ k, Integrable (fun ω => f (along (coinStep η tw) w X k ω)) P) ∧
    ∑ k ∈ Finset.range n, ∫ ω, f (along (coinStep η tw) w X k ω) ∂P ≤
      (sqDist w tw + n * (η ^ 2 * B / 4)) / ((2 * η - η ^ 2 * B / 4) * κ) := by
  have hc : 0 < 2 * η - η ^ 2 * B / 4 := by nlinarith
  have hB0 : 0 ≤ B := by
    obtain ⟨x, hx⟩ := hB.exists
    exact le_trans (Finset.sum_nonneg fun i _ => mul_self_nonneg (x i)) hx
  have hd0 : 0 ≤ sqDist w tw := dist2_nonneg w tw
  have hmW := fun k => measurable_along (measurable_coinStep η tw) hX w k
  have hsum : ∀ n : ℕ, ∑ k ∈ Finset.range n, ∫⁻ ω, ENNReal.ofReal
      ((2 * η - η ^ 2 * B / 4) * κ * f (along (coinStep η tw) w X k ω)) ∂P ≤
      ENNReal.ofReal (sqDist w tw + n * (η ^ 2 * B / 4)) := fun n => by
    have h := le_trans le_add_self (excess_le hX hi hμ hη hηB hB tw w n)
    rw [ENNReal.ofReal_add hd0 (by positivity), ENNReal.ofReal_mul (Nat.cast_nonneg n),
      ENNReal.ofReal_natCast]
    refine le_trans (Finset.sum_le_sum fun k _ => lintegral_mono fun ω => ?_) h
    rw [mul_assoc, ENNReal.ofReal_mul hc.le]
    exact mul_le_mul_right (hle _) _
  have hcκ : 0 < (2 * η - η ^ 2 * B / 4) * κ := mul_pos hc hκ
  have hint : ∀ k, Integrable (fun ω => (2 * η - η ^ 2 * B / 4) * κ *
      f (along (coinStep η tw) w X k ω)) P := fun k => by
    refine ⟨((hf.comp (hmW k)).const_mul _).aestronglyMeasurable, ?_⟩
    rw [hasFiniteIntegral_iff_ofReal (.of_forall fun _ => mul_nonneg hcκ.le (hf0 _))]
    refine lt_of_le_of_lt (le_trans ?_ (hsum (k + 1))) ENNReal.ofReal_lt_top
    exact Finset.single_le_sum (f := fun k => ∫⁻ ω, ENNReal.ofReal
      ((2 * η - η ^ 2 * B / 4) * κ * f (along (coinStep η tw) w X k ω)) ∂P)
      (fun _ _ => zero_le) (Finset.self_mem_range_succ k)
  refine ⟨fun k => ?_, ?_⟩
  · have := (hint k).const_mul ((2 * η - η ^ 2 * B / 4) * κ)⁻¹
    simpa only [← mul_assoc, inv_mul_cancel₀ hcκ.ne', one_mul] using this
  · have h := hsum n
    have e : ∀ k, ∫⁻ ω, ENNReal.ofReal
        ((2 * η - η ^ 2 * B / 4) * κ * f (along (coinStep η tw) w X k ω)) ∂P =
        ENNReal.ofReal ((2 * η - η ^ 2 * B / 4) * κ *
          ∫ ω, f (along (coinStep η tw) w X k ω) ∂P) := fun k => by
      rw [← integral_const_mul]
      exact (ofReal_integral_eq_lintegral_ofReal (hint k)
        (.of_forall fun _ => mul_nonneg hcκ.le (hf0 _))).symm
    simp only [e] at h
    rw [← ENNReal.ofReal_sum_of_nonneg (fun k _ => mul_nonneg hcκ.le
      (integral_nonneg fun _ => hf0 _)), ENNReal.ofReal_le_ofReal_iff (by positivity),
      ← Finset.mul_sum] at h
    rw [le_div_iff₀ hcκ]
    linarith

/-! ### The program -/

theorem ascents_coin (η : ℝ) (tw w : Fin N → ℝ) (l : List ((Fin N → ℝ) × ℝ)) :
    ascents η w (l.map fun d => (d.1, decide (d.2 < logistic (prod' d.1 tw)))) =
      l.foldl (coinStep η tw) w := by
  induction l generalizing w with
  | nil => rfl
  | cons d l ih => exact ih _

/-- What the program draws in the first `n` iterations, when the generator returns the numbers `X`: the
sample, and for `gen_bool(p)` whether a uniform number is below `p`. -/
noncomputable def drawn (tw : NArr ℝ [N]) (X : ℕ → Ω → (Fin N → ℝ) × ℝ) (n : ℕ) (ω : Ω) :
    List (NArr ℝ [N] × Bool) :=
  List.ofFn fun i : Fin n => (NArr.ofElems (X i ω).1,
    decide ((X i ω).2 < logistic (prod' (X i ω).1 tw.elem)))

omit [MeasurableSpace Ω] in
theorem run_drawn (η : ℝ) (tw : NArr ℝ [N]) (s : Data ℝ N) (X : ℕ → Ω → (Fin N → ℝ) × ℝ) (n : ℕ)
    (ω : Ω) : ∃ s', logisticRun η tw s (drawn tw X n ω) = .ok s' ∧
      s'.w.elem = along (coinStep η tw.elem) s.w.elem X n ω := by
  obtain ⟨s', h, hw⟩ := C54_run η tw (drawn tw X n ω) s
  refine ⟨s', h, hw.trans ?_⟩
  rw [along, ← ascents_coin]
  congr 1
  simp only [drawn, List.map_ofFn]
  congr 1
  funext i
  simp only [Function.comp_apply]
  congr 1
  funext k
  exact NArr.row_mkRows (ds := []) _ k

/-- Independent samples from any distribution on vectors of squared length at most `B`. The program never
panics. The expected squared distance to the true weights grows by at most `η² B / 4` per iteration, and
the squared errors of the probabilities, on a new sample, add up to what the distance to the true weights
was in the beginning, and noise proportional to the rate. -/
theorem C79_random (hX : ∀ k, Measurable (X k)) (hi : iIndepFun X P)
    (hμ : ∀ k, P.map (X k) = μ.prod uniform) (hη : 0 < η) (hηB : η * B < 8)
    (hB : ∀ᵐ x ∂μ, prod' x x ≤ B) (tw : NArr ℝ [N]) (s : Data ℝ N) :
    ∃ W : ℕ → Ω → Fin N → ℝ,
      (∀ n ω, ∃ s', logisticRun η tw s (drawn tw X n ω) = .ok s' ∧ s'.w.elem = W n ω) ∧
      ∀ n, (Integrable (fun ω => sqDist (W n ω) tw.elem) P ∧
        ∫ ω, sqDist (W n ω) tw.elem ∂P ≤ sqDist s.w.elem tw.elem + n * (η ^ 2 * B / 4)) ∧
      ∑ k ∈ Finset.range n, ∫ ω, ∫ x,
        (logistic (prod' x (W k ω)) - logistic (prod' x tw.elem)) ^ 2 ∂μ ∂P ≤
        (sqDist s.w.elem tw.elem + n * (η ^ 2 * B / 4)) / ((2 * η - η ^ 2 * B / 4) * 4) := by
  refine ⟨fun n ω => along (coinStep η tw.elem) s.w.elem X n ω, fun n ω => run_drawn η tw s X n ω,
    fun n => ⟨?_, ?_⟩⟩
  · have h := le_trans le_self_add (excess_le hX hi hμ hη hηB hB tw.elem s.w.elem n)
    have hB0 : 0 ≤ B := by
      obtain ⟨x, hx⟩ := hB.exists
      exact le_trans (Finset.sum_nonneg fun i _ => mul_self_nonneg (x i)) hx
    have hd0 : ∀ v : Fin N → ℝ, 0 ≤ sqDist v tw.elem := fun v => dist2_nonneg v tw.elem
    have hM : 0 ≤ sqDist s.w.elem tw.elem + n * (η ^ 2 * B / 4) := by
      have := hd0 s.w.elem
      positivity
    have h' : (∫⁻ ω, ENNReal.ofReal (sqDist (along (coinStep η tw.elem) s.w.elem X n ω) tw.elem) ∂P) ≤
        ENNReal.ofReal (sqDist s.w.elem tw.elem + n * (η ^ 2 * B / 4)) := by
      rwa [ENNReal.ofReal_add (hd0 _) (by positivity), ENNReal.ofReal_mul (Nat.cast_nonneg n),
        ENNReal.ofReal_natCast]
    have hm : Measurable fun ω => sqDist (along (coinStep η tw.elem) s.w.elem X n ω) tw.elem :=
      (continuous_dist2 tw.elem).measurable.comp
        (measurable_along (measurable_coinStep η tw.elem) hX s.w.elem n)
    refine ⟨⟨hm.aestronglyMeasurable, ?_⟩, ?_⟩
    · rw [hasFiniteIntegral_iff_ofReal (.of_forall fun _ => hd0 _)]
      exact lt_of_le_of_lt h' ENNReal.ofReal_lt_top
    · rw [integral_eq_lintegral_of_nonneg_ae (.of_forall fun _ => hd0 _) hm.aestronglyMeasurable]
      exact ENNReal.toReal_le_of_le_ofReal hM h'
  · have hcont : Continuous fun p : (Fin N → ℝ) × (Fin N → ℝ) =>
        (logistic (prod' p.2 p.1) - logistic (prod' p.2 tw.elem)) ^ 2 := by
      have h1 : Continuous fun p : (Fin N → ℝ) × (Fin N → ℝ) => prod' p.2 p.1 :=
        continuous_prod2.comp (continuous_snd.prodMk continuous_fst)
      have h2 : Continuous fun p : (Fin N → ℝ) × (Fin N → ℝ) => prod' p.2 tw.elem :=
        (continuous_prod tw.elem).comp continuous_snd
      exact ((continuous_logistic.comp h1).sub (continuous_logistic.comp h2)).pow 2
    have hmeas : Measurable fun v : Fin N → ℝ =>
        ∫ x, (logistic (prod' x v) - logistic (prod' x tw.elem)) ^ 2 ∂μ :=
      hcont.stronglyMeasurable.integral_prod_right.measurable
    refine (spent hX hi hμ hη hηB hB tw.elem s.w.elem hmeas
      (fun v => integral_nonneg fun x => sq_nonneg _) (κ := 4) (by norm_num) (fun v => ?_) n).2
    have hint : Integrable (fun x => 4 * (logistic (prod' x v) - logistic (prod' x tw.elem)) ^ 2) μ := by
      refine Integrable.of_bound (C := 4) ?_ (.of_forall fun x => ?_)
      · exact ((hcont.comp (Continuous.prodMk_right v)).measurable.const_mul 4).aestronglyMeasurable
      · have h1 := logistic_range (prod' x v)
        have h2 := logistic_range (prod' x tw.elem)
        rw [Real.norm_of_nonneg (by positivity)]
        nlinarith
    rw [← integral_const_mul, ofReal_integral_eq_lintegral_ofReal hint
      (.of_forall fun x => by positivity)]
    exact lintegral_mono fun x => ENNReal.ofReal_le_ofReal (sq_le_gap _ _)

/-- If the samples see every direction, the weights come close to the true ones. -/
theorem C79_weights {l : ℝ} (hX : ∀ k, Measurable (X k)) (hi : iIndepFun X P)
    (hμ : ∀ k, P.map (X k) = μ.prod uniform) (hη : 0 < η) (hηB : η * B < 8)
    (hB : ∀ᵐ x ∂μ, prod' x x ≤ B) (hl0 : 0 < l)
    (hl : ∀ v : Fin N → ℝ, l * prod' v v ≤ ∫ x, prod' x v ^ 2 ∂μ) (tw : NArr ℝ [N]) (s : Data ℝ N) :
    ∃ W : ℕ → Ω → Fin N → ℝ,
      (∀ n ω, ∃ s', logisticRun η tw s (drawn tw X n ω) = .ok s' ∧ s'.w.elem = W n ω) ∧
      ∀ n, (∀ k, Integrable (fun ω => sqDist (W k ω) tw.elem / (1 + √B * √(sqDist (W k ω) tw.elem))) P) ∧
        ∑ k ∈ Finset.range n, ∫ ω, sqDist (W k ω) tw.elem / (1 + √B * √(sqDist (W k ω) tw.elem)) ∂P ≤
        (sqDist s.w.elem tw.elem + n * (η ^ 2 * B / 4)) / ((2 * η - η ^ 2 * B / 4) *
          (Real.exp (-(√B * √(prod' tw.elem tw.elem) + 1)) / 4 * l)) := by
  refine ⟨fun n ω => along (coinStep η tw.elem) s.w.elem X n ω, fun n ω => run_drawn η tw s X n ω,
    fun n => ?_⟩
  have hd0 : ∀ v : Fin N → ℝ, 0 ≤ sqDist v tw.elem := fun v => dist2_nonneg v tw.elem
  have hcs : ∀ x v : Fin N → ℝ, prod' x x ≤ B → |prod' x v| ≤ √B * √(prod' v v) := fun x v hx => by
    have h1 : prod' x v ^ 2 ≤ prod' x x * prod' v v := inner_sq_le x v
    have hv : 0 ≤ prod' v v := inner_self_nonneg' v
    have hx0 : 0 ≤ prod' x x := inner_self_nonneg' x
    rw [← Real.sqrt_mul (hx0.trans hx), ← Real.sqrt_sq_eq_abs]
    exact Real.sqrt_le_sqrt (h1.trans (mul_le_mul_of_nonneg_right hx hv))
  refine spent hX hi hμ hη hηB hB tw.elem s.w.elem
    (f := fun v => sqDist v tw.elem / (1 + √B * √(sqDist v tw.elem))) ?_
    (fun v => by have := hd0 v; positivity) (by positivity) (fun v => ?_) n
  · have h := (continuous_dist2 tw.elem).measurable
    exact h.div (measurable_const.add (h.sqrt.const_mul _))
  set m := Real.exp (-(√B * √(prod' tw.elem tw.elem) + 1)) / 4 with hm
  have hm0 : 0 < m := by positivity
  set z : Fin N → ℝ := fun i => v i - tw.elem i with hz
  have hzd : sqDist v tw.elem = prod' z z := dist2_eq v tw.elem
  have hzx : ∀ x, prod' x v - prod' x tw.elem = prod' x z := fun x => err_eq tw.elem v x
  have hden : 0 < 1 + √B * √(prod' z z) := by positivity
  have hpt : ∀ᵐ x ∂μ, m / (1 + √B * √(prod' z z)) * prod' x z ^ 2 ≤
      gap (prod' x v) (prod' x tw.elem) := hB.mono fun x hx => by
    refine le_trans ?_ (gap_ge (hcs x tw.elem hx))
    rw [hzx, ← hm]
    have h1 := hcs x z hx
    have h2 : prod' x z ^ 2 / (1 + √B * √(prod' z z)) ≤ prod' x z ^ 2 / (1 + |prod' x z|) := by
      gcongr
    calc m / (1 + √B * √(prod' z z)) * prod' x z ^ 2
        = m * (prod' x z ^ 2 / (1 + √B * √(prod' z z))) := by ring
      _ ≤ _ := by gcongr
  have hint : Integrable (fun x => prod' x z ^ 2) μ := by
    refine Integrable.of_bound ((continuous_prod z).pow 2).aestronglyMeasurable
      (B * prod' z z) (hB.mono fun x hx => ?_)
    rw [Real.norm_of_nonneg (sq_nonneg _)]
    exact le_trans (inner_sq_le x z) (mul_le_mul_of_nonneg_right hx (inner_self_nonneg' z))
  rw [hzd]
  calc ENNReal.ofReal (m * l * (prod' z z / (1 + √B * √(prod' z z))))
      ≤ ENNReal.ofReal (∫ x, m / (1 + √B * √(prod' z z)) * prod' x z ^ 2 ∂μ) := by
        refine ENNReal.ofReal_le_ofReal ?_
        rw [integral_const_mul]
        have : m / (1 + √B * √(prod' z z)) * (l * prod' z z) ≤
            m / (1 + √B * √(prod' z z)) * ∫ x, prod' x z ^ 2 ∂μ :=
          mul_le_mul_of_nonneg_left (hl z) (by positivity)
        refine le_trans (le_of_eq ?_) this
        ring
    _ = ∫⁻ x, ENNReal.ofReal (m / (1 + √B * √(prod' z z)) * prod' x z ^ 2) ∂μ :=
        ofReal_integral_eq_lintegral_ofReal (hint.const_mul _) (.of_forall fun x => by positivity)
    _ ≤ excess μ tw.elem v := lintegral_mono_ae (hpt.mono fun x hx => ENNReal.ofReal_le_ofReal hx)

/-- With a small rate and after many iterations, the weights are close to the true ones most of the time:
the probability that their distance exceeds `δ`, averaged over the iterations, is below `ε`. -/
theorem C79_limit {l : ℝ} (hX : ∀ k, Measurable (X k)) (hi : iIndepFun X P)
    (hμ : ∀ k, P.map (X k) = μ.prod uniform) (hB : ∀ᵐ x ∂μ, prod' x x ≤ B) (hl0 : 0 < l)
    (hl : ∀ v : Fin N → ℝ, l * prod' v v ≤ ∫ x, prod' x v ^ 2 ∂μ) (tw : NArr ℝ [N]) (s : Data ℝ N)
    {δ ε : ℝ} (hδ : 0 < δ) (hε : 0 < ε) :
    ∃ η₀ > 0, ∀ η, 0 < η → η ≤ η₀ → ∃ W : ℕ → Ω → Fin N → ℝ,
      (∀ n ω, ∃ s', logisticRun η tw s (drawn tw X n ω) = .ok s' ∧ s'.w.elem = W n ω) ∧
      ∃ n₀, ∀ n ≥ n₀, ∑ k ∈ Finset.range n, P.real {ω | δ ≤ √(sqDist (W k ω) tw.elem)} < ε * n := by
  have hB0 : 0 ≤ B := by
    obtain ⟨x, hx⟩ := hB.exists
    exact le_trans (Finset.sum_nonneg fun i _ => mul_self_nonneg (x i)) hx
  set κ := Real.exp (-(√B * √(prod' tw.elem tw.elem) + 1)) / 4 * l with hκ
  have hκ0 : 0 < κ := by positivity
  -- the value of the distance function at `δ`
  set ρ := δ ^ 2 / (1 + √B * δ) with hρ
  have hρ0 : 0 < ρ := by positivity
  refine ⟨min (4 / (B + 1)) (2 * ε * ρ * κ / (B + 1)), by positivity, fun η hη hη₀ => ?_⟩
  have h1 : η * (B + 1) ≤ 4 := by
    have := hη₀.trans (min_le_left _ _)
    rwa [le_div_iff₀ (by positivity)] at this
  have h2 : η * (B + 1) ≤ 2 * ε * ρ * κ := by
    have := hη₀.trans (min_le_right _ _)
    rwa [le_div_iff₀ (by positivity)] at this
  obtain ⟨W, hrun, hW⟩ := C79_weights hX hi hμ hη (by nlinarith) hB hl0 hl tw s
  refine ⟨W, hrun, ?_⟩
  set d := sqDist s.w.elem tw.elem with hd
  have hd0 : 0 ≤ d := dist2_nonneg _ _
  obtain ⟨n₀, hn₀⟩ := exists_nat_gt (2 * d / (ε * ρ * κ * η))
  refine ⟨n₀ , fun n hn => ?_⟩
  have hn' : 2 * d / (ε * ρ * κ * η) < n := lt_of_lt_of_le hn₀ (by exact_mod_cast hn)
  rw [div_lt_iff₀ (by positivity)] at hn'
  have hnpos : (0 : ℝ) < n := by
    by_contra h
    have h0 : (n : ℝ) = 0 := le_antisymm (not_lt.1 h) (Nat.cast_nonneg n)
    rw [h0, zero_mul] at hn'
    linarith
  -- Markov's inequality
  have hmk : ∀ k, P.real {ω | δ ≤ √(sqDist (W k ω) tw.elem)} ≤
      (∫ ω, sqDist (W k ω) tw.elem / (1 + √B * √(sqDist (W k ω) tw.elem)) ∂P) / ρ := fun k => by
    rw [le_div_iff₀ hρ0, mul_comm]
    have hnn : ∀ ω, 0 ≤ sqDist (W k ω) tw.elem / (1 + √B * √(sqDist (W k ω) tw.elem)) := fun ω => by
      have : 0 ≤ sqDist (W k ω) tw.elem := dist2_nonneg _ _
      positivity
    refine le_trans (mul_le_mul_of_nonneg_left ?_ hρ0.le)
      (mul_meas_ge_le_integral_of_nonneg (.of_forall hnn) ((hW 0).1 k) ρ)
    refine measureReal_mono fun ω hω => ?_
    have hω' : δ ≤ √(sqDist (W k ω) tw.elem) := hω
    show ρ ≤ sqDist (W k ω) tw.elem / (1 + √B * √(sqDist (W k ω) tw.elem))
    have hsq : √(sqDist (W k ω) tw.elem) ^ 2 = sqDist (W k ω) tw.elem :=
      Real.sq_sqrt (dist2_nonneg _ _)
    generalize √(sqDist (W k ω) tw.elem) = t at hω' hsq ⊢
    have hb := Real.sqrt_nonneg B
    have ht : 0 ≤ t := hδ.le.trans hω'
    rw [← hsq, hρ, div_le_div_iff₀ (by positivity) (by positivity)]
    have e1 : δ ^ 2 ≤ t ^ 2 := by gcongr
    have e2 : δ ^ 2 * (√B * t) ≤ t ^ 2 * (√B * δ) := by
      have : δ * (√B * δ * t) ≤ t * (√B * δ * t) := mul_le_mul_of_nonneg_right hω' (by positivity)
      linarith
    linarith
  have hsum := (hW n).2
  have hc : η ≤ 2 * η - η ^ 2 * B / 4 := by nlinarith
  calc ∑ k ∈ Finset.range n, P.real {ω | δ ≤ √(sqDist (W k ω) tw.elem)}
      ≤ ∑ k ∈ Finset.range n,
          (∫ ω, sqDist (W k ω) tw.elem / (1 + √B * √(sqDist (W k ω) tw.elem)) ∂P) / ρ :=
        Finset.sum_le_sum fun k _ => hmk k
    _ = (∑ k ∈ Finset.range n,
          ∫ ω, sqDist (W k ω) tw.elem / (1 + √B * √(sqDist (W k ω) tw.elem)) ∂P) / ρ :=
        (Finset.sum_div _ _ _).symm
    _ ≤ (d + n * (η ^ 2 * B / 4)) / (η * κ) / ρ := by
        gcongr
        refine hsum.trans ?_
        rw [← hκ]
        gcongr
    _ < ε * n := by
        rw [div_div, div_lt_iff₀ (by positivity)]
        have e1 : n * η * (η * B) ≤ n * η * (2 * ε * ρ * κ) :=
          mul_le_mul_of_nonneg_left (by linarith) (by positivity)
        linarith

end

/-- The program with its five weights, its rate and its initial context, for true weights in the unit cube
and independent samples of any distribution on the unit cube: it never panics, and the expected squared
error of the probabilities on a new sample, averaged over the first `n` iterations, is at most
`1251 / n + 0.00008`; for its million iterations less than `0.00134`. -/
theorem C79_program {Ω : Type} [MeasurableSpace Ω] {P : Measure Ω} [IsProbabilityMeasure P]
    {X : ℕ → Ω → (Fin 5 → ℝ) × ℝ} {μ : Measure (Fin 5 → ℝ)} [IsProbabilityMeasure μ]
    (hX : ∀ k, Measurable (X k)) (hi : iIndepFun X P) (hμ : ∀ k, P.map (X k) = μ.prod uniform)
    (h01 : ∀ᵐ x ∂μ, ∀ i, 0 ≤ x i ∧ x i ≤ 1) (tw : NArr ℝ [5])
    (ht : ∀ i, 0 ≤ tw.elem i ∧ tw.elem i ≤ 1) :
    ∃ W : ℕ → Ω → Fin 5 → ℝ,
      (∀ n ω, ∃ s', logisticRun 0.0005 tw (logisticInit 5) (drawn tw X n ω) = .ok s' ∧
        s'.w.elem = W n ω) ∧
      (∀ n > 0, (∑ k ∈ Finset.range n, ∫ ω, ∫ x,
        (logistic (prod' x (W k ω)) - logistic (prod' x tw.elem)) ^ 2 ∂μ ∂P) / n ≤
          1251 / n + 0.00008) ∧
      (∑ k ∈ Finset.range 1000000, ∫ ω, ∫ x,
        (logistic (prod' x (W k ω)) - logistic (prod' x tw.elem)) ^ 2 ∂μ ∂P) / 1000000 < 0.00134 := by
  have hu : ∀ a : Fin 5 → ℝ, (∀ i, 0 ≤ a i ∧ a i ≤ 1) → prod' a a ≤ 5 := fun a ha => by
    calc ∑ i, a i * a i ≤ ∑ _i : Fin 5, (1 : ℝ) :=
          Finset.sum_le_sum fun i _ => by nlinarith [ha i]
      _ = 5 := by simp
  obtain ⟨W, hrun, hW⟩ := C79_random (η := 0.0005) (B := 5) hX hi hμ (by norm_num) (by norm_num)
    (h01.mono fun x hx => hu x hx) tw (logisticInit 5)
  have h0 : (logisticInit (F := ℝ) 5).w.elem = fun _ => 0 := by
    funext i; exact NArr.row_mkRows _ i
  have hd : sqDist (logisticInit (F := ℝ) 5).w.elem tw.elem ≤ 5 := by
    rw [h0]
    refine le_trans (le_of_eq ?_) (hu _ ht)
    exact Finset.sum_congr rfl fun i _ => by ring
  have hall : ∀ n : ℕ, 0 < n → (∑ k ∈ Finset.range n, ∫ ω, ∫ x,
      (logistic (prod' x (W k ω)) - logistic (prod' x tw.elem)) ^ 2 ∂μ ∂P) / n ≤
        1251 / n + 0.00008 := fun n hn => by
    have hn' : (0 : ℝ) < n := by exact_mod_cast hn
    have h := (hW n).2
    rw [le_div_iff₀ (by norm_num)] at h
    rw [div_add' _ _ _ hn'.ne', div_le_div_iff_of_pos_right hn']
    norm_num at h ⊢
    linarith
  refine ⟨W, hrun, hall, ?_⟩
  have h := hall 1000000 (by norm_num)
  refine lt_of_le_of_lt (le_trans (le_of_eq ?_) h) (by norm_num)
  norm_num

/-! ### Concrete cases -/

/-- Samples as the theorems take them exist, for any distribution. -/
example (μ : Measure (Fin N → ℝ)) [IsProbabilityMeasure μ] :
    ∃ (Ω : Type) (_ : MeasurableSpace Ω) (P : Measure Ω) (_ : IsProbabilityMeasure P)
      (X : ℕ → Ω → (Fin N → ℝ) × ℝ), (∀ k, Measurable (X k)) ∧ iIndepFun X P ∧
      ∀ k, P.map (X k) = μ.prod uniform :=
  ⟨ℕ → (Fin N → ℝ) × ℝ, inferInstance, Measure.infinitePi fun _ => μ.prod uniform, inferInstance,
    fun k ω => ω k, fun k => measurable_pi_apply k,
    iIndepFun_infinitePi (X := fun _ x => x) fun _ => measurable_id,
    fun k => Measure.infinitePi_map_eval (fun _ : ℕ => μ.prod uniform) k⟩

/-- Uniformly distributed samples are in the unit cube (`C79_program`), and of squared length at most five
(`C79_random`). -/
example : ∀ᵐ x ∂(Measure.pi fun _ : Fin 5 => uniform), ∀ i, 0 ≤ x i ∧ x i ≤ 1 := by
  have h : ∀ᵐ u ∂uniform, 0 ≤ u ∧ u ≤ 1 := ae_restrict_mem measurableSet_Icc
  exact Measure.ae_pi_le_pi <| eventually_pi fun _ => h

/-- And they see every direction (`C79_weights`, `C79_limit`). -/
example (v : Fin 5 → ℝ) : 1 / 12 * prod' v v ≤
    ∫ x, prod' x v ^ 2 ∂(Measure.pi fun _ : Fin 5 => uniform) := by
  have h : ∀ᵐ u ∂uniform, u ∈ Set.Icc (0 : ℝ) 1 := ae_restrict_mem measurableSet_Icc
  have := variance_excites (N := 5) h v
  rw [variance_uniform] at this
  exact this

/-- Log-odds `0` and `1`: the probabilities are `1 / 2` and `1 / (1 + 1 / e)`, and a quarter of the
divergence bounds their squared difference. -/
example : 4 * (1 / 2 - logistic 1) ^ 2 ≤ logistic 1 - 1 / 2 := by
  have h := sq_le_gap 0 1
  have h0 : logistic 0 = 1 / 2 := by norm_num [logistic]
  rw [gap, h0] at h
  linarith

end Aegir.Examples
