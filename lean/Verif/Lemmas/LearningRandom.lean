import Verif.Lemmas.Learning
import Mathlib.Probability.Independence.Basic
import Mathlib.MeasureTheory.Integral.Prod
import Mathlib.MeasureTheory.Measure.Prod
import Mathlib.MeasureTheory.Constructions.Polish.Basic
import Mathlib.Topology.Algebra.InfiniteSum.ENNReal

/-!
# Gradient descent along random samples
-/

namespace Aegir.Examples

open MeasureTheory ProbabilityTheory Filter Topology
open scoped ENNReal

variable {N : Nat}

theorem continuous_step (η : ℝ) (tw : Fin N → ℝ) :
    Continuous fun p : (Fin N → ℝ) × (Fin N → ℝ) => lmsStep η tw p.1 p.2 := by
  unfold lmsStep err inner'
  fun_prop

theorem continuous_dist2 (tw : Fin N → ℝ) : Continuous fun w => dist2 w tw := by
  unfold dist2
  fun_prop

theorem continuous_inner (v : Fin N → ℝ) : Continuous fun x => inner' x v := by
  unfold inner'
  fun_prop

theorem measurable_lms {Z ι : Type} [MeasurableSpace Z] (η : ℝ) (tw : Fin N → ℝ)
    (Y : ι → Z → Fin N → ℝ) (hY : ∀ i, Measurable (Y i)) (l : List ι) (W : Z → Fin N → ℝ)
    (hW : Measurable W) : Measurable fun z => lms η tw (W z) (l.map fun i => Y i z) := by
  induction l generalizing W with
  | nil => exact hW
  | cons i l ih =>
    exact ih (fun z => lmsStep η tw (W z) (Y i z))
      ((continuous_step η tw).measurable.comp (hW.prodMk (hY i)))

section
variable {Ω : Type} [MeasurableSpace Ω] {P : Measure Ω} [IsProbabilityMeasure P]
  {X : ℕ → Ω → Fin N → ℝ} {μ : Measure (Fin N → ℝ)} [IsProbabilityMeasure μ] {η r l : ℝ}

theorem weights_succ {Ω : Type} (η : ℝ) (tw w : Fin N → ℝ) (X : ℕ → Ω → Fin N → ℝ) (n : ℕ) (ω : Ω) :
    weights η tw w X (n + 1) ω = lmsStep η tw (weights η tw w X n ω) (X n ω) := by
  unfold weights
  rw [List.ofFn_succ', List.concat_eq_append, lms_append]
  rfl

theorem weights_eq {Ω : Type} (η : ℝ) (tw w : Fin N → ℝ) (X : ℕ → Ω → Fin N → ℝ) (n : ℕ) (ω : Ω) :
    weights η tw w X n ω = lms η tw w ((List.finRange n).map fun i : Fin n => X i ω) := by
  unfold weights
  rw [List.ofFn_eq_map]

theorem measurable_weights (hX : ∀ k, Measurable (X k)) (η : ℝ) (tw w : Fin N → ℝ) (n : ℕ) :
    Measurable (weights η tw w X n) := by
  have := measurable_lms η tw (fun (i : Fin n) ω => X i ω) (fun i => hX i) (List.finRange n)
    (fun _ => w) measurable_const
  rw [show weights η tw w X n = _ from funext fun ω => weights_eq η tw w X n ω]
  exact this

omit [IsProbabilityMeasure P] in
/-- The weights after `n` samples are independent of the next sample. -/
theorem indep_weights (hX : ∀ k, Measurable (X k)) (hi : iIndepFun X P) (η : ℝ) (tw w : Fin N → ℝ)
    (n : ℕ) : IndepFun (weights η tw w X n) (X n) P := by
  have h := hi.indepFun_finset (Finset.range n) {n} (by simp) hX
  have hφ := measurable_lms (Z := Finset.range n → Fin N → ℝ) η tw
    (fun (i : Fin n) z => z ⟨i, Finset.mem_range.2 i.2⟩) (fun i => measurable_pi_apply _)
    (List.finRange n) (fun _ => w) measurable_const
  have hψ : Measurable fun z : ({n} : Finset ℕ) → Fin N → ℝ => z ⟨n, Finset.mem_singleton_self n⟩ :=
    measurable_pi_apply _
  have := h.comp hφ hψ
  refine this.congr (.of_forall fun ω => ?_) (.of_forall fun ω => rfl)
  exact (weights_eq η tw w X n ω).symm

/-- One step, on average over the next sample. -/
theorem step_mean (hη : 0 < η) (hr : r ≤ 1) (hb : ∀ᵐ x ∂μ, η * inner' x x ≤ r)
    (hl : ∀ v : Fin N → ℝ, l * inner' v v ≤ ∫ x, inner' x v ^ 2 ∂μ) (tw w : Fin N → ℝ) :
    ∫⁻ x, ENNReal.ofReal (dist2 (lmsStep η tw w x) tw) ∂μ ≤
      ENNReal.ofReal (1 - 4 * η * (1 - r) * l) * ENNReal.ofReal (dist2 w tw) := by
  set v : Fin N → ℝ := fun i => w i - tw i with hv
  have hint : Integrable (fun x => inner' x v ^ 2) μ := by
    refine Integrable.of_bound ((continuous_inner v).pow 2).aestronglyMeasurable
      (r / η * inner' v v) (hb.mono fun x hx => ?_)
    rw [Real.norm_of_nonneg (sq_nonneg _)]
    refine le_trans (inner_sq_le x v) (mul_le_mul_of_nonneg_right ?_ (inner_self_nonneg' v))
    rw [le_div_iff₀ hη]
    linarith
  have hle : ∀ᵐ x ∂μ, dist2 (lmsStep η tw w x) tw ≤
      dist2 w tw - 4 * η * (1 - r) * inner' x v ^ 2 := hb.mono fun x hx => by
    rw [C53_distance, err_eq, ← hv]
    have : 4 * η * (1 - r) * inner' x v ^ 2 ≤ 4 * η * (1 - η * inner' x x) * inner' x v ^ 2 := by
      gcongr
    linarith
  have hf : Integrable (fun x => dist2 w tw - 4 * η * (1 - r) * inner' x v ^ 2) μ :=
    (integrable_const _).sub (hint.const_mul _)
  calc ∫⁻ x, ENNReal.ofReal (dist2 (lmsStep η tw w x) tw) ∂μ
      ≤ ∫⁻ x, ENNReal.ofReal (dist2 w tw - 4 * η * (1 - r) * inner' x v ^ 2) ∂μ :=
        lintegral_mono_ae (hle.mono fun x hx => ENNReal.ofReal_le_ofReal hx)
    _ = ENNReal.ofReal (∫ x, (dist2 w tw - 4 * η * (1 - r) * inner' x v ^ 2) ∂μ) :=
        (ofReal_integral_eq_lintegral_ofReal hf
          (hle.mono fun x hx => le_trans (dist2_nonneg _ _) hx)).symm
    _ ≤ ENNReal.ofReal ((1 - 4 * η * (1 - r) * l) * dist2 w tw) := by
        refine ENNReal.ofReal_le_ofReal ?_
        rw [integral_sub (integrable_const _) (hint.const_mul _), integral_const_mul]
        simp only [integral_const, probReal_univ, smul_eq_mul, one_mul]
        have h1 := hl v
        rw [hv, ← dist2_eq] at h1
        have h2 : 4 * η * (1 - r) * (l * dist2 w tw) ≤
            4 * η * (1 - r) * ∫ x, inner' x v ^ 2 ∂μ :=
          mul_le_mul_of_nonneg_left h1 (by have : 0 ≤ 1 - r := by linarith
                                           positivity)
        linarith
    _ = _ := ENNReal.ofReal_mul' (dist2_nonneg _ _)

/-- The expected squared distance shrinks geometrically. -/
theorem mean_dist (hX : ∀ k, Measurable (X k)) (hi : iIndepFun X P) (hμ : ∀ k, P.map (X k) = μ)
    (hη : 0 < η) (hr : r ≤ 1) (hb : ∀ᵐ x ∂μ, η * inner' x x ≤ r)
    (hl : ∀ v : Fin N → ℝ, l * inner' v v ≤ ∫ x, inner' x v ^ 2 ∂μ) (tw w : Fin N → ℝ) (n : ℕ) :
    ∫⁻ ω, ENNReal.ofReal (dist2 (weights η tw w X n ω) tw) ∂P ≤
      ENNReal.ofReal (1 - 4 * η * (1 - r) * l) ^ n * ENNReal.ofReal (dist2 w tw) := by
  induction n with
  | zero => simp [weights, lms]
  | succ n ih =>
    have hW := measurable_weights hX η tw w n
    have hg : Measurable fun p : (Fin N → ℝ) × (Fin N → ℝ) =>
        ENNReal.ofReal (dist2 (lmsStep η tw p.1 p.2) tw) :=
      ENNReal.measurable_ofReal.comp
        ((continuous_dist2 tw).measurable.comp (continuous_step η tw).measurable)
    have hmap := (indep_weights hX hi η tw w n).map_prod_eq_prod_map_map hW.aemeasurable
      (hX n).aemeasurable
    calc ∫⁻ ω, ENNReal.ofReal (dist2 (weights η tw w X (n + 1) ω) tw) ∂P
        = ∫⁻ ω, (fun p : (Fin N → ℝ) × (Fin N → ℝ) =>
            ENNReal.ofReal (dist2 (lmsStep η tw p.1 p.2) tw)) (weights η tw w X n ω, X n ω) ∂P := by
          simp only [weights_succ]
      _ = ∫⁻ p, ENNReal.ofReal (dist2 (lmsStep η tw p.1 p.2) tw)
            ∂(P.map (weights η tw w X n)).prod μ := by
          rw [← hμ n, ← hmap, lintegral_map hg (hW.prodMk (hX n))]
      _ = ∫⁻ u, ∫⁻ x, ENNReal.ofReal (dist2 (lmsStep η tw u x) tw) ∂μ
            ∂P.map (weights η tw w X n) := lintegral_prod _ hg.aemeasurable
      _ ≤ ∫⁻ u, ENNReal.ofReal (1 - 4 * η * (1 - r) * l) * ENNReal.ofReal (dist2 u tw)
            ∂P.map (weights η tw w X n) :=
          lintegral_mono fun u => step_mean hη hr hb hl tw u
      _ = ENNReal.ofReal (1 - 4 * η * (1 - r) * l) *
            ∫⁻ ω, ENNReal.ofReal (dist2 (weights η tw w X n ω) tw) ∂P := by
          have hm : Measurable fun u : Fin N → ℝ => ENNReal.ofReal (dist2 u tw) :=
            ENNReal.measurable_ofReal.comp (continuous_dist2 tw).measurable
          rw [lintegral_const_mul _ hm, lintegral_map hm hW]
      _ ≤ _ := by
          have := mul_le_mul_right ih (ENNReal.ofReal (1 - 4 * η * (1 - r) * l))
          rwa [← mul_assoc, ← pow_succ'] at this

theorem tendsto_of_dist2 {u : ℕ → Fin N → ℝ} {tw : Fin N → ℝ}
    (h : Tendsto (fun n => dist2 (u n) tw) atTop (𝓝 0)) : Tendsto u atTop (𝓝 tw) := by
  rw [tendsto_pi_nhds]
  intro i
  have h1 : Tendsto (fun n => (u n i - tw i) ^ 2) atTop (𝓝 0) :=
    squeeze_zero (fun n => sq_nonneg _) (fun n => Finset.single_le_sum
      (f := fun i => (u n i - tw i) ^ 2) (fun i _ => sq_nonneg _) (Finset.mem_univ i)) h
  have h2 := h1.sqrt
  simp only [Real.sqrt_sq_eq_abs, Real.sqrt_zero] at h2
  have h3 := (tendsto_zero_iff_abs_tendsto_zero _).2 h2
  have h4 := h3.add_const (tw i)
  simpa using h4

/-- Almost surely the weights converge. -/
theorem weights_tendsto (hX : ∀ k, Measurable (X k)) (hi : iIndepFun X P) (hμ : ∀ k, P.map (X k) = μ)
    (hη : 0 < η) (hr : r < 1) (hl0 : 0 < l) (hb : ∀ᵐ x ∂μ, η * inner' x x ≤ r)
    (hl : ∀ v : Fin N → ℝ, l * inner' v v ≤ ∫ x, inner' x v ^ 2 ∂μ) (tw w : Fin N → ℝ) :
    ∀ᵐ ω ∂P, Tendsto (fun n => weights η tw w X n ω) atTop (𝓝 tw) := by
  set q := ENNReal.ofReal (1 - 4 * η * (1 - r) * l) with hq
  have hq1 : q < 1 := by
    rw [hq, ENNReal.ofReal_lt_one]
    have : 0 < 4 * η * (1 - r) * l := by
      have : 0 < 1 - r := by linarith
      positivity
    linarith
  have hm : ∀ n, Measurable fun ω => ENNReal.ofReal (dist2 (weights η tw w X n ω) tw) := fun n =>
    ENNReal.measurable_ofReal.comp
      ((continuous_dist2 tw).measurable.comp (measurable_weights hX η tw w n))
  have hsum : ∫⁻ ω, ∑' n, ENNReal.ofReal (dist2 (weights η tw w X n ω) tw) ∂P ≠ ∞ := by
    rw [lintegral_tsum fun n => (hm n).aemeasurable]
    refine ne_top_of_le_ne_top ?_
      (ENNReal.tsum_le_tsum fun n => mean_dist hX hi hμ hη hr.le hb hl tw w n)
    rw [ENNReal.tsum_mul_right, ENNReal.tsum_geometric]
    refine ENNReal.mul_ne_top ?_ ENNReal.ofReal_ne_top
    exact ENNReal.inv_ne_top.2 (tsub_pos_of_lt hq1).ne'
  filter_upwards [ae_lt_top (Measurable.tsum hm) hsum] with ω hω
  have h1 := ENNReal.tendsto_atTop_zero_of_tsum_ne_top hω.ne
  refine tendsto_of_dist2 ?_
  have h2 := (ENNReal.tendsto_toReal ENNReal.zero_ne_top).comp h1
  refine Tendsto.congr (fun n => ?_) h2
  exact ENNReal.toReal_ofReal (dist2_nonneg _ _)

end

end Aegir.Examples
