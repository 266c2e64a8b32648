import Verif.Lemmas.LearningMean
import Mathlib.Probability.Moments.Variance
import Mathlib.Probability.Independence.InfinitePi
import Mathlib.Analysis.SpecialFunctions.Integrals.Basic
import Mathlib.Analysis.Complex.ExponentialBounds
/-!
# C75: the linear regression example finds the true weights (`aegir/examples/linear.rs`), over exact
reals

C53 bounds the distance to the true weights and the errors along the way for all samples. Here the
samples see every direction, and the weights converge.
-/

namespace Aegir.Examples

open MeasureTheory ProbabilityTheory Filter Topology
open scoped ENNReal

variable {N : Nat}

/-! ### Given samples -/

/-- A run over samples that see every direction (`α` bounds the sum of their squared components from
below) never panics and shrinks the distance to the true weights by a fixed factor. -/
theorem C75_window {η r α : ℝ} (hη : 0 ≤ η) (hr : 0 ≤ r) (hr1 : r ≤ 1) (tw : NArr ℝ [N])
    (xs : List (NArr ℝ [N])) (hx : ∀ x ∈ xs, η * inner' x.elem x.elem ≤ r)
    (hα : ∀ v : Fin N → ℝ, α * inner' v v ≤ (xs.map fun x => inner' x.elem v ^ 2).sum)
    (s : Data ℝ N) : ∃ s', linearRun η tw s xs = .ok s' ∧ dist2 s'.w.elem tw.elem ≤
      (1 - 4 * η * (1 - r) * α / (1 + r * xs.length ^ 2) ^ 2) * dist2 s.w.elem tw.elem := by
  obtain ⟨s', h, hw⟩ := C53_run η tw xs s
  refine ⟨s', h, ?_⟩
  rw [hw]
  have := window hη hr hr1 tw.elem (xs.map NArr.elem) (fun x hx' => by
    obtain ⟨y, hy, rfl⟩ := List.mem_map.1 hx'
    exact hx y hy) (fun v => by rw [List.map_map]; exact hα v) s.w.elem
  rwa [List.length_map] at this

/-- The samples repeated `n` times. -/
def rounds {α : Type} (xs : List α) : ℕ → List α
  | 0 => []
  | n + 1 => rounds xs n ++ xs

/-- When a list of samples is repeated over and over, the weights converge to the true ones from
wherever they start, if and only if no direction is orthogonal to all samples. -/
theorem C75_iff {η r : ℝ} (hη : 0 < η) (hr0 : 0 ≤ r) (hr : r < 1) (xs : List (NArr ℝ [N]))
    (hx : ∀ x ∈ xs, η * inner' x.elem x.elem ≤ r) (tw : NArr ℝ [N]) :
    (∀ s : Data ℝ N, ∃ W : ℕ → Fin N → ℝ,
      (∀ n, ∃ s', linearRun η tw s (rounds xs n) = .ok s' ∧ s'.w.elem = W n) ∧
      Tendsto W atTop (𝓝 tw.elem)) ↔
    ∀ v : Fin N → ℝ, (∀ x ∈ xs, inner' x.elem v = 0) → v = 0 := by
  constructor
  · intro h v hv
    obtain ⟨W, hW, ht⟩ := h ⟨tw, 0, NArr.ofElems fun i => tw.elem i + v i⟩
    have hc : ∀ n, inner' (W n) v = inner' (fun i => tw.elem i + v i) v := fun n => by
      obtain ⟨s', h1, h2⟩ := hW n
      obtain ⟨s'', h1', h2'⟩ := C53_run η tw (rounds xs n)
        ⟨tw, 0, NArr.ofElems fun i => tw.elem i + v i⟩
      rw [h1] at h1'
      cases h1'
      rw [← h2, h2', unseen]
      · congr 1
        funext i
        exact NArr.row_mkRows (ds := []) _ i
      · intro y hy
        obtain ⟨x, hx', rfl⟩ := List.mem_map.1 hy
        refine hv x ?_
        clear h1 h2 h2' hy s'
        induction n with
        | zero => exact absurd hx' (by simp [rounds])
        | succ n ih => exact (List.mem_append.1 hx').elim ih id
    have h1 := ((continuous_inner v).tendsto tw.elem).comp ht
    have h2 : Tendsto (fun n => inner' (W n) v) atTop (𝓝 (inner' (fun i => tw.elem i + v i) v)) :=
      Tendsto.congr (fun n => (hc n).symm) tendsto_const_nhds
    have h3 := tendsto_nhds_unique h1 h2
    refine inner_self_eq_zero' ?_
    have : inner' (fun i => tw.elem i + v i) v = inner' tw.elem v + inner' v v := by
      simp only [inner', add_mul, Finset.sum_add_distrib]
    linarith
  · intro h s
    obtain ⟨α, hα0, hα⟩ := exists_excitation (xs.map NArr.elem) fun v hv => h v fun x hx' =>
      hv _ (List.mem_map_of_mem hx')
    have hx' : ∀ x ∈ xs.map NArr.elem, η * inner' x x ≤ r := fun x hx' => by
      obtain ⟨y, hy, rfl⟩ := List.mem_map.1 hx'
      exact hx y hy
    have hwin := window hη.le hr0 hr.le tw.elem (xs.map NArr.elem) hx' hα
    set q := 1 - 4 * η * (1 - r) * α / (1 + r * (xs.map NArr.elem).length ^ 2) ^ 2 with hq
    have hq1 : q < 1 := by
      have h1r : 0 < 1 - r := by linarith
      have : 0 < 4 * η * (1 - r) * α / (1 + r * (xs.map NArr.elem).length ^ 2) ^ 2 := by positivity
      linarith
    have hround : ∀ n, (rounds xs (n + 1)).map NArr.elem =
        (rounds xs n).map NArr.elem ++ xs.map NArr.elem := fun n => by
      rw [rounds, List.map_append]
    refine ⟨fun n => lms η tw.elem s.w.elem ((rounds xs n).map NArr.elem), fun n =>
      C53_run η tw (rounds xs n) s, tendsto_of_dist2 ?_⟩
    have hbound : ∀ n, dist2 (lms η tw.elem s.w.elem ((rounds xs n).map NArr.elem)) tw.elem ≤
        max q 0 ^ n * dist2 s.w.elem tw.elem := fun n => by
      induction n with
      | zero => simp [rounds, lms]
      | succ n ih =>
        rw [hround, lms_append]
        refine le_trans (hwin _) ?_
        have h1 : q * dist2 (lms η tw.elem s.w.elem ((rounds xs n).map NArr.elem)) tw.elem ≤
            max q 0 * dist2 (lms η tw.elem s.w.elem ((rounds xs n).map NArr.elem)) tw.elem :=
          mul_le_mul_of_nonneg_right (le_max_left _ _) (dist2_nonneg _ _)
        have h2 := mul_le_mul_of_nonneg_left ih (le_max_right q 0)
        rw [pow_succ', mul_assoc]
        linarith
    refine squeeze_zero (fun n => dist2_nonneg _ _) hbound ?_
    have := (tendsto_pow_atTop_nhds_zero_of_lt_one (le_max_right q 0) (max_lt hq1 one_pos)).mul_const
      (dist2 s.w.elem tw.elem)
    simpa using this

/-! ### Random samples -/

section
variable {Ω : Type} [MeasurableSpace Ω] {P : Measure Ω} [IsProbabilityMeasure P]
  {X : ℕ → Ω → Fin N → ℝ} {μ : Measure (Fin N → ℝ)} [IsProbabilityMeasure μ] {η r l : ℝ}

/-- Independent samples of any distribution that is bounded and sees every direction (`l` bounds the
mean of the squared component from below): the program never panics, the expected squared distance to
the true weights shrinks geometrically, and with probability one the weights converge to them. -/
theorem C75_random (hX : ∀ k, Measurable (X k)) (hi : iIndepFun X P) (hμ : ∀ k, P.map (X k) = μ)
    (hη : 0 < η) (hr : r < 1) (hl0 : 0 < l) (hb : ∀ᵐ x ∂μ, η * inner' x x ≤ r)
    (hl : ∀ v : Fin N → ℝ, l * inner' v v ≤ ∫ x, inner' x v ^ 2 ∂μ) (tw : NArr ℝ [N])
    (s : Data ℝ N) :
    ∃ W : ℕ → Ω → Fin N → ℝ,
      (∀ n ω, ∃ s', linearRun η tw s (List.ofFn fun i : Fin n => NArr.ofElems (X i ω)) = .ok s' ∧
        s'.w.elem = W n ω) ∧
      (∀ n, Integrable (fun ω => dist2 (W n ω) tw.elem) P ∧
        ∫ ω, dist2 (W n ω) tw.elem ∂P ≤
          (1 - 4 * η * (1 - r) * l) ^ n * dist2 s.w.elem tw.elem) ∧
      ∀ᵐ ω ∂P, Tendsto (fun n => W n ω) atTop (𝓝 tw.elem) := by
  refine ⟨weights η tw.elem s.w.elem X, fun n ω => ?_, fun n => ?_,
    weights_tendsto hX hi hμ hη hr hl0 hb hl tw.elem s.w.elem⟩
  · obtain ⟨s', h, hw⟩ := C53_run η tw (List.ofFn fun i : Fin n => NArr.ofElems (X i ω)) s
    refine ⟨s', h, hw.trans ?_⟩
    unfold weights
    rw [List.map_ofFn]
    congr 2
    funext i k
    exact NArr.row_mkRows (ds := []) _ k
  · have hm : Measurable fun ω => dist2 (weights η tw.elem s.w.elem X n ω) tw.elem :=
      (continuous_dist2 _).measurable.comp (measurable_weights hX η tw.elem s.w.elem n)
    have hmean := mean_dist hX hi hμ hη hr.le hb hl tw.elem s.w.elem n
    have hq : 0 ≤ 1 - 4 * η * (1 - r) * l ∨ N = 0 :=
      (rate_le hη hr.le hb hl).imp_left fun h => by linarith
    have hfin : ∫⁻ ω, ENNReal.ofReal (dist2 (weights η tw.elem s.w.elem X n ω) tw.elem) ∂P ≠ ∞ :=
      ne_top_of_le_ne_top (ENNReal.mul_ne_top (ENNReal.pow_ne_top ENNReal.ofReal_ne_top)
        ENNReal.ofReal_ne_top) hmean
    refine ⟨⟨hm.aestronglyMeasurable, ?_⟩, ?_⟩
    · rw [hasFiniteIntegral_iff_ofReal (.of_forall fun _ => dist2_nonneg _ _)]
      exact lt_top_iff_ne_top.2 hfin
    · rw [integral_eq_lintegral_of_nonneg_ae (.of_forall fun _ => dist2_nonneg _ _)
        hm.aestronglyMeasurable]
      rcases hq with hq | hq
      · refine ENNReal.toReal_le_of_le_ofReal (mul_nonneg (pow_nonneg hq _) (dist2_nonneg _ _)) ?_
        rwa [ENNReal.ofReal_mul (pow_nonneg hq _), ENNReal.ofReal_pow hq]
      · subst hq
        simp [dist2]

end

/-- The entries of a vector of independent entries see every direction. -/
theorem variance_excites {ν : Measure ℝ} [IsProbabilityMeasure ν] (h01 : ∀ᵐ x ∂ν, x ∈ Set.Icc 0 1)
    (v : Fin N → ℝ) : Var[id; ν] * inner' v v ≤
      ∫ x, inner' x v ^ 2 ∂(Measure.pi fun _ : Fin N => ν) := by
  have hid : MemLp (id : ℝ → ℝ) 2 ν := MemLp.of_bound (by fun_prop) 1 (h01.mono fun x hx => by
    rw [id, Real.norm_of_nonneg hx.1]; exact hx.2)
  have hX : ∀ i : Fin N, MemLp (fun x : ℝ => v i * x) 2 ν := fun i => hid.const_mul (v i)
  have hsum : (∑ i, fun x : Fin N → ℝ => v i * x i) = fun x => inner' x v := by
    funext x
    simp only [Finset.sum_apply, inner', mul_comm]
  have hvar := variance_sum_pi (μ := fun _ : Fin N => ν) (X := fun i x => v i * x) hX
  rw [hsum] at hvar
  have hmem : MemLp (fun x => inner' x v) 2 (Measure.pi fun _ : Fin N => ν) := by
    rw [← hsum]
    exact memLp_finsetSum' _ fun i _ =>
      (hX i).comp_measurePreserving (measurePreserving_eval (fun _ : Fin N => ν) i)
  have hle := variance_eq_sub hmem
  have h2 : ∑ i, Var[fun x => v i * x; ν] = Var[id; ν] * inner' v v := by
    simp only [inner', Finset.mul_sum]
    refine Finset.sum_congr rfl fun i _ => ?_
    rw [variance_const_mul]
    show v i ^ 2 * Var[id; ν] = _
    ring
  rw [h2] at hvar
  have h3 : ∫ x, ((fun x => inner' x v) ^ 2) x ∂(Measure.pi fun _ : Fin N => ν) =
      ∫ x, inner' x v ^ 2 ∂(Measure.pi fun _ : Fin N => ν) := rfl
  rw [h3] at hle
  nlinarith [sq_nonneg (∫ x, inner' x v ∂(Measure.pi fun _ : Fin N => ν))]

/-- The program as written (thirty weights, rate `0.01`, weights starting at zero) with true weights
in the unit interval, when all entries of all samples are drawn independently from a distribution on
the unit interval: the expected squared distance to the true weights after `n` iterations is at most
`30 (1 - 0.028 V)ⁿ` where `V` is the variance of the distribution, and the weights converge to them
with probability one unless the distribution is constant. -/
theorem C75_program {Ω : Type} [MeasurableSpace Ω] {P : Measure Ω} [IsProbabilityMeasure P]
    {ν : Measure ℝ} [IsProbabilityMeasure ν] (h01 : ∀ᵐ x ∂ν, x ∈ Set.Icc 0 1)
    (hV : 0 < Var[id; ν]) {X : ℕ → Ω → Fin 30 → ℝ} (hX : ∀ k, Measurable (X k))
    (hi : iIndepFun X P) (hμ : ∀ k, P.map (X k) = Measure.pi fun _ => ν)
    (tw : NArr ℝ [30]) (ht : ∀ i, 0 ≤ tw.elem i ∧ tw.elem i ≤ 1) :
    ∃ W : ℕ → Ω → Fin 30 → ℝ,
      (∀ n ω, ∃ s', linearRun (1 / 100) tw (linearInit 30)
        (List.ofFn fun i : Fin n => NArr.ofElems (X i ω)) = .ok s' ∧ s'.w.elem = W n ω) ∧
      (∀ n, Integrable (fun ω => dist2 (W n ω) tw.elem) P ∧
        ∫ ω, dist2 (W n ω) tw.elem ∂P ≤ 30 * (1 - 0.028 * Var[id; ν]) ^ n) ∧
      ∀ᵐ ω ∂P, Tendsto (fun n => W n ω) atTop (𝓝 tw.elem) := by
  have hcube : ∀ᵐ x ∂(Measure.pi fun _ : Fin 30 => ν), ∀ i, x i ∈ Set.Icc (0 : ℝ) 1 :=
    ae_all_iff.2 fun i => (measurePreserving_eval (fun _ : Fin 30 => ν) i).quasiMeasurePreserving.ae h01
  have hu : ∀ a : Fin 30 → ℝ, (∀ i, 0 ≤ a i ∧ a i ≤ 1) → ∑ i, a i ^ 2 ≤ 30 := fun a ha => by
    calc ∑ i, a i ^ 2 ≤ ∑ _i : Fin 30, (1 : ℝ) :=
          Finset.sum_le_sum fun i _ => pow_le_one₀ (ha i).1 (ha i).2
      _ = 30 := by simp
  obtain ⟨W, h1, h2, h3⟩ := C75_random (η := 1 / 100) (r := 3 / 10) (l := Var[id; ν]) hX hi hμ
    (by norm_num) (by norm_num) hV (hcube.mono fun x hx => by
      have := hu x hx
      simp only [inner', ← pow_two]
      linarith) (variance_excites h01) tw (linearInit 30)
  refine ⟨W, h1, fun n => ⟨(h2 n).1, ?_⟩, h3⟩
  have h0 : (linearInit (F := ℝ) 30).w.elem = fun _ => 0 := by
    funext i; exact NArr.row_mkRows _ i
  have hd : dist2 (linearInit (F := ℝ) 30).w.elem tw.elem ≤ 30 := by
    rw [h0]; simpa [dist2] using hu _ ht
  have hvle : Var[id; ν] ≤ 1 := by
    have := variance_le_sub_mul_sub (X := id) h01 aemeasurable_id
    nlinarith [sq_nonneg (2 * (∫ x, id x ∂ν) - 1)]
  have hq : (1 - 4 * (1 / 100) * (1 - 3 / 10) * Var[id; ν] : ℝ) = 1 - 0.028 * Var[id; ν] := by
    norm_num
  refine le_trans (h2 n).2 ?_
  rw [hq, mul_comm]
  exact mul_le_mul_of_nonneg_right hd (pow_nonneg (by linarith) _)

instance : IsProbabilityMeasure uniform := ⟨by simp [uniform]⟩

/-- The variance of the uniform distribution. -/
theorem variance_uniform : Var[id; uniform] = 1 / 12 := by
  have h01 : ∀ᵐ x ∂uniform, x ∈ Set.Icc (0 : ℝ) 1 := ae_restrict_mem measurableSet_Icc
  have hid : MemLp (id : ℝ → ℝ) 2 uniform := MemLp.of_bound (by fun_prop) 1 (h01.mono fun x hx => by
    rw [id, Real.norm_of_nonneg hx.1]; exact hx.2)
  rw [variance_eq_sub hid]
  have h1 : ∫ x, (id ^ 2 : ℝ → ℝ) x ∂uniform = 1 / 3 := by
    show ∫ x in Set.Icc (0 : ℝ) 1, x ^ 2 = 1 / 3
    rw [integral_Icc_eq_integral_Ioc, ← intervalIntegral.integral_of_le zero_le_one, integral_pow]
    norm_num
  have h2 : ∫ x, id x ∂uniform = 1 / 2 := by
    show ∫ x in Set.Icc (0 : ℝ) 1, x = 1 / 2
    rw [integral_Icc_eq_integral_Ioc, ← intervalIntegral.integral_of_le zero_le_one, integral_id]
    norm_num
  rw [h1, h2]
  norm_num

/-- The example with uniformly distributed samples, as `rng.gen()` is meant to draw them: after
`1000 (k + 2)` iterations or more the expected squared distance to the true weights is below
`10 ^ (-k)`. -/
theorem C75_digits {Ω : Type} [MeasurableSpace Ω] {P : Measure Ω} [IsProbabilityMeasure P]
    {X : ℕ → Ω → Fin 30 → ℝ} (hX : ∀ k, Measurable (X k)) (hi : iIndepFun X P)
    (hμ : ∀ k, P.map (X k) = Measure.pi fun _ => uniform) (tw : NArr ℝ [30])
    (ht : ∀ i, 0 ≤ tw.elem i ∧ tw.elem i ≤ 1) (k n : ℕ) (hn : 1000 * (k + 2) ≤ n) :
    ∃ W : Ω → Fin 30 → ℝ,
      (∀ ω, ∃ s', linearRun (1 / 100) tw (linearInit 30)
        (List.ofFn fun i : Fin n => NArr.ofElems (X i ω)) = .ok s' ∧ s'.w.elem = W ω) ∧
      Integrable (fun ω => dist2 (W ω) tw.elem) P ∧
      ∫ ω, dist2 (W ω) tw.elem ∂P < (1 / 10) ^ k := by
  have h01 : ∀ᵐ x ∂uniform, x ∈ Set.Icc (0 : ℝ) 1 := ae_restrict_mem measurableSet_Icc
  obtain ⟨W, h1, h2, -⟩ := C75_program h01 (by rw [variance_uniform]; norm_num) hX hi hμ tw ht
  refine ⟨W n, h1 n, (h2 n).1, lt_of_le_of_lt (h2 n).2 ?_⟩
  rw [variance_uniform]
  obtain ⟨z, hz⟩ : ∃ z : ℝ, z = 1 - 0.028 * (1 / 12) := ⟨_, rfl⟩
  rw [← hz]
  have hz0 : 0 ≤ z := by rw [hz]; norm_num
  have hz1 : z ≤ 1 := by rw [hz]; norm_num
  have ha : z ^ 1000 ≤ 1 / 10 := by
    have he : z ≤ Real.exp (-(0.028 * (1 / 12))) := by
      have := Real.add_one_le_exp (-(0.028 * (1 / 12) : ℝ))
      rw [hz]
      linarith
    have h10 : (10 : ℝ) ≤ Real.exp (7 / 3) := by
      have e1 : (7 / 3 : ℝ) = 1 + 1 + 1 / 3 := by norm_num
      have e2 := Real.exp_one_gt_d9
      have e3 := Real.quadratic_le_exp_of_nonneg (x := 1 / 3) (by norm_num)
      rw [e1, Real.exp_add, Real.exp_add]
      nlinarith [Real.exp_pos 1]
    calc z ^ 1000 ≤ Real.exp (-(0.028 * (1 / 12))) ^ 1000 := pow_le_pow_left₀ hz0 he _
      _ = (Real.exp (7 / 3))⁻¹ := by
          rw [← Real.exp_nat_mul, ← Real.exp_neg]
          congr 1
          norm_num
      _ ≤ 1 / 10 := by
          rw [one_div]
          exact inv_anti₀ (by norm_num) h10
  have hb : z ^ n ≤ (1 / 10) ^ (k + 2) := by
    refine le_trans (pow_le_pow_of_le_one hz0 hz1 hn) ?_
    rw [pow_mul]
    exact pow_le_pow_left₀ (pow_nonneg hz0 _) ha _
  have hd : (0 : ℝ) < (1 / 10) ^ k := by positivity
  rw [pow_add] at hb
  linarith

/-! ### Concrete cases -/

/-- Samples as `C75_random`, `C75_program` and `C75_digits` take them exist: independent vectors of
independent uniformly distributed entries. -/
example : ∃ (Ω : Type) (_ : MeasurableSpace Ω) (P : Measure Ω) (_ : IsProbabilityMeasure P)
    (X : ℕ → Ω → Fin 30 → ℝ), (∀ k, Measurable (X k)) ∧ iIndepFun X P ∧
      ∀ k, P.map (X k) = Measure.pi fun _ => uniform :=
  ⟨ℕ → Fin 30 → ℝ, inferInstance, Measure.infinitePi fun _ => Measure.pi fun _ => uniform,
    inferInstance, fun k ω => ω k, fun k => measurable_pi_apply k,
    iIndepFun_infinitePi (X := fun _ x => x) fun _ => measurable_id,
    fun k => Measure.infinitePi_map_eval (fun _ : ℕ => Measure.pi fun _ : Fin 30 => uniform) k⟩

/-- The ten million iterations of the program leave an expected squared distance below `10 ^ (-9998)`
(`C75_digits` with `k = 9998`). -/
example : 1000 * (9998 + 2) ≤ 10000000 := by norm_num

/-- The two unit vectors see every direction of the plane (`C75_window` with `α = 1`, `C75_iff`). -/
example : ∀ v : Fin 2 → ℝ, 1 * inner' v v ≤ ((
    [NArr.ofElems ![(1 : ℝ), 0], NArr.ofElems ![(0 : ℝ), 1]]).map fun x => inner' x.elem v ^ 2).sum := by
  have h (a : Fin 2 → ℝ) : (NArr.ofElems a).elem = a := funext fun i => NArr.row_mkRows (ds := []) _ i
  intro v
  simp [h, inner', Fin.sum_univ_two, pow_two]

/-- So with the rate `1/4` the program finds every pair of true weights from these two samples. -/
example (tw : NArr ℝ [2]) (s : Data ℝ 2) : ∃ W : ℕ → Fin 2 → ℝ,
    (∀ n, ∃ s', linearRun (1 / 4) tw s
      (rounds [NArr.ofElems ![(1 : ℝ), 0], NArr.ofElems ![(0 : ℝ), 1]] n) = .ok s' ∧
      s'.w.elem = W n) ∧ Tendsto W atTop (𝓝 tw.elem) := by
  have h (a : Fin 2 → ℝ) : (NArr.ofElems a).elem = a := funext fun i => NArr.row_mkRows (ds := []) _ i
  refine (C75_iff (r := 1 / 4) (by norm_num) (by norm_num) (by norm_num) _ ?_ tw).2 ?_ s
  · intro x hx
    simp only [List.mem_cons, List.not_mem_nil, or_false] at hx
    rcases hx with rfl | rfl <;> rw [h] <;> simp [inner', Fin.sum_univ_two]
  · intro v hv
    have h1 := hv _ List.mem_cons_self
    have h2 := hv _ (List.mem_cons_of_mem _ List.mem_cons_self)
    rw [h] at h1 h2
    simp [inner', Fin.sum_univ_two] at h1 h2
    funext i
    fin_cases i
    · exact h1
    · exact h2

/-- From one of them alone it does not. -/
example (tw : NArr ℝ [2]) : ¬ ∀ s : Data ℝ 2, ∃ W : ℕ → Fin 2 → ℝ,
    (∀ n, ∃ s', linearRun (1 / 4) tw s (rounds [NArr.ofElems ![(1 : ℝ), 0]] n) = .ok s' ∧
      s'.w.elem = W n) ∧ Tendsto W atTop (𝓝 tw.elem) := by
  have h (a : Fin 2 → ℝ) : (NArr.ofElems a).elem = a := funext fun i => NArr.row_mkRows (ds := []) _ i
  rw [C75_iff (r := 1 / 4) (by norm_num) (by norm_num) (by norm_num) _ (fun x hx => by
    rw [List.mem_singleton.1 hx, h]; simp [inner', Fin.sum_univ_two]) tw]
  intro hv
  have := congrFun (hv ![0, 1] fun x hx => by
    rw [List.mem_singleton.1 hx, h]; simp [inner', Fin.sum_univ_two]) 1
  simp at this

end Aegir.Examples
