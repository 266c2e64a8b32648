import Verif.Props.C88_LogisticRare
/-!
# C89: the logistic programs learn in double precision

C79 shows that the logistic example (`aegir/examples/logistic.rs`) learns the true probabilities over exact reals. Here
the arithmetic is that of the program, also where it draws the labels, and likewise for the five-dimensional benchmarks
(`aegir/benches/logistic.rs`). A run that panics, or ends with an infinite weight or NaN, counts with the largest error
there can be.
-/

namespace Aegir.Examples

open Aegir.Spec MeasureTheory ProbabilityTheory
open scoped ENNReal

variable {N : ℕ}

/-! ### Exact arithmetic, labels with nearly the probabilities of the true weights -/

/-- Log-odds that are off by `m` lead to a divergence proportional to `m`, for large `m`. -/
theorem away_le {c q g m : ℝ} (hc : 0 < c) (hq : c ≤ q) (hg : 0 ≤ g) (h : q * m ^ 2 ≤ g * (1 + |m|)) :
    |m| ≤ 1 + 2 / c * g := by
  have h0 : 0 ≤ 2 / c * g := by positivity
  rcases le_total |m| 1 with h1 | h1
  · linarith
  have h2 : c * |m| ^ 2 ≤ g * (2 * |m|) := by
    have : c * |m| ^ 2 ≤ q * |m| ^ 2 := mul_le_mul_of_nonneg_right hq (sq_nonneg _)
    have : g * (1 + |m|) ≤ g * (2 * |m|) := mul_le_mul_of_nonneg_left (by linarith) hg
    rw [← sq_abs] at h
    linarith
  have h3 : c * |m| ≤ g * 2 := by
    have hm : 0 < |m| := by linarith
    refine le_of_mul_le_mul_right ?_ hm
    linarith [show c * |m| * |m| = c * |m| ^ 2 by ring]
  have h4 : |m| ≤ g * 2 / c := by rw [le_div_iff₀ hc]; linarith
  have h5 : g * 2 / c = 2 / c * g := by ring
  linarith

/-- The distance after a step, on average over a label with probability about that of the true weights. -/
theorem flip_mean_le {η B c ε p : ℝ} (hη : 0 ≤ η) (hc : 0 < c) (tw w x : Fin N → ℝ) (hx : prod' x x ≤ B)
    (hp : |p - logistic (prod' x tw)| ≤ ε)
    (hs : c ≤ logistic (prod' x tw) * (1 - logistic (prod' x tw))) :
    p * sqDist (ascent η w x true) tw + (1 - p) * sqDist (ascent η w x false) tw +
      (2 * η - η ^ 2 * B / 4 - 4 / c * (η * ε)) * gap (prod' x w) (prod' x tw) ≤
      sqDist w tw + (η ^ 2 * B / 4 + ε * (2 * η + η ^ 2 * B)) := by
  have hx0 : 0 ≤ prod' x x := Finset.sum_nonneg fun i _ => mul_self_nonneg _
  have hε : 0 ≤ ε := (abs_nonneg _).trans hp
  have hmean := ascent_mean_le (η := η) tw w x hx
  have hr := logistic_range (prod' x w)
  have hg0 := gap_nonneg (prod' x w) (prod' x tw)
  have haway := away_le (m := prod' x w - prod' x tw) hc hs hg0 (logistic_away _ _)
  have e1 := sqDist_ascent η tw w x true (c := 1 - logistic (prod' x w)) (by simp)
  have e0 := sqDist_ascent η tw w x false (c := 0 - logistic (prod' x w)) (by simp)
  set g := gap (prod' x w) (prod' x tw)
  set q := logistic (prod' x tw)
  set s := logistic (prod' x w)
  set m := prod' x w - prod' x tw
  set S₁ := sqDist (ascent η w x true) tw
  set S₀ := sqDist (ascent η w x false) tw
  have hd : S₁ - S₀ = 2 * η * m + η ^ 2 * (prod' x x * (1 - 2 * s)) := by rw [e1, e0]; ring
  have hd' : |S₁ - S₀| ≤ 2 * η * |m| + η ^ 2 * B := by
    rw [hd]
    refine (abs_add_le _ _).trans (add_le_add ?_ ?_)
    · rw [abs_mul, abs_of_nonneg (by positivity : 0 ≤ 2 * η)]
    · rw [abs_mul, abs_of_nonneg (sq_nonneg η), abs_mul, abs_of_nonneg hx0]
      refine mul_le_mul_of_nonneg_left ?_ (sq_nonneg η)
      refine (mul_le_of_le_one_right hx0 ?_).trans hx
      rw [abs_le]; constructor <;> linarith
  have h1 : (p - q) * (S₁ - S₀) ≤ ε * (2 * η * (1 + 2 / c * g) + η ^ 2 * B) := by
    refine (le_abs_self _).trans ?_
    rw [abs_mul]
    refine mul_le_mul hp (hd'.trans ?_) (abs_nonneg _) hε
    have := mul_le_mul_of_nonneg_left haway (by positivity : 0 ≤ 2 * η)
    linarith
  have h2 : p * S₁ + (1 - p) * S₀ = q * S₁ + (1 - q) * S₀ + (p - q) * (S₁ - S₀) := by ring
  have h3 : ε * (2 * η * (1 + 2 / c * g) + η ^ 2 * B) = ε * (2 * η + η ^ 2 * B) + 4 / c * (η * ε) * g := by ring
  linarith

section
variable {Ω T : Type} [MeasurableSpace Ω] {P : Measure Ω} [IsProbabilityMeasure P]
  [MeasurableSpace T] {ν : Measure T} [IsProbabilityMeasure ν] {X : ℕ → Ω → T × ℝ}

/-- The mean squared error of the probabilities that the weights `v` give, on a sample `x t`. -/
noncomputable def sqLoss (ν : Measure T) (x : T → Fin N → ℝ) (tw v : Fin N → ℝ) : ℝ :=
  ∫ t, (logistic (prod' (x t) v) - logistic (prod' (x t) tw)) ^ 2 ∂ν

theorem measurable_logit {x : T → Fin N → ℝ} (hx : Measurable x) :
    Measurable fun a : (Fin N → ℝ) × T => logistic (prod' (x a.2) a.1) := by
  have h : Measurable fun a : (Fin N → ℝ) × T => prod' (x a.2) a.1 := by
    unfold prod'
    refine Finset.measurable_sum _ fun i _ => ?_
    exact ((measurable_pi_apply i).comp (hx.comp measurable_snd)).mul
      ((measurable_pi_apply i).comp measurable_fst)
  exact continuous_logistic.measurable.comp h

theorem measurable_logit_true {x : T → Fin N → ℝ} (hx : Measurable x) (tw : Fin N → ℝ) :
    Measurable fun t => logistic (prod' (x t) tw) :=
  (continuous_logistic.comp (continuous_prod tw)).measurable.comp hx

theorem measurable_sqErr {x : T → Fin N → ℝ} (hx : Measurable x) (tw : Fin N → ℝ) :
    Measurable (fun a : (Fin N → ℝ) × T => (logistic (prod' (x a.2) a.1) - logistic (prod' (x a.2) tw)) ^ 2) :=
  ((measurable_logit hx).sub ((measurable_logit_true hx tw).comp measurable_snd)).pow_const 2

theorem measurable_sqLoss {x : T → Fin N → ℝ} (hx : Measurable x) (tw : Fin N → ℝ) :
    Measurable (sqLoss ν x tw) := by
  have h := (measurable_sqErr hx tw).stronglyMeasurable.integral_prod_right' (ν := ν)
  exact h.measurable

theorem sqErr_le (a b : ℝ) : (logistic a - logistic b) ^ 2 ≤ 1 := by
  have h1 := logistic_range a
  have h2 := logistic_range b
  nlinarith

theorem integrable_sqErr {x : T → Fin N → ℝ} (hx : Measurable x) (tw v : Fin N → ℝ) :
    Integrable (fun t => (logistic (prod' (x t) v) - logistic (prod' (x t) tw)) ^ 2) ν := by
  refine Integrable.of_bound (C := 1) ?_ (.of_forall fun t => ?_)
  · exact ((measurable_sqErr hx tw).comp (measurable_const.prodMk measurable_id)).aestronglyMeasurable
  · rw [Real.norm_of_nonneg (sq_nonneg _)]
    exact sqErr_le _ _

omit [IsProbabilityMeasure ν] in
theorem sqLoss_nonneg (x : T → Fin N → ℝ) (tw v : Fin N → ℝ) : 0 ≤ sqLoss ν x tw v :=
  integral_nonneg fun _ => sq_nonneg _

theorem sqLoss_le_one {x : T → Fin N → ℝ} (hx : Measurable x) (tw v : Fin N → ℝ) : sqLoss ν x tw v ≤ 1 := by
  refine (integral_mono (integrable_sqErr hx tw v) (integrable_const 1) fun t => sqErr_le _ _).trans (le_of_eq ?_)
  simp

/-- Weights close to each other have errors close to each other. -/
theorem sqLoss_near {x : T → Fin N → ℝ} (hx : Measurable x) (tw v v' : Fin N → ℝ) {δ : ℝ}
    (h : ∀ t, |prod' (x t) v - prod' (x t) v'| ≤ δ) : sqLoss ν x tw v ≤ sqLoss ν x tw v' + δ / 2 := by
  have hi := (integrable_sqErr (ν := ν) hx tw v').add (integrable_const (δ / 2))
  refine (integral_mono (integrable_sqErr hx tw v) hi fun t => ?_).trans (le_of_eq ?_)
  · have h1 := abs_logistic_sub (prod' (x t) v) (prod' (x t) v')
    have h2 := logistic_range (prod' (x t) v)
    have h3 := logistic_range (prod' (x t) v')
    have h4 := logistic_range (prod' (x t) tw)
    have h5 := h t
    simp only [Pi.add_apply]
    generalize logistic (prod' (x t) v) = a at *
    generalize logistic (prod' (x t) v') = b at *
    generalize logistic (prod' (x t) tw) = c at *
    have h6 : |a - b| ≤ δ / 4 := by linarith
    have h7 : (a - c) ^ 2 - (b - c) ^ 2 ≤ δ / 4 * 2 := by
      rw [show (a - c) ^ 2 - (b - c) ^ 2 = (a - b) * (a + b - 2 * c) by ring]
      refine (le_abs_self _).trans ?_
      rw [abs_mul]
      refine mul_le_mul h6 ?_ (abs_nonneg _) ((abs_nonneg _).trans h6)
      rw [abs_le]; constructor <;> linarith
    linarith
  · rw [integral_add' (integrable_sqErr hx tw v') (integrable_const _)]
    simp [sqLoss]

/-- Gradient ascent in exact arithmetic on independent samples of squared length at most `B`, whose labels have nearly
the probabilities of the true weights: what the mean squared errors add up to. -/
theorem C89_random (hX : ∀ k, Measurable (X k)) (hi : iIndepFun X P) (hμ : ∀ k, P.map (X k) = ν.prod uniform)
    {η B c ε : ℝ} (hη : 0 ≤ η) (hc : 0 < c) {x : T → Fin N → ℝ} (hx : Measurable x) {p : T → ℝ}
    (hpm : Measurable p) (hp : ∀ t, 0 ≤ p t ∧ p t ≤ 1) (tw : Fin N → ℝ) (hB : ∀ t, prod' (x t) (x t) ≤ B)
    (hε : ∀ t, |p t - logistic (prod' (x t) tw)| ≤ ε)
    (hs : ∀ t, c ≤ logistic (prod' (x t) tw) * (1 - logistic (prod' (x t) tw)))
    (hpos : 0 < 2 * η - η ^ 2 * B / 4 - 4 / c * (η * ε)) (w : Fin N → ℝ) (n : ℕ) :
    ∑ k ∈ Finset.range n, ∫ ω, sqLoss ν x tw (along (flipStep η x p) w X k ω) ∂P ≤
      (sqDist w tw + n * (η ^ 2 * B / 4 + ε * (2 * η + η ^ 2 * B))) /
        ((2 * η - η ^ 2 * B / 4 - 4 / c * (η * ε)) * 4) := by
  obtain ⟨t₀⟩ : Nonempty T := by
    by_contra h
    rw [not_nonempty_iff] at h
    have := measure_univ (μ := ν)
    rw [Set.univ_eq_empty_iff.2 h, measure_empty] at this
    exact zero_ne_one this
  have hε0 : 0 ≤ ε := (abs_nonneg _).trans (hε t₀)
  have hB0 : 0 ≤ B := le_trans (Finset.sum_nonneg fun i _ => mul_self_nonneg _) (hB t₀)
  set K := 2 * η - η ^ 2 * B / 4 - 4 / c * (η * ε) with hK
  set b := η ^ 2 * B / 4 + ε * (2 * η + η ^ 2 * B) with hb
  have hb0 : 0 ≤ b := by positivity
  have hd0 : ∀ v : Fin N → ℝ, 0 ≤ sqDist v tw := fun v => dist2_nonneg v tw
  have hV : Measurable fun v : Fin N → ℝ => ENNReal.ofReal (sqDist v tw) :=
    ENNReal.measurable_ofReal.comp (continuous_dist2 tw).measurable
  have hJ : Measurable fun v : Fin N → ℝ => ENNReal.ofReal (K * 4 * sqLoss ν x tw v) :=
    ENNReal.measurable_ofReal.comp ((measurable_sqLoss hx tw).const_mul _)
  have hstep : ∀ v : Fin N → ℝ, (∫⁻ d, ENNReal.ofReal (sqDist (flipStep η x p v d) tw) ∂ν.prod uniform) +
      ENNReal.ofReal (K * 4 * sqLoss ν x tw v) ≤ ENNReal.ofReal (sqDist v tw) + ENNReal.ofReal b := fun v => by
    have hm : Measurable fun d : T × ℝ => ENNReal.ofReal (sqDist (flipStep η x p v d) tw) :=
      hV.comp ((measurable_flipStep η hx hpm).comp (measurable_const.prodMk measurable_id))
    have hint := (integrable_sqErr (ν := ν) hx tw v).const_mul (K * 4)
    have hm2 : Measurable fun t =>
        ENNReal.ofReal (K * 4 * (logistic (prod' (x t) v) - logistic (prod' (x t) tw)) ^ 2) :=
      ENNReal.measurable_ofReal.comp
        (((measurable_sqErr hx tw).comp (measurable_const.prodMk measurable_id)).const_mul _)
    rw [lintegral_prod _ hm.aemeasurable, sqLoss, ← integral_const_mul,
      ofReal_integral_eq_lintegral_ofReal hint (.of_forall fun t => by positivity), ← lintegral_add_right _ hm2]
    calc ∫⁻ t, ((∫⁻ u, ENNReal.ofReal (sqDist (flipStep η x p v (t, u)) tw) ∂uniform) +
          ENNReal.ofReal (K * 4 * (logistic (prod' (x t) v) - logistic (prod' (x t) tw)) ^ 2)) ∂ν
        ≤ ∫⁻ _, (ENNReal.ofReal (sqDist v tw) + ENNReal.ofReal b) ∂ν := by
          refine lintegral_mono fun t => ?_
          have hcoin : (∫⁻ u, ENNReal.ofReal (sqDist (flipStep η x p v (t, u)) tw) ∂uniform) = _ :=
            lintegral_coin (hp t).1 (hp t).2 (fun b => ENNReal.ofReal (sqDist (ascent η v (x t) b) tw))
          have hp' : 0 ≤ 1 - p t := by linarith [(hp t).2]
          rw [hcoin, ← ENNReal.ofReal_mul (hp t).1, ← ENNReal.ofReal_mul hp', ← ENNReal.ofReal_add
            (mul_nonneg (hp t).1 (hd0 _)) (mul_nonneg hp' (hd0 _)), ← ENNReal.ofReal_add
            (add_nonneg (mul_nonneg (hp t).1 (hd0 _)) (mul_nonneg hp' (hd0 _))) (by positivity),
            ← ENNReal.ofReal_add (hd0 _) hb0]
          refine ENNReal.ofReal_le_ofReal ?_
          have h1 := flip_mean_le hη hc tw v (x t) (hB t) (hε t) (hs t)
          have h2 := mul_le_mul_of_nonneg_left (sq_le_gap (prod' (x t) v) (prod' (x t) tw)) hpos.le
          rw [← hK, ← hb] at h1
          linarith
      _ = _ := by rw [lintegral_const, measure_univ, mul_one]
  have h := le_trans le_add_self (mean_spent (measurable_flipStep η hx hpm) hX hi hμ hV hJ _ hstep w n)
  have hmW := fun k => measurable_along (measurable_flipStep η hx hpm) hX w k
  have hK4 : 0 < K * 4 := by positivity
  have hint : ∀ k, Integrable (fun ω => K * 4 * sqLoss ν x tw (along (flipStep η x p) w X k ω)) P := fun k => by
    refine (Integrable.of_bound (C := 1) ?_ (.of_forall fun ω => ?_)).const_mul _
    · exact ((measurable_sqLoss hx tw).comp (hmW k)).aestronglyMeasurable
    · rw [Real.norm_of_nonneg (sqLoss_nonneg _ _ _)]
      exact sqLoss_le_one hx _ _
  have e : ∀ k, ∫⁻ ω, ENNReal.ofReal (K * 4 * sqLoss ν x tw (along (flipStep η x p) w X k ω)) ∂P =
      ENNReal.ofReal (K * 4 * ∫ ω, sqLoss ν x tw (along (flipStep η x p) w X k ω) ∂P) := fun k => by
    rw [← integral_const_mul]
    exact (ofReal_integral_eq_lintegral_ofReal (hint k)
      (.of_forall fun _ => mul_nonneg hK4.le (sqLoss_nonneg _ _ _))).symm
  simp only [e] at h
  rw [← ENNReal.ofReal_sum_of_nonneg (fun k _ => mul_nonneg hK4.le (integral_nonneg fun _ => sqLoss_nonneg _ _ _)),
    ← ENNReal.ofReal_natCast, ← ENNReal.ofReal_mul (Nat.cast_nonneg n), ← ENNReal.ofReal_add (hd0 _) (by positivity),
    ENNReal.ofReal_le_ofReal_iff (add_nonneg (hd0 _) (by positivity)), ← Finset.mul_sum] at h
  rw [le_div_iff₀ hK4]
  linarith

end

/-! ### Double precision -/

/-- The error of what a program returns: the mean squared error, on a sample, of the probabilities that its weights give; one if
it panicked, or if one of the weights is infinite or NaN (`aegir/examples/logistic.rs` L37-62). -/
noncomputable def outcome {T : Type} [MeasurableSpace T] (ν : Measure T) (gen : T → NArr Double [5])
    (tw : NArr Double [5]) : Res Empty (Data Double 5) → ℝ
  | .ok s => by
    classical
    exact if ∀ i, (s.w.elem i).Finite then
      ∫ t, (logistic (prod' (vals Fp.val (gen t)) (vals Fp.val s.w)) -
        logistic (prod' (vals Fp.val (gen t)) (vals Fp.val tw))) ^ 2 ∂ν
    else 1
  | _ => 1

section
variable {Ω T : Type} [MeasurableSpace Ω] {P : Measure Ω} [IsProbabilityMeasure P]
  [MeasurableSpace T] [Countable T] [MeasurableSingletonClass T] {ν : Measure T} [IsProbabilityMeasure ν]
  {X : ℕ → Ω → T × ℝ} {gen : T → NArr Double [5]} {tw : NArr Double [5]}

omit [IsProbabilityMeasure ν] [Countable T] [MeasurableSingletonClass T] in
theorem outcome_ok {s : Data Double 5} (h : ∀ i, (s.w.elem i).Finite) :
    outcome ν gen tw (.ok s) = sqLoss ν (fun t => vals Fp.val (gen t)) (vals Fp.val tw) (vals Fp.val s.w) := by
  unfold outcome
  exact if_pos h

theorem outcome_range (r : Res Empty (Data Double 5)) : 0 ≤ outcome ν gen tw r ∧ outcome ν gen tw r ≤ 1 := by
  have h1 : (0 : ℝ) ≤ 1 ∧ (1 : ℝ) ≤ 1 := ⟨zero_le_one, le_rfl⟩
  cases r with
  | ok s =>
    by_cases h : ∀ i, (s.w.elem i).Finite
    · rw [outcome_ok h]
      exact ⟨sqLoss_nonneg _ _ _, sqLoss_le_one (measurable_of_countable _) _ _⟩
    · have : outcome ν gen tw (.ok s) = 1 := by
        unfold outcome
        exact if_neg h
      rw [this]
      exact h1
  | err e => exact e.elim
  | panic => exact h1

omit [IsProbabilityMeasure P] in
/-- Anything that depends on the draws of the program is measurable. -/
theorem measurable_draws (hX : ∀ k, Measurable (X k)) (n : ℕ) (f : List (NArr Double [5] × Bool) → ℝ) :
    Measurable fun ω => f (doubleDraws tw gen X n ω) := by
  have hb : Measurable fun d : T × ℝ => decide (d.2 < labelProb tw (gen d.1)) := by
    refine measurable_to_bool ?_
    have : MeasurableSet {d : T × ℝ | d.2 < labelProb tw (gen d.1)} :=
      measurableSet_lt measurable_snd ((measurable_of_countable fun t => labelProb tw (gen t)).comp measurable_fst)
    convert this using 1
    ext d
    simp
  have hg : Measurable fun ω => fun i : Fin n => ((X i ω).1, decide ((X i ω).2 < labelProb tw (gen (X i ω).1))) :=
    measurable_pi_lambda _ fun i => (measurable_fst.comp (hX i)).prodMk (hb.comp (hX i))
  exact (measurable_of_countable fun z : Fin n → T × Bool => f (List.ofFn fun i => (gen (z i).1, (z i).2))).comp hg

theorem inner_weights {x v v' : Fin 5 → ℝ} {δ : ℝ} (hx : ∀ i, |x i| ≤ 1) (h : ∀ i, |v i - v' i| ≤ δ) :
    |prod' x v - prod' x v'| ≤ 5 * δ := by
  have e : prod' x v - prod' x v' = ∑ i, x i * (v i - v' i) := by
    simp only [prod', ← Finset.sum_sub_distrib, mul_sub]
  rw [e]
  refine (Finset.abs_sum_le_sum_abs _ _).trans ?_
  calc ∑ i, |x i * (v i - v' i)| ≤ ∑ _i : Fin 5, δ := Finset.sum_le_sum fun i _ => by
        rw [abs_mul]
        exact (mul_le_of_le_one_left (abs_nonneg _) (hx i)).trans (h i)
    _ = 5 * δ := by simp

/-- Where labels vary. -/
theorem slope_five {z : ℝ} (h : |z| ≤ 5) : 1 / 600 ≤ logistic z * (1 - logistic z) := by
  refine le_trans ?_ (logistic_slope z)
  have h1 : Real.exp (-5) ≤ Real.exp (-|z|) := Real.exp_le_exp.2 (by linarith)
  have h2 : 1 / 150 ≤ Real.exp (-5) := by
    have e : Real.exp 5 = Real.exp 1 ^ 5 := by rw [← Real.exp_nat_mul]; norm_num
    have h3 : Real.exp 1 ^ 5 ≤ 2.72 ^ 5 :=
      pow_le_pow_left₀ (Real.exp_pos _).le (by linarith [Real.exp_one_lt_d9]) 5
    rw [Real.exp_neg, ← one_div]
    refine one_div_le_one_div_of_le (Real.exp_pos _) ?_
    rw [e]
    exact h3.trans (by norm_num)
  linarith

/-- The sizes in `C89_random`. -/
theorem average_small {η S d : ℝ} {n : ℕ} (h0 : 0 < η) (h1 : η ≤ 10001 / 10000000) (hn : 0 < n) (hd : d ≤ 5)
    (h : S ≤ (d + n * (η ^ 2 * 5 / 4 + 1 / 2 ^ 40 * (2 * η + η ^ 2 * 5))) /
      ((2 * η - η ^ 2 * 5 / 4 - 4 / (1 / 600) * (η * (1 / 2 ^ 40))) * 4)) :
    S / n ≤ 0.626 / (η * n) + 0.157 * η + 1 / 10 ^ 9 := by
  have hn' : (0 : ℝ) < n := by exact_mod_cast hn
  have hc : 7.99 * η ≤ (2 * η - η ^ 2 * 5 / 4 - 4 / (1 / 600) * (η * (1 / 2 ^ 40))) * 4 := by
    norm_num
    nlinarith
  have hb : η ^ 2 * 5 / 4 + 1 / 2 ^ 40 * (2 * η + η ^ 2 * 5) ≤ 1.2501 * η ^ 2 + η / 10 ^ 10 := by
    norm_num
    nlinarith
  have hS : S ≤ (5 + n * (1.2501 * η ^ 2 + η / 10 ^ 10)) / (7.99 * η) := by
    refine h.trans (div_le_div₀ (by positivity) ?_ (by positivity) hc)
    have := mul_le_mul_of_nonneg_left hb hn'.le
    linarith
  rw [div_le_iff₀ hn']
  refine hS.trans ?_
  rw [div_le_iff₀ (by positivity)]
  have e : (0.626 / (η * n) + 0.157 * η + 1 / 10 ^ 9) * n * (7.99 * η) =
      0.626 * 7.99 + n * (0.157 * 7.99 * η ^ 2 + 7.99 / 10 ^ 9 * η) := by
    field_simp
    ring
  rw [e]
  have : 1.2501 * η ^ 2 + η / 10 ^ 10 ≤ 0.157 * 7.99 * η ^ 2 + 7.99 / 10 ^ 9 * η := by
    norm_num
    nlinarith
  have := mul_le_mul_of_nonneg_left this hn'.le
  norm_num at this ⊢
  linarith

/-- Any program `R` in double precision that hardly ever strays from gradient ascent in exact arithmetic. -/
theorem follows (hX : ∀ k, Measurable (X k)) (hi : iIndepFun X P)
    (hμ : ∀ k, P.map (X k) = ν.prod uniform)
    (hg : ∀ t i, ((gen t).elem i).Finite ∧ |vals Fp.val (gen t) i| ≤ 1)
    (ht : ∀ i, (tw.elem i).Finite ∧ |vals Fp.val tw i| ≤ 1) {η : ℝ}
    (hη0 : 0 < η) (hη1 : η ≤ 10001 / 10000000) {n : ℕ} (hn : 0 < n)
    {R : List (NArr Double [5] × Bool) → Res Empty (Data Double 5)}
    (hR : ∀ k < n, P {ω | ¬ ∃ s', R (doubleDraws tw gen X k ω) = .ok s' ∧ (∀ i, (s'.w.elem i).Finite) ∧
        ∀ i, |vals Fp.val s'.w i - ascents η (fun _ => 0)
          ((doubleDraws tw gen X k ω).map fun d => (vals Fp.val d.1, d.2)) i| ≤ 1 / 10 ^ 8} ≤
      ENNReal.ofReal (1 / 10 ^ 240)) :
    (∑ k ∈ Finset.range n, ∫ ω, outcome ν gen tw (R (doubleDraws tw gen X k ω)) ∂P) / n ≤
      0.626 / (η * n) + 0.157 * η + 3 / 10 ^ 8 := by
  have hsq : ∀ a : NArr Double [5], (∀ i, |vals Fp.val a i| ≤ 1) → prod' (vals Fp.val a) (vals Fp.val a) ≤ 5 :=
    fun a ha => by
      have := prod_self_le (val := Fp.val) ha
      norm_num at this ⊢
      exact this
  set x : T → Fin 5 → ℝ := fun t => vals Fp.val (gen t) with hxd
  set p : T → ℝ := fun t => labelProb tw (gen t) with hpd
  have hx : Measurable x := measurable_of_countable _
  have hpm : Measurable p := measurable_of_countable _
  have hd : sqDist (fun _ => 0) (vals Fp.val tw) ≤ 5 := by
    refine le_trans (le_of_eq ?_) (hsq tw fun i => (ht i).2)
    exact Finset.sum_congr rfl fun i _ => by ring
  have hz : ∀ t, |prod' (x t) (vals Fp.val tw)| ≤ 5 := fun t => by
    have := inner_weights (x := x t) (v := vals Fp.val tw) (v' := fun _ => 0) (δ := 1) (fun i => (hg t i).2)
      (fun i => by rw [sub_zero]; exact (ht i).2)
    have e : prod' (x t) (fun _ => 0) = 0 := by simp [prod']
    rw [e, sub_zero, mul_one] at this
    exact this
  have hrand := C89_random (η := η) (B := 5) (c := 1 / 600) (ε := 1 / 2 ^ 40) hX hi hμ hη0.le (by norm_num) hx hpm
    (fun t => (labelProb_near ht (hg t)).1) (vals Fp.val tw) (fun t => hsq _ fun i => (hg t i).2)
    (fun t => (labelProb_near ht (hg t)).2) (fun t => slope_five (hz t)) (by norm_num; nlinarith) (fun _ => 0) n
  have hav := average_small hη0 hη1 hn hd hrand
  set f : ℕ → Ω → ℝ := fun k ω => sqLoss ν x (vals Fp.val tw) (along (flipStep η x p) (fun _ => 0) X k ω) with hf
  have hfm : ∀ k, Integrable (f k) P := fun k => by
    refine Integrable.of_bound (C := 1) ?_ (.of_forall fun ω => ?_)
    · exact ((measurable_sqLoss hx _).comp
        (measurable_along (measurable_flipStep η hx hpm) hX (fun _ => 0) k)).aestronglyMeasurable
    · rw [Real.norm_of_nonneg (sqLoss_nonneg _ _ _)]
      exact sqLoss_le_one hx _ _
  have hstep : ∀ k < n, ∫ ω, outcome ν gen tw (R (doubleDraws tw gen X k ω)) ∂P ≤
      ∫ ω, f k ω ∂P + 26 / 10 ^ 9 := fun k hk => by
    have hbad := hR k hk
    set Bad := {ω | ¬ ∃ s', R (doubleDraws tw gen X k ω) = .ok s' ∧ (∀ i, (s'.w.elem i).Finite) ∧
        ∀ i, |vals Fp.val s'.w i - ascents η (fun _ => 0)
          ((doubleDraws tw gen X k ω).map fun d => (vals Fp.val d.1, d.2)) i| ≤ 1 / 10 ^ 8} with hBad
    have hmb : MeasurableSet (toMeasurable P Bad) := measurableSet_toMeasurable P Bad
    have hind : Integrable ((toMeasurable P Bad).indicator fun _ => (1 : ℝ)) P :=
      (integrable_const 1).indicator hmb
    have hpt : ∀ ω, outcome ν gen tw (R (doubleDraws tw gen X k ω)) ≤
        (f k ω + 25 / 10 ^ 9) + (toMeasurable P Bad).indicator (fun _ => (1 : ℝ)) ω := fun ω => by
      have hf0 : 0 ≤ f k ω := sqLoss_nonneg _ _ _
      by_cases hω : ω ∈ toMeasurable P Bad
      · rw [Set.indicator_of_mem hω]
        have := (outcome_range (ν := ν) (gen := gen) (tw := tw) (R (doubleDraws tw gen X k ω))).2
        have : (0 : ℝ) ≤ 25 / 10 ^ 9 := by norm_num
        linarith
      · rw [Set.indicator_of_notMem hω, add_zero]
        have hno : ω ∉ Bad := fun h => hω (subset_toMeasurable P Bad h)
        rw [hBad, Set.mem_ofPred_eq, not_not] at hno
        obtain ⟨s', h1, h2, h3⟩ := hno
        have hmap : (doubleDraws tw gen X k ω).map (fun d => (vals Fp.val d.1, d.2)) = flips x p X k ω := by
          unfold doubleDraws flips
          rw [List.map_ofFn]
          rfl
        rw [hmap, ascents_flips] at h3
        rw [h1, outcome_ok h2]
        have := sqLoss_near (ν := ν) hx (vals Fp.val tw) (vals Fp.val s'.w)
          (along (flipStep η x p) (fun _ => 0) X k ω) (δ := 5 * (1 / 10 ^ 8))
          fun t => inner_weights (fun i => (hg t i).2) h3
        refine this.trans (le_of_eq ?_)
        rw [hf]
        norm_num
    have hout : Integrable (fun ω => outcome ν gen tw (R (doubleDraws tw gen X k ω))) P := by
      refine Integrable.of_bound (C := 1) ?_ (.of_forall fun ω => ?_)
      · exact (measurable_draws hX k fun l => outcome ν gen tw (R l)).aestronglyMeasurable
      · rw [Real.norm_of_nonneg (outcome_range _).1]
        exact (outcome_range _).2
    have hfc : Integrable (fun ω => f k ω + 25 / 10 ^ 9) P := (hfm k).add (integrable_const _)
    refine (integral_mono hout (hfc.add hind) hpt).trans ?_
    rw [integral_add' hfc hind, integral_add (hfm k) (integrable_const _), integral_indicator_const _ hmb]
    have hr : P.real (toMeasurable P Bad) ≤ 1 / 10 ^ 240 := by
      rw [Measure.real, measure_toMeasurable]
      exact ENNReal.toReal_le_of_le_ofReal (by positivity) hbad
    have h240 : (1 : ℝ) / 10 ^ 240 ≤ 1 / 10 ^ 9 :=
      one_div_le_one_div_of_le (by positivity) (pow_le_pow_right₀ (by norm_num) (by norm_num))
    simp only [integral_const, probReal_univ, smul_eq_mul, one_mul, mul_one]
    have := hr.trans h240
    norm_num at this ⊢
    linarith
  have hn' : (0 : ℝ) < n := by exact_mod_cast hn
  have hsum : ∑ k ∈ Finset.range n, ∫ ω, outcome ν gen tw (R (doubleDraws tw gen X k ω)) ∂P ≤
      ∑ k ∈ Finset.range n, ∫ ω, f k ω ∂P + n * (26 / 10 ^ 9) := by
    refine (Finset.sum_le_sum fun k hk => hstep k (Finset.mem_range.1 hk)).trans (le_of_eq ?_)
    rw [Finset.sum_add_distrib, Finset.sum_const, Finset.card_range, nsmul_eq_mul]
  calc (∑ k ∈ Finset.range n, ∫ ω, outcome ν gen tw (R (doubleDraws tw gen X k ω)) ∂P) / n
      ≤ (∑ k ∈ Finset.range n, ∫ ω, f k ω ∂P + n * (26 / 10 ^ 9)) / n :=
        div_le_div_of_nonneg_right hsum hn'.le
    _ = (∑ k ∈ Finset.range n, ∫ ω, f k ω ∂P) / n + 26 / 10 ^ 9 := by field_simp
    _ ≤ _ := by
      norm_num at hav ⊢
      linarith

/-- The program in double precision in five dimensions with any rate up to one thousandth, for any true weights and
independent samples of any distribution on the doubles of the unit cube: the expected error of the probabilities on a new
sample, averaged over the first `n` iterations. -/
theorem C89_double (hX : ∀ k, Measurable (X k)) (hi : iIndepFun X P)
    (hμ : ∀ k, P.map (X k) = ν.prod uniform)
    (hg : ∀ t i, ((gen t).elem i).Finite ∧ |vals Fp.val (gen t) i| ≤ 1)
    (ht : ∀ i, (tw.elem i).Finite ∧ |vals Fp.val tw i| ≤ 1) {η : Double} (hf : η.Finite)
    (hη0 : 0 < η.val) (hη1 : η.val ≤ 10001 / 10000000) {s : Data Double 5} (hs : ∀ i, s.w.elem i = 0)
    {n : ℕ} (hn0 : 0 < n) (hn : n ≤ 1000000) :
    (∑ k ∈ Finset.range n, ∫ ω, outcome ν gen tw (logisticRun η tw s (doubleDraws tw gen X k ω)) ∂P) / n ≤
      0.626 / (η.val * n) + 0.157 * η.val + 3 / 10 ^ 8 :=
  follows hX hi hμ hg ht hη0 hη1 hn0 fun _ hk =>
    C88_double hX hi hμ hg ht hf hη0.le hη1 hs (hk.le.trans hn)

/-- `examples/logistic.rs` with its own rate and number of iterations, in double precision: the expected squared error of
the probabilities, averaged over the iterations, is less than `0.00134` (the bound that `C79_program` gives over exact reals). -/
theorem C89_example (hX : ∀ k, Measurable (X k)) (hi : iIndepFun X P)
    (hμ : ∀ k, P.map (X k) = ν.prod uniform)
    (hg : ∀ t i, ((gen t).elem i).Finite ∧ |vals Fp.val (gen t) i| ≤ 1)
    (ht : ∀ i, (tw.elem i).Finite ∧ |vals Fp.val tw i| ≤ 1) :
    (∑ k ∈ Finset.range 1000000, ∫ ω, outcome ν gen tw (logisticRun (Fp.round (1 / 2000) : Double) tw
      (logisticInit 5) (doubleDraws tw gen X k ω)) ∂P) / 1000000 < 0.00134 := by
  obtain ⟨hf, hη⟩ := logistic_rate
  rw [abs_le] at hη
  have h0 : 4999 / 10000000 ≤ (Fp.round (1 / 2000) : Double).val := by norm_num at hη ⊢; linarith
  have h1 : (Fp.round (1 / 2000) : Double).val ≤ 50001 / 100000000 := by norm_num at hη ⊢; linarith
  have h := C89_double (P := P) (ν := ν) hX hi hμ hg ht hf (by linarith) (by linarith)
    (s := logisticInit 5) (fun i => NArr.row_mkRows _ i) (n := 1000000) (by norm_num) le_rfl
  generalize (Fp.round (1 / 2000) : Double).val = y at h h0 h1
  have h2 : 0.626 / (y * (1000000 : ℕ)) ≤ 0.626 / 499.9 := by
    refine div_le_div_of_nonneg_left (by norm_num) (by norm_num) ?_
    push_cast
    linarith
  push_cast at h h2
  norm_num at h h2 ⊢
  linarith

end

end Aegir.Examples

namespace Aegir.Benches

open Aegir.Spec Aegir.Examples MeasureTheory ProbabilityTheory

/-- The two five-dimensional benchmarks with their own rate and number of iterations, in double precision: the one with the
library's gradient and the one with the gradient written by hand learn equally well. -/
theorem C89_bench {Ω T : Type} [MeasurableSpace Ω] {P : Measure Ω} [IsProbabilityMeasure P]
    [MeasurableSpace T] [Countable T] [MeasurableSingletonClass T] {ν : Measure T} [IsProbabilityMeasure ν]
    {X : ℕ → Ω → T × ℝ} (hX : ∀ k, Measurable (X k)) (hi : iIndepFun X P)
    (hμ : ∀ k, P.map (X k) = ν.prod uniform) {gen : T → NArr Double [5]}
    (hg : ∀ t i, ((gen t).elem i).Finite ∧ |vals Fp.val (gen t) i| ≤ 1) {tw : List Double} (hl : 5 ≤ tw.length)
    (ht : ∀ t ∈ tw, t.Finite ∧ |t.val| ≤ 1) :
    (∑ k ∈ Finset.range 1000000, ∫ ω, outcome ν gen (NArr.ofElems fun k : Fin 5 => tw[k])
      (logisticAuto (Fp.round (1 / 1000) : Double) tw (init 5) (benchDraws tw hl gen X k ω)) ∂P) / 1000000 < 0.0008 ∧
    (∑ k ∈ Finset.range 1000000, ∫ ω, outcome ν gen (NArr.ofElems fun k : Fin 5 => tw[k])
      (logisticByHand (Fp.round (1 / 1000) : Double) tw (init 5) (benchDraws tw hl gen X k ω)) ∂P) / 1000000 <
        0.0008 := by
  obtain ⟨hf, h0, h1⟩ := bench_rate'
  have hT := table_ok hl ht
  have hx : ∀ k ω, ∀ d ∈ benchDraws tw hl gen X k ω, ∀ i, (d.1.elem i).Finite ∧ |vals Fp.val d.1 i| ≤ 1 :=
    fun k ω d hd => by
      obtain ⟨i, rfl⟩ := (List.mem_ofFn' _ _).1 hd
      exact hg _
  have hauto := follows (P := P) (ν := ν) hX hi hμ hg hT (by linarith) h1 (n := 1000000) (by norm_num)
    (R := logisticAuto (Fp.round (1 / 1000) : Double) tw (init 5)) (fun k hk => by
      refine (measure_mono fun ω hω => ?_).trans (C88_double hX hi hμ hg hT hf (by linarith) h1
        (s := init 5) init_elem hk.le)
      rintro ⟨s, h, f, e⟩
      exact hω ⟨s, (C83_example _ tw hl _ _).trans h, f, e⟩)
  have hhand := follows (P := P) (ν := ν) hX hi hμ hg hT (by linarith) h1 (n := 1000000) (by norm_num)
    (R := logisticByHand (Fp.round (1 / 1000) : Double) tw (init 5)) (fun k hk => by
      refine (measure_mono (t := ∅) fun ω hω => ?_).trans (by simp)
      refine hω ?_
      exact C83_manual (by norm_num) hl ht (benchDraws tw hl gen X k ω)
        (by rw [benchDraws, doubleDraws, List.length_ofFn]; exact hk.le) (hx k ω))
  have fin : ∀ {S y : ℝ}, 9999 / 10000000 ≤ y → y ≤ 10001 / 10000000 →
      S / (1000000 : ℕ) ≤ 0.626 / (y * (1000000 : ℕ)) + 0.157 * y + 3 / 10 ^ 8 → S / 1000000 < 0.0008 :=
    fun {S y} h0 h1 h => by
      have h2 : 0.626 / (y * (1000000 : ℕ)) ≤ 0.626 / 999.9 := by
        refine div_le_div_of_nonneg_left (by norm_num) (by norm_num) ?_
        push_cast
        linarith
      push_cast at h h2
      norm_num at h h2 ⊢
      linarith
  exact ⟨fin (by linarith) h1 hauto, fin (by linarith) h1 hhand⟩

/-! ### Concrete cases -/

/-- The samples of the program: entries `j / 2 ^ 53` with `j < m` (in `rand`, `m = 2 ^ 53`), of any joint distribution; the
table of the source. -/
example {m : ℕ} (hm : m ≤ 2 ^ 53) (ν : Measure (Fin 5 → Fin m)) [IsProbabilityMeasure ν] :
    ∃ (Ω : Type) (_ : MeasurableSpace Ω) (P : Measure Ω) (_ : IsProbabilityMeasure P)
      (X : ℕ → Ω → (Fin 5 → Fin m) × ℝ), (∀ k, P.map (X k) = ν.prod uniform) ∧
      (∑ k ∈ Finset.range 1000000, ∫ ω, outcome ν (fun t => NArr.ofElems fun i => Fp.round ((t i : ℕ) / 2 ^ 53))
        (NArr.ofElems fun k : Fin 5 => table[k]) (logisticAuto (Fp.round (1 / 1000) : Double) table (init 5)
          (benchDraws table table_small.1 (fun t => NArr.ofElems fun i => Fp.round ((t i : ℕ) / 2 ^ 53)) X k ω)) ∂P) /
          1000000 < 0.0008 := by
  have hg : ∀ (t : Fin 5 → Fin m) i,
      ((NArr.ofElems fun i => (Fp.round ((t i : ℕ) / 2 ^ 53) : Double)).elem i).Finite ∧
      |vals Fp.val (NArr.ofElems fun i => (Fp.round ((t i : ℕ) / 2 ^ 53) : Double)) i| ≤ 1 := fun t i => by
    obtain ⟨hf, hv⟩ := C78_drawn (t i) ((t i).2.trans_le hm)
    rw [vals_ofElems, show (NArr.ofElems fun i => (Fp.round ((t i : ℕ) / 2 ^ 53) : Double)).elem i =
      Fp.round ((t i : ℕ) / 2 ^ 53) from NArr.row_mkRows (ds := []) _ i]
    refine ⟨hf, ?_⟩
    beta_reduce
    rw [hv, abs_of_nonneg (by positivity)]
    exact (div_le_one (by positivity)).2 (by exact_mod_cast ((t i).2.trans_le hm).le)
  exact ⟨ℕ → (Fin 5 → Fin m) × ℝ, inferInstance, Measure.infinitePi fun _ => ν.prod uniform, inferInstance,
    fun k ω => ω k, fun k => Measure.infinitePi_map_eval (fun _ : ℕ => ν.prod uniform) k,
    (C89_bench (fun k => measurable_pi_apply k)
      (iIndepFun_infinitePi (X := fun _ x => x) fun _ => measurable_id)
      (fun k => Measure.infinitePi_map_eval (fun _ : ℕ => ν.prod uniform) k) hg table_small.1 table_small.2).1⟩

/-- The bounds are not met by the weights that the programs start from: for samples with all entries one half and true
weights one quarter, their error is more than `0.01`. -/
example : 0.01 < outcome (Measure.dirac ()) (fun _ => equal (2 ^ 52)) (equal (2 ^ 51)) (.ok (logisticInit 5)) := by
  have hi : ∀ i, (logisticInit (F := Double) 5).w.elem i = 0 := fun i => NArr.row_mkRows _ i
  have h0 : vals Fp.val (logisticInit (F := Double) 5).w = fun _ => 0 := by
    funext i
    simp only [vals, hi]
    rfl
  rw [outcome_ok (fun i => by rw [hi]; trivial), h0, sqLoss, integral_dirac]
  have e1 : prod' (vals Fp.val (equal (2 ^ 52))) (vals Fp.val (equal (2 ^ 51))) = 5 / 8 := by
    rw [show vals Fp.val (equal (2 ^ 52)) = fun _ => 1 / 2 by
        funext i; rw [equal_vals (by norm_num)]; norm_num,
      show vals Fp.val (equal (2 ^ 51)) = fun _ => 1 / 4 by
        funext i; rw [equal_vals (by norm_num)]; norm_num]
    simp [prod']
    norm_num
  have e0 : prod' (vals Fp.val (equal (2 ^ 52))) (fun _ => 0) = 0 := by simp [prod']
  rw [e1, e0, show logistic 0 = 1 / 2 by norm_num [logistic]]
  have h1 := Real.quadratic_le_exp_of_nonneg (x := 5 / 8) (by norm_num)
  have h2 : Real.exp (-(5 / 8)) * Real.exp (5 / 8) = 1 := by rw [← Real.exp_add]; simp
  have h3 : Real.exp (-(5 / 8)) ≤ 0.6 := by
    by_contra h
    have h4 : (0.6 : ℝ) * 1.8 ≤ Real.exp (-(5 / 8)) * Real.exp (5 / 8) :=
      mul_le_mul (not_le.1 h).le (by norm_num at h1 ⊢; linarith) (by norm_num) (Real.exp_pos _).le
    norm_num at h2 h4
    linarith
  have h5 : 0.62 ≤ logistic (5 / 8) := by
    unfold logistic
    rw [le_div_iff₀ (by positivity)]
    norm_num at h3 ⊢
    linarith
  norm_num at h5 ⊢
  nlinarith

/-- A panic, and weights that are NaN (as in `C80_violation`), count with error one. -/
example (s : Data Double 5) (h : ∃ i, s.w.elem i = .nan) :
    outcome (Measure.dirac ()) (fun _ => equal (2 ^ 52)) (equal (2 ^ 51)) .panic = 1 ∧
    outcome (Measure.dirac ()) (fun _ => equal (2 ^ 52)) (equal (2 ^ 51)) (.ok s) = 1 := by
  refine ⟨rfl, ?_⟩
  unfold outcome
  refine if_neg fun hf => ?_
  obtain ⟨i, hi⟩ := h
  have := hf i
  rw [hi] at this
  exact this

end Aegir.Benches
