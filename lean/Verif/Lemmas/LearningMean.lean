import Verif.Lemmas.LearningRandom
/-!
# A quantity that shrinks on average from one random step to the next
-/

namespace Aegir.Examples

open MeasureTheory ProbabilityTheory Filter Topology
open scoped ENNReal

section
variable {Ω S : Type} [MeasurableSpace Ω] {P : Measure Ω} [IsProbabilityMeasure P]
  [MeasurableSpace S] [Countable S] [MeasurableSingletonClass S] {X : ℕ → Ω → S} {μ : Measure S}

/-- The first `n` samples. -/
def seen (X : ℕ → Ω → S) (n : ℕ) (ω : Ω) : List S := List.ofFn fun i : Fin n => X i ω

omit [MeasurableSpace Ω] [MeasurableSpace S] [Countable S] [MeasurableSingletonClass S] in
theorem seen_succ (X : ℕ → Ω → S) (n : ℕ) (ω : Ω) : seen X (n + 1) ω = seen X n ω ++ [X n ω] := by
  unfold seen
  rw [List.ofFn_succ', List.concat_eq_append]
  rfl

/-- If a quantity that depends on the samples seen so far shrinks on average with the next one, up to
a constant, then its mean is bounded by a geometric sequence. -/
theorem mean_affine (hX : ∀ k, Measurable (X k)) (hi : iIndepFun X P) (hμ : ∀ k, P.map (X k) = μ)
    (V : List S → ℝ≥0∞) (c b : ℝ≥0∞)
    (hstep : ∀ l, ∫⁻ x, V (l ++ [x]) ∂μ ≤ c * V l + b) (n : ℕ) :
    ∫⁻ ω, V (seen X n ω) ∂P ≤ c ^ n * V [] + b * ∑ j ∈ Finset.range n, c ^ j := by
  let _ : MeasurableSpace (List S) := ⊤
  have hseen : ∀ n, Measurable (seen X n) := fun n => by
    have h : Measurable fun ω => fun i : Fin n => X i ω := measurable_pi_lambda _ fun i => hX i
    exact (measurable_of_countable fun z : Fin n → S => List.ofFn z).comp h
  have hindep : ∀ n, IndepFun (seen X n) (X n) P := fun n => by
    have h := hi.indepFun_finset (Finset.range n) {n} (by simp) hX
    have hφ : Measurable fun z : Finset.range n → S =>
        List.ofFn fun i : Fin n => z ⟨i, Finset.mem_range.2 i.2⟩ := measurable_of_countable _
    have hψ : Measurable fun z : ({n} : Finset ℕ) → S => z ⟨n, Finset.mem_singleton_self n⟩ :=
      measurable_pi_apply _
    exact h.comp hφ hψ
  have hprob : IsProbabilityMeasure μ := hμ 0 ▸ Measure.isProbabilityMeasure_map (hX 0).aemeasurable
  induction n with
  | zero => simp [seen]
  | succ n ih =>
    have hg : Measurable fun p : List S × S => V (p.1 ++ [p.2]) := measurable_of_countable _
    have hmap := (hindep n).map_prod_eq_prod_map_map (hseen n).aemeasurable (hX n).aemeasurable
    have hV : Measurable V := measurable_of_countable _
    calc ∫⁻ ω, V (seen X (n + 1) ω) ∂P
        = ∫⁻ ω, (fun p : List S × S => V (p.1 ++ [p.2])) (seen X n ω, X n ω) ∂P := by
          simp only [seen_succ]
      _ = ∫⁻ p, V (p.1 ++ [p.2]) ∂(P.map (seen X n)).prod μ := by
          rw [← hμ n, ← hmap, lintegral_map hg ((hseen n).prodMk (hX n))]
      _ = ∫⁻ l, ∫⁻ x, V (l ++ [x]) ∂μ ∂P.map (seen X n) := lintegral_prod _ hg.aemeasurable
      _ ≤ ∫⁻ l, (c * V l + b) ∂P.map (seen X n) := lintegral_mono fun l => hstep l
      _ = c * ∫⁻ ω, V (seen X n ω) ∂P + b := by
          have : IsProbabilityMeasure (P.map (seen X n)) :=
            Measure.isProbabilityMeasure_map (hseen n).aemeasurable
          rw [lintegral_add_right _ measurable_const, lintegral_const_mul _ hV,
            lintegral_map hV (hseen n), lintegral_const, measure_univ, mul_one]
      _ ≤ c * (c ^ n * V [] + b * ∑ j ∈ Finset.range n, c ^ j) + b := by gcongr
      _ = _ := by
          rw [mul_add, ← mul_assoc, ← pow_succ', add_assoc, Finset.sum_range_succ', pow_zero,
            mul_add, mul_one, mul_left_comm, Finset.mul_sum]
          simp only [pow_succ']

end

variable {N : Nat} {μ : Measure (Fin N → ℝ)} [IsProbabilityMeasure μ] {η r l : ℝ}

/-- One step, on average over the next sample: the distance instead of its square. -/
theorem step_mean_sqrt (hη : 0 < η) (hr : r ≤ 1) (hl0 : 0 ≤ l) (hb : ∀ᵐ x ∂μ, η * inner' x x ≤ r)
    (hl : ∀ v : Fin N → ℝ, l * inner' v v ≤ ∫ x, inner' x v ^ 2 ∂μ) (tw w : Fin N → ℝ) :
    ∫⁻ x, ENNReal.ofReal √(dist2 (lmsStep η tw w x) tw) ∂μ ≤
      ENNReal.ofReal ((1 - 2 * η * (1 - r) * l) * √(dist2 w tw)) := by
  have hmean := step_mean hη hr hb hl tw w
  have hm : Measurable fun x => dist2 (lmsStep η tw w x) tw :=
    (continuous_dist2 tw).measurable.comp
      ((continuous_step η tw).measurable.comp (measurable_const.prodMk measurable_id))
  set q := 4 * η * (1 - r) * l with hq
  have hq0 : 0 ≤ q := by
    have : 0 ≤ 1 - r := by linarith
    positivity
  have hρ : 1 - 2 * η * (1 - r) * l = 1 - q / 2 := by rw [hq]; ring
  rw [hρ]
  have hzero : ∫⁻ x, ENNReal.ofReal (dist2 (lmsStep η tw w x) tw) ∂μ = 0 →
      ∫⁻ x, ENNReal.ofReal √(dist2 (lmsStep η tw w x) tw) ∂μ = 0 := fun h => by
    rw [lintegral_eq_zero_iff hm.ennreal_ofReal] at h
    rw [lintegral_eq_zero_iff hm.sqrt.ennreal_ofReal]
    filter_upwards [h] with x hx
    have : dist2 (lmsStep η tw w x) tw ≤ 0 := ENNReal.ofReal_eq_zero.1 hx
    simp [Real.sqrt_eq_zero_of_nonpos this]
  rcases le_or_gt (1 - q) 0 with h1 | h1
  · rw [ENNReal.ofReal_eq_zero.2 h1, zero_mul, nonpos_iff_eq_zero] at hmean
    rw [hzero hmean]
    exact zero_le
  rcases (dist2_nonneg w tw).eq_or_lt with h0 | h0
  · rw [← h0, ENNReal.ofReal_zero, mul_zero, nonpos_iff_eq_zero] at hmean
    rw [hzero hmean]
    exact zero_le
  set d := √(dist2 w tw) with hd
  have hd0 : 0 < d := Real.sqrt_pos.2 h0
  have hd2 : d ^ 2 = dist2 w tw := Real.sq_sqrt h0.le
  set t := (1 - q / 2) * d with ht
  have ht0 : 0 < t := mul_pos (by linarith) hd0
  have hpt : ∀ x, √(dist2 (lmsStep η tw w x) tw) ≤
      1 / (2 * t) * dist2 (lmsStep η tw w x) tw + t / 2 := fun x => by
    have h2 := Real.sq_sqrt (dist2_nonneg (lmsStep η tw w x) tw)
    set z := √(dist2 (lmsStep η tw w x) tw)
    rw [← h2]
    have : 1 / (2 * t) * z ^ 2 + t / 2 - z = 1 / (2 * t) * (z - t) ^ 2 := by
      field_simp; ring
    have h3 : 0 ≤ 1 / (2 * t) * (z - t) ^ 2 := by positivity
    linarith
  calc ∫⁻ x, ENNReal.ofReal √(dist2 (lmsStep η tw w x) tw) ∂μ
      ≤ ∫⁻ x, (ENNReal.ofReal (1 / (2 * t)) * ENNReal.ofReal (dist2 (lmsStep η tw w x) tw) +
          ENNReal.ofReal (t / 2)) ∂μ := lintegral_mono fun x => by
        rw [← ENNReal.ofReal_mul (by positivity), ← ENNReal.ofReal_add
          (mul_nonneg (by positivity) (dist2_nonneg _ _)) (by positivity)]
        exact ENNReal.ofReal_le_ofReal (hpt x)
    _ = ENNReal.ofReal (1 / (2 * t)) * ∫⁻ x, ENNReal.ofReal (dist2 (lmsStep η tw w x) tw) ∂μ +
          ENNReal.ofReal (t / 2) := by
        rw [lintegral_add_right _ measurable_const, lintegral_const, measure_univ, mul_one,
          lintegral_const_mul _ hm.ennreal_ofReal]
    _ ≤ ENNReal.ofReal (1 / (2 * t)) * (ENNReal.ofReal (1 - q) * ENNReal.ofReal (dist2 w tw)) +
          ENNReal.ofReal (t / 2) := by gcongr
    _ = ENNReal.ofReal (1 / (2 * t) * ((1 - q) * dist2 w tw) + t / 2) := by
        rw [← ENNReal.ofReal_mul h1.le, ← ENNReal.ofReal_mul (by positivity),
          ← ENNReal.ofReal_add (by positivity) (by positivity)]
    _ ≤ ENNReal.ofReal t := by
        refine ENNReal.ofReal_le_ofReal ?_
        have : (1 - q) * dist2 w tw ≤ t ^ 2 := by
          rw [← hd2, ht, mul_pow]
          refine mul_le_mul_of_nonneg_right ?_ (sq_nonneg d)
          nlinarith [sq_nonneg q]
        calc 1 / (2 * t) * ((1 - q) * dist2 w tw) + t / 2 ≤ 1 / (2 * t) * t ^ 2 + t / 2 := by gcongr
          _ = t := by field_simp; ring

/-- The expected distance cannot shrink by more than all of it. -/
theorem rate_le (hη : 0 < η) (hr : r ≤ 1) (hb : ∀ᵐ x ∂μ, η * inner' x x ≤ r)
    (hl : ∀ v : Fin N → ℝ, l * inner' v v ≤ ∫ x, inner' x v ^ 2 ∂μ) :
    4 * η * (1 - r) * l ≤ 1 ∨ N = 0 := by
  rcases Nat.eq_zero_or_pos N with h0 | h0
  · exact .inr h0
  left
  let v : Fin N → ℝ := fun i => if i = ⟨0, h0⟩ then 1 else 0
  have hv : inner' v v = 1 := by simp [inner', v]
  have hint : ∫ x, inner' x v ^ 2 ∂μ ≤ r / η := by
    have hle : ∀ᵐ x ∂μ, inner' x v ^ 2 ≤ r / η := hb.mono fun x hx => by
      refine le_trans (inner_sq_le x v) ?_
      rw [hv, mul_one, le_div_iff₀ hη]
      linarith
    have h1 := integral_mono_of_nonneg (.of_forall fun x => sq_nonneg (inner' x v))
      (integrable_const (μ := μ) (r / η)) hle
    simpa using h1
  have h1 := le_trans (hl v) hint
  rw [hv, mul_one, le_div_iff₀ hη] at h1
  have h1r : 0 ≤ 1 - r := by linarith
  have : 4 * (1 - r) * (l * η) ≤ 4 * (1 - r) * r := by gcongr
  nlinarith [sq_nonneg (2 * r - 1)]

section
variable {Ω S : Type} [MeasurableSpace Ω] {P : Measure Ω} [IsProbabilityMeasure P]
  [MeasurableSpace S] [Countable S] [MeasurableSingletonClass S] {X : ℕ → Ω → S} {μ : Measure S}
  {N : Nat} {draw : S → Fin N → ℝ} {η r l a b c : ℝ}

/-- Steps of gradient descent that are only approximately right, for the first `M` samples: the
expected distance to the true weights shrinks geometrically until only what is due to the errors is
left. -/
theorem noisy_mean (hX : ∀ k, Measurable (X k)) (hi : iIndepFun X P) (hμ : ∀ k, P.map (X k) = μ)
    (hN : N ≠ 0) (hη : 0 < η) (hr : r ≤ 1) (hl0 : 0 ≤ l)
    (hb : ∀ᵐ x ∂μ, η * inner' (draw x) (draw x) ≤ r)
    (hl : ∀ v : Fin N → ℝ, l * inner' v v ≤ ∫ x, inner' (draw x) v ^ 2 ∂μ) (tw : Fin N → ℝ)
    (W : List S → Fin N → ℝ) (ha0 : 0 ≤ a) (hb0 : 0 ≤ b) {M : ℕ}
    (hstep : ∀ xs : List S, xs.length < M → ∀ᵐ x ∂μ, √(dist2 (W (xs ++ [x])) tw) ≤
      √(dist2 (lmsStep η tw (W xs) (draw x)) tw) + (a * √(dist2 (W xs) tw) + b))
    (hc : c = 1 - 2 * η * (1 - r) * l + a) {n : ℕ} (hn : n ≤ M) :
    Integrable (fun ω => √(dist2 (W (seen X n ω)) tw)) P ∧
      ∫ ω, √(dist2 (W (seen X n ω)) tw) ∂P ≤
        c ^ n * √(dist2 (W []) tw) + b * ∑ j ∈ Finset.range n, c ^ j := by
  have hprob : IsProbabilityMeasure μ := hμ 0 ▸ Measure.isProbabilityMeasure_map (hX 0).aemeasurable
  -- the distribution of the numbers
  have hm : Measurable draw := measurable_of_countable _
  have hpm : IsProbabilityMeasure (μ.map draw) := Measure.isProbabilityMeasure_map hm.aemeasurable
  have hcont : ∀ v : Fin N → ℝ, Measurable fun x : Fin N → ℝ => inner' x v ^ 2 := fun v =>
    ((continuous_inner v).pow 2).measurable
  have hb' : ∀ᵐ x ∂μ.map draw, η * inner' x x ≤ r := by
    rw [ae_map_iff hm.aemeasurable]
    · exact hb
    · refine measurableSet_le (Continuous.measurable ?_) measurable_const
      unfold inner'
      fun_prop
  have hl' : ∀ v : Fin N → ℝ, l * inner' v v ≤ ∫ x, inner' x v ^ 2 ∂μ.map draw := fun v => by
    rw [integral_map hm.aemeasurable (hcont v).aestronglyMeasurable]
    exact hl v
  let D : List S → ℝ := fun xs => √(dist2 (W xs) tw)
  have hD0 : ∀ xs, 0 ≤ D xs := fun xs => Real.sqrt_nonneg _
  have hq := (rate_le hη hr hb' hl').resolve_right hN
  have hρ0 : 0 ≤ 1 - 2 * η * (1 - r) * l := by linarith
  have hc0 : 0 ≤ c := by rw [hc]; positivity
  have hstep' : ∀ xs : List S, xs.length < M → ∫⁻ x, ENNReal.ofReal (D (xs ++ [x])) ∂μ ≤
      ENNReal.ofReal c * ENNReal.ofReal (D xs) + ENNReal.ofReal b := fun xs hlen => by
    set w := W xs with hw
    have hmeas : Measurable fun x : Fin N → ℝ => √(dist2 (lmsStep η tw w x) tw) :=
      ((continuous_dist2 _).measurable.comp ((continuous_step _ _).measurable.comp
        (measurable_const.prodMk measurable_id))).sqrt
    calc ∫⁻ x, ENNReal.ofReal (D (xs ++ [x])) ∂μ
        ≤ ∫⁻ x, (ENNReal.ofReal √(dist2 (lmsStep η tw w (draw x)) tw) +
            ENNReal.ofReal (a * D xs + b)) ∂μ :=
          lintegral_mono_ae ((hstep xs hlen).mono fun x hx => by
            have := hD0 xs
            rw [← ENNReal.ofReal_add (Real.sqrt_nonneg _) (by positivity)]
            exact ENNReal.ofReal_le_ofReal hx)
      _ = ∫⁻ x, ENNReal.ofReal √(dist2 (lmsStep η tw w x) tw) ∂μ.map draw +
            ENNReal.ofReal (a * D xs + b) := by
          rw [lintegral_add_right _ measurable_const, lintegral_const, measure_univ, mul_one,
            lintegral_map hmeas.ennreal_ofReal hm]
      _ ≤ ENNReal.ofReal ((1 - 2 * η * (1 - r) * l) * D xs) + ENNReal.ofReal (a * D xs + b) := by
          gcongr
          exact step_mean_sqrt hη hr hl0 hb' hl' tw w
      _ = _ := by
          have := hD0 xs
          rw [← ENNReal.ofReal_mul hc0, ← ENNReal.ofReal_add (by positivity) (by positivity),
            ← ENNReal.ofReal_add (by positivity) (by positivity), hc]
          congr 1
          ring
  -- nothing is claimed of the distance after `M` samples
  have hmean := mean_affine hX hi hμ
    (fun xs => if xs.length ≤ M then ENNReal.ofReal (D xs) else 0) (ENNReal.ofReal c)
    (ENNReal.ofReal b) (fun xs => by
      by_cases hlen : xs.length < M
      · simpa [show xs.length + 1 ≤ M from hlen, hlen.le] using hstep' xs hlen
      · simp [show ¬ xs.length + 1 ≤ M by omega]) n
  have hlen : ∀ ω, (seen X n ω).length = n := fun ω => by simp [seen]
  simp only [hlen, hn, if_true, List.length_nil, Nat.zero_le] at hmean
  have hmD : Measurable fun ω => D (seen X n ω) := by
    have h : Measurable fun ω => fun i : Fin n => X i ω := measurable_pi_lambda _ fun i => hX i
    exact (measurable_of_countable fun z : Fin n → S => D (List.ofFn z)).comp h
  have h0 : 0 ≤ ∑ j ∈ Finset.range n, c ^ j := Finset.sum_nonneg fun j _ => pow_nonneg hc0 j
  have hnn := hD0 []
  have hM : 0 ≤ c ^ n * D [] + b * ∑ j ∈ Finset.range n, c ^ j := by positivity
  have hle : ∫⁻ ω, ENNReal.ofReal (D (seen X n ω)) ∂P ≤
      ENNReal.ofReal (c ^ n * D [] + b * ∑ j ∈ Finset.range n, c ^ j) := by
    refine hmean.trans (le_of_eq ?_)
    rw [ENNReal.ofReal_add (by positivity) (by positivity),
      ENNReal.ofReal_mul (p := c ^ n) (by positivity), ENNReal.ofReal_mul (p := b) hb0,
      ENNReal.ofReal_pow hc0, ENNReal.ofReal_sum_of_nonneg fun j _ => pow_nonneg hc0 j]
    simp only [ENNReal.ofReal_pow hc0]
  refine ⟨⟨hmD.aestronglyMeasurable, ?_⟩, ?_⟩
  · rw [hasFiniteIntegral_iff_ofReal (.of_forall fun _ => hD0 _)]
    exact lt_of_le_of_lt hle ENNReal.ofReal_lt_top
  · show ∫ ω, D (seen X n ω) ∂P ≤ _
    rw [integral_eq_lintegral_of_nonneg_ae (.of_forall fun _ => hD0 _) hmD.aestronglyMeasurable]
    exact ENNReal.toReal_le_of_le_ofReal hM hle

end

end Aegir.Examples
