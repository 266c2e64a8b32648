import Verif.Props.C81_LogisticLikely
import Verif.Props.C83_LogisticBenches
/-!
# C88: the logistic programs hardly ever fail in double precision

By C80 and C83 there are draws for which the logistic example and the five-dimensional benchmark with the library's
gradient (`aegir/examples/logistic.rs`, `aegir/benches/logistic.rs`) end with NaN. C81 bounds the probability of that for the
example, by neglecting that far from the true weights the steps lead back. Here that is taken into account, which makes
failure so improbable that the benchmark is covered too, at twice the rate.
-/

namespace Aegir.Examples

open Aegir.Spec MeasureTheory ProbabilityTheory
open scoped ENNReal

variable {N : ℕ}

/-- Away from the true log-odds the probability is off, by an amount that is large where labels vary. -/
theorem logistic_away (z y : ℝ) :
    logistic y * (1 - logistic y) * (z - y) ^ 2 ≤ (logistic z - logistic y) * (z - y) * (1 + |z - y|) := by
  have hA : 0 < Real.exp (-y) := Real.exp_pos _
  have he : 0 < Real.exp (-(z - y)) := Real.exp_pos _
  have hz : Real.exp (-z) = Real.exp (-y) * Real.exp (-(z - y)) := by rw [← Real.exp_add]; congr 1; ring
  unfold logistic
  rw [hz]
  set δ := z - y
  set A := Real.exp (-y)
  set e := Real.exp (-δ) with hed
  have h1 : 0 < 1 + A := by positivity
  have h2 : 0 < 1 + A * e := by positivity
  have hl : 1 / (1 + A) * (1 - 1 / (1 + A)) * δ ^ 2 = A * δ ^ 2 * (1 + A * e) / ((1 + A) ^ 2 * (1 + A * e)) := by
    field_simp
    ring
  have hr : (1 / (1 + A * e) - 1 / (1 + A)) * δ * (1 + |δ|) =
      A * (1 - e) * δ * (1 + |δ|) * (1 + A) / ((1 + A) ^ 2 * (1 + A * e)) := by
    field_simp
    ring
  rw [hl, hr]
  refine div_le_div_of_nonneg_right ?_ (by positivity)
  rcases le_total 0 δ with hd | hd
  · rw [abs_of_nonneg hd]
    have h3 : e * (1 + δ) ≤ 1 := by
      have := Real.add_one_le_exp δ
      have h4 : e * Real.exp δ = 1 := by rw [hed, ← Real.exp_add]; simp
      nlinarith
    have h5 : e ≤ 1 := by rw [hed]; exact Real.exp_le_one_iff.2 (by linarith)
    have h6 : δ * (1 + A * e) ≤ (1 - e) * (1 + δ) * (1 + A) := by
      have : δ * (1 + A * e) ≤ δ * (1 + A) := mul_le_mul_of_nonneg_left (by nlinarith) hd
      have := mul_le_mul_of_nonneg_right (show δ ≤ (1 - e) * (1 + δ) by linarith) h1.le
      linarith
    calc A * δ ^ 2 * (1 + A * e) = A * δ * (δ * (1 + A * e)) := by ring
      _ ≤ A * δ * ((1 - e) * (1 + δ) * (1 + A)) := mul_le_mul_of_nonneg_left h6 (by positivity)
      _ = _ := by ring
  · rw [abs_of_nonpos hd]
    have h3 : 1 - δ ≤ e := by
      have := Real.add_one_le_exp (-δ)
      rw [hed]; linarith
    have h5 : 1 ≤ e := by linarith
    have h6 : -δ * (1 + A * e) ≤ (e - 1) * (1 - δ) * (1 + A) := by
      have : -δ * (1 + A * e) ≤ -δ * (e * (1 + A)) := mul_le_mul_of_nonneg_left (by nlinarith) (by linarith)
      have := mul_le_mul_of_nonneg_right (show -δ * e ≤ (e - 1) * (1 - δ) by linarith) h1.le
      linarith
    calc A * δ ^ 2 * (1 + A * e) = A * -δ * (-δ * (1 + A * e)) := by ring
      _ ≤ A * -δ * ((e - 1) * (1 - δ) * (1 + A)) :=
        mul_le_mul_of_nonneg_left h6 (mul_nonneg hA.le (by linarith))
      _ = _ := by ring

/-- The pull towards the true weights outweighs the noise of the labels. -/
theorem outweigh {η κ B b S q s m V : ℝ} (hη : 0 ≤ η) (hκ : 0 ≤ κ) (hb0 : 0 ≤ b) (hb : b ≤ B)
    (hm : |m| ≤ S) (hq : 0 ≤ q ∧ q ≤ 1) (hs : 0 ≤ s ∧ s ≤ 1) (hg0 : 0 ≤ (s - q) * m)
    (haway : q * (1 - q) * m ^ 2 ≤ (s - q) * m * (1 + |m|)) (hVe : V = q * (1 - q) + (s - q) ^ 2)
    (hK : 4 * κ * η * (1 + 2 * S) ≤ 1) :
    -(2 * (κ * η) * ((s - q) * m)) + κ * η ^ 2 * b * V + κ ^ 2 * (η * (2 * |m| + η * b)) ^ 2 * V ≤
      κ * η ^ 2 * B + 2 * (κ * η ^ 2 * B) ^ 2 := by
  obtain ⟨hq0, hq1⟩ := hq
  obtain ⟨hs0, hs1⟩ := hs
  have hV0 : 0 ≤ V := by
    rw [hVe]
    exact add_nonneg (mul_nonneg hq0 (by linarith)) (sq_nonneg _)
  have hV1 : V ≤ 1 := by rw [hVe]; nlinarith
  have hsq : |s - q| ≤ 1 := by rw [abs_le]; constructor <;> linarith
  set g := (s - q) * m with hg
  have hmV : m ^ 2 * V ≤ g * (1 + 2 * S) := by
    have h1 : (s - q) ^ 2 * m ^ 2 ≤ g * |m| := by
      have e : (s - q) ^ 2 * m ^ 2 = g * g := by rw [hg]; ring
      rw [e]
      refine mul_le_mul_of_nonneg_left ?_ hg0
      refine (le_abs_self _).trans ?_
      rw [hg, abs_mul]
      exact mul_le_of_le_one_left (abs_nonneg _) hsq
    have h2 : g * (1 + |m|) + g * |m| ≤ g * (1 + 2 * S) := by
      rw [← mul_add]
      exact mul_le_mul_of_nonneg_left (by linarith) hg0
    rw [hVe]
    linarith
  have hM2 : (η * (2 * |m| + η * b)) ^ 2 ≤ 8 * η ^ 2 * m ^ 2 + 2 * (η ^ 2 * b) ^ 2 := by
    have h1 := sq_nonneg (2 * η * |m| - η ^ 2 * b)
    have h2 := sq_abs m
    have h3 : 8 * η ^ 2 * m ^ 2 = 8 * η ^ 2 * |m| ^ 2 := by rw [h2]
    rw [h3]
    linarith
  set M := η * (2 * |m| + η * b)
  have hD : κ ^ 2 * M ^ 2 * V ≤ 2 * (κ * η) * g + 2 * (κ * η ^ 2 * B) ^ 2 := by
    have h1 : κ ^ 2 * M ^ 2 * V ≤ κ ^ 2 * (8 * η ^ 2 * m ^ 2 + 2 * (η ^ 2 * b) ^ 2) * V :=
      mul_le_mul_of_nonneg_right (mul_le_mul_of_nonneg_left hM2 (sq_nonneg κ)) hV0
    have h2 : 8 * (κ * η) ^ 2 * (m ^ 2 * V) ≤ 2 * (κ * η) * g := by
      have h3 : 8 * (κ * η) ^ 2 * (m ^ 2 * V) ≤ 8 * (κ * η) ^ 2 * (g * (1 + 2 * S)) :=
        mul_le_mul_of_nonneg_left hmV (by positivity)
      have h4 : 2 * (κ * η) * g * (4 * κ * η * (1 + 2 * S)) ≤ 2 * (κ * η) * g * 1 :=
        mul_le_mul_of_nonneg_left hK (by positivity)
      linarith
    have h5 : 2 * (κ * η ^ 2 * b) ^ 2 * V ≤ 2 * (κ * η ^ 2 * B) ^ 2 := by
      have h6 : (κ * η ^ 2 * b) ^ 2 ≤ (κ * η ^ 2 * B) ^ 2 :=
        pow_le_pow_left₀ (by positivity) (mul_le_mul_of_nonneg_left hb (by positivity)) 2
      have h7 : 2 * (κ * η ^ 2 * b) ^ 2 * V ≤ 2 * (κ * η ^ 2 * b) ^ 2 * 1 :=
        mul_le_mul_of_nonneg_left hV1 (by positivity)
      linarith
    have h8 : κ ^ 2 * (8 * η ^ 2 * m ^ 2 + 2 * (η ^ 2 * b) ^ 2) * V =
      8 * (κ * η) ^ 2 * (m ^ 2 * V) + 2 * (κ * η ^ 2 * b) ^ 2 * V := by ring
    linarith
  have hG : κ * η ^ 2 * b * V ≤ κ * η ^ 2 * B := by
    have h1 : κ * η ^ 2 * b ≤ κ * η ^ 2 * B := mul_le_mul_of_nonneg_left hb (by positivity)
    have h2 : κ * η ^ 2 * b * V ≤ κ * η ^ 2 * b * 1 := mul_le_mul_of_nonneg_left hV1 (by positivity)
    linarith
  linarith

/-- The growth of `exp (κ |w - tw| ^ 2)` in one step, where the weights have not gone far: what the noise of the
labels adds is outweighed by the pull towards the true weights. -/
theorem C88_growth {η κ B l ε p : ℝ} (hη : 0 ≤ η) (hκ : 0 ≤ κ) (tw w x : Fin N → ℝ)
    (hx : prod' x x ≤ B) (hw : sqDist w tw ≤ l) (hM : κ * (η * (2 * (√B * √l) + η * B)) ≤ 1)
    (hK : 4 * κ * η * (1 + 2 * (√B * √l)) ≤ 1)
    (hp : |p - logistic (prod' x tw)| ≤ ε) :
    p * Real.exp (κ * sqDist (ascent η w x true) tw) + (1 - p) * Real.exp (κ * sqDist (ascent η w x false) tw) ≤
      (1 + κ * η ^ 2 * B + 2 * (κ * η ^ 2 * B) ^ 2 + 3 * ε) * Real.exp (κ * sqDist w tw) := by
  have hr := logistic_range (prod' x tw)
  have hs := logistic_range (prod' x w)
  have hx0 : 0 ≤ prod' x x := Finset.sum_nonneg fun i _ => mul_self_nonneg _
  have hB : 0 ≤ B := hx0.trans hx
  have hl : 0 ≤ l := (dist2_nonneg w tw).trans hw
  have haway := logistic_away (prod' x w) (prod' x tw)
  have hg0 : 0 ≤ (logistic (prod' x w) - logistic (prod' x tw)) * (prod' x w - prod' x tw) := gap_nonneg _ _
  set q := logistic (prod' x tw) with hq
  set s := logistic (prod' x w) with hsd
  set m := prod' x w - prod' x tw with hmd
  have hm : |m| ≤ √B * √l := by
    have e : m = inner' x fun i => w i - tw i := by
      simp only [hmd, prod', inner', ← Finset.sum_sub_distrib, mul_sub]
    have h1 := inner_sq_le x fun i => w i - tw i
    rw [← e] at h1
    rw [← Real.sqrt_sq_eq_abs, ← Real.sqrt_mul hB]
    refine Real.sqrt_le_sqrt (h1.trans (mul_le_mul hx ?_ (inner_self_nonneg' _) hB))
    have := dist2_eq w tw
    rw [← this]
    exact hw
  set S := √B * √l with hSd
  have hS0 : 0 ≤ S := by positivity
  set b := prod' x x with hbd
  have key : ∀ c : ℝ, |c| ≤ 1 → |2 * η * c * m + η ^ 2 * c ^ 2 * b| ≤ |c| * (η * (2 * |m| + η * b)) := fun c hc => by
    rw [show 2 * η * c * m + η ^ 2 * c ^ 2 * b = c * (η * (2 * m + η * (c * b))) by ring,
      abs_mul, abs_mul, abs_of_nonneg hη]
    refine mul_le_mul_of_nonneg_left (mul_le_mul_of_nonneg_left ?_ hη) (abs_nonneg _)
    refine (abs_add_le _ _).trans ?_
    rw [abs_mul, abs_mul η, abs_mul c, abs_of_nonneg hη, abs_of_nonneg hx0, abs_two]
    have := mul_le_mul_of_nonneg_left (mul_le_of_le_one_left hx0 hc) hη
    linarith
  have hc1 : |1 - s| ≤ 1 := by rw [abs_le]; constructor <;> linarith
  have hc0 : |0 - s| ≤ 1 := by rw [abs_le]; constructor <;> linarith
  have e1 := sqDist_ascent η tw w x true (c := 1 - s) (by simp [hsd])
  have e0 := sqDist_ascent η tw w x false (c := 0 - s) (by simp [hsd])
  rw [← hmd, ← hbd] at e1 e0
  have k1 := key (1 - s) hc1
  have k0 := key (0 - s) hc0
  set M := η * (2 * |m| + η * b) with hMd
  have hM0 : 0 ≤ M := by positivity
  have hMM : M ≤ η * (2 * S + η * B) :=
    mul_le_mul_of_nonneg_left (add_le_add (by linarith) (mul_le_mul_of_nonneg_left hx hη)) hη
  set d₁ := 2 * η * (1 - s) * m + η ^ 2 * (1 - s) ^ 2 * b with hd₁
  set d₀ := 2 * η * (0 - s) * m + η ^ 2 * (0 - s) ^ 2 * b with hd₀
  have small : ∀ {c d : ℝ}, |c| ≤ 1 → |d| ≤ |c| * M → |κ * d| ≤ 1 := fun {c d} hc hd => by
    rw [abs_mul, abs_of_nonneg hκ]
    exact (mul_le_mul_of_nonneg_left (hd.trans ((mul_le_of_le_one_left hM0 hc).trans hMM)) hκ).trans hM
  have sqs : ∀ {c d : ℝ}, |d| ≤ |c| * M → d ^ 2 ≤ c ^ 2 * M ^ 2 := fun {c d} hd => by
    rw [← sq_abs d, ← sq_abs c, ← mul_pow]
    exact pow_le_pow_left₀ (abs_nonneg _) hd 2
  set V := q * (1 - s) ^ 2 + (1 - q) * (0 - s) ^ 2 with hV
  have hVe : V = q * (1 - q) + (s - q) ^ 2 := by rw [hV]; ring
  have hV0 : 0 ≤ V := add_nonneg (mul_nonneg hr.1.le (sq_nonneg _)) (mul_nonneg (by linarith) (sq_nonneg _))
  set g := (s - q) * m with hg
  have hmean := exp_mean (κ := κ) (d₁ := d₁) (d₀ := d₀) hr.1.le hr.2.le hp (small hc1 k1) (small hc0 k0)
    (G := -(2 * (κ * η) * g) + κ * η ^ 2 * b * V) (D₂ := κ ^ 2 * M ^ 2 * V) (le_of_eq (by
      rw [hd₁, hd₀, hV, hg]; ring)) (by
      have h1 := mul_le_mul_of_nonneg_left (sqs k1) hr.1.le
      have h0 := mul_le_mul_of_nonneg_left (sqs k0) (by linarith : 0 ≤ 1 - q)
      have := mul_le_mul_of_nonneg_left (add_le_add h1 h0) (sq_nonneg κ)
      refine this.trans (le_of_eq ?_)
      rw [hV]; ring)
  have hout := outweigh (V := V) hη hκ hx0 hx hm ⟨hr.1.le, hr.2.le⟩ ⟨hs.1.le, hs.2.le⟩ hg0 haway (by rw [hV]; ring) hK
  have htot : p * Real.exp (κ * d₁) + (1 - p) * Real.exp (κ * d₀) ≤
      1 + κ * η ^ 2 * B + 2 * (κ * η ^ 2 * B) ^ 2 + 3 * ε := by linarith
  have split : ∀ d, Real.exp (κ * (sqDist w tw + d)) = Real.exp (κ * sqDist w tw) * Real.exp (κ * d) := fun d => by
    rw [mul_add, Real.exp_add]
  rw [e1, e0, split d₁, split d₀]
  calc p * (Real.exp (κ * sqDist w tw) * Real.exp (κ * d₁)) +
        (1 - p) * (Real.exp (κ * sqDist w tw) * Real.exp (κ * d₀))
      = (p * Real.exp (κ * d₁) + (1 - p) * Real.exp (κ * d₀)) * Real.exp (κ * sqDist w tw) := by ring
    _ ≤ _ := mul_le_mul_of_nonneg_right htot (Real.exp_pos _).le

section
variable {Ω T : Type} [MeasurableSpace Ω] {P : Measure Ω} [IsProbabilityMeasure P]
  [MeasurableSpace T] {ν : Measure T} [IsProbabilityMeasure ν] {X : ℕ → Ω → T × ℝ}

/-- Gradient ascent in exact arithmetic on independent samples of squared length at most `B`, whose labels
have nearly the probabilities of the true weights: how likely the squared distance to the true weights ever
exceeds `l` in `n` steps. For a small rate the exponent is limited by the rate only (compare `C81_far`). -/
theorem C88_far (hX : ∀ k, Measurable (X k)) (hi : iIndepFun X P) (hμ : ∀ k, P.map (X k) = ν.prod uniform)
    {η κ B l ε : ℝ} (hη : 0 ≤ η) (hκ : 0 ≤ κ) {x : T → Fin N → ℝ} (hx : Measurable x) {p : T → ℝ}
    (hpm : Measurable p) (hp : ∀ t, 0 ≤ p t ∧ p t ≤ 1) (tw : Fin N → ℝ) (hB : ∀ t, prod' (x t) (x t) ≤ B)
    (hε : ∀ t, |p t - logistic (prod' (x t) tw)| ≤ ε)
    (hM : κ * (η * (2 * (√B * √l) + η * B)) ≤ 1) (hK : 4 * κ * η * (1 + 2 * (√B * √l)) ≤ 1)
    (w : Fin N → ℝ) (n : ℕ) :
    P {ω | ∃ k ≤ n, l < sqDist (along (flipStep η x p) w X k ω) tw} ≤ ENNReal.ofReal
      ((1 + κ * η ^ 2 * B + 2 * (κ * η ^ 2 * B) ^ 2 + 3 * ε) ^ n * Real.exp (κ * (sqDist w tw - l))) := by
  set C := 1 + κ * η ^ 2 * B + 2 * (κ * η ^ 2 * B) ^ 2 + 3 * ε with hC
  obtain ⟨t₀⟩ : Nonempty T := by
    by_contra h
    rw [not_nonempty_iff] at h
    have := measure_univ (μ := ν)
    rw [Set.univ_eq_empty_iff.2 h, measure_empty] at this
    exact zero_ne_one this
  have hε0 : 0 ≤ ε := (abs_nonneg _).trans (hε t₀)
  have hB0 : 0 ≤ B := le_trans (Finset.sum_nonneg fun i _ => mul_self_nonneg _) (hB t₀)
  have hC1 : 1 ≤ C := by
    have : 0 ≤ κ * η ^ 2 * B + 2 * (κ * η ^ 2 * B) ^ 2 := by positivity
    rw [hC]; linarith
  have hcont : Continuous fun w : Fin N → ℝ => sqDist w tw := continuous_dist2 tw
  have hVm : Measurable fun w : Fin N → ℝ => ENNReal.ofReal (Real.exp (κ * sqDist w tw)) :=
    ENNReal.measurable_ofReal.comp (Real.measurable_exp.comp (hcont.measurable.const_mul κ))
  have hmain := ever_le (L := ENNReal.ofReal (Real.exp (κ * l))) (c := ENNReal.ofReal C)
    (A := {v | l < sqDist v tw}) (measurable_flipStep η hx hpm) hX hi hμ hVm
    (by rw [← ENNReal.ofReal_one]; exact ENNReal.ofReal_le_ofReal hC1)
    (measurableSet_lt measurable_const hcont.measurable)
    (fun v hv => ENNReal.ofReal_le_ofReal (Real.exp_le_exp.2 (mul_le_mul_of_nonneg_left (le_of_lt hv) hκ)))
    (fun v hv => by
      have hm : Measurable fun d : T × ℝ => ENNReal.ofReal (Real.exp (κ * sqDist (flipStep η x p v d) tw)) :=
        hVm.comp ((measurable_flipStep η hx hpm).comp (measurable_const.prodMk measurable_id))
      rw [lintegral_prod _ hm.aemeasurable]
      calc ∫⁻ t, ∫⁻ u, ENNReal.ofReal (Real.exp (κ * sqDist (flipStep η x p v (t, u)) tw)) ∂uniform ∂ν
          ≤ ∫⁻ _, ENNReal.ofReal C * ENNReal.ofReal (Real.exp (κ * sqDist v tw)) ∂ν := by
            refine lintegral_mono fun t => ?_
            have hcoin := lintegral_coin (hp t).1 (hp t).2
              (fun b => ENNReal.ofReal (Real.exp (κ * sqDist (ascent η v (x t) b) tw)))
            have hp' : 0 ≤ 1 - p t := by linarith [(hp t).2]
            refine le_trans (le_of_eq hcoin) ?_
            rw [← ENNReal.ofReal_mul (hp t).1, ← ENNReal.ofReal_mul hp', ← ENNReal.ofReal_add
              (mul_nonneg (hp t).1 (Real.exp_pos _).le) (mul_nonneg hp' (Real.exp_pos _).le),
              ← ENNReal.ofReal_mul (by linarith)]
            exact ENNReal.ofReal_le_ofReal (C88_growth hη hκ tw v (x t) (hB t) (not_lt.1 hv) hM hK (hε t))
        _ = _ := by rw [lintegral_const, measure_univ, mul_one]) w n
  have hpos : 0 < Real.exp (κ * l) := Real.exp_pos _
  rw [← ENNReal.ofReal_pow (by linarith), ← ENNReal.ofReal_mul (by positivity)] at hmain
  have e : (C ^ n * Real.exp (κ * (sqDist w tw - l))) = (C ^ n * Real.exp (κ * sqDist w tw)) / Real.exp (κ * l) := by
    rw [mul_sub, Real.exp_sub]; ring
  rw [e, ENNReal.ofReal_div_of_pos hpos, ENNReal.le_div_iff_mul_le (.inl (by simpa using hpos))
    (.inl ENNReal.ofReal_ne_top), mul_comm]
  exact hmain

end

/-! ### Double precision -/

theorem growth_small {η : ℝ} (h0 : 0 ≤ η) (h1 : η ≤ 10001 / 10000000) :
    4 * (η * (2 * (√5 * √150) + η * 5)) ≤ 1 ∧
    4 * 4 * η * (1 + 2 * (√5 * √150)) ≤ 1 ∧
    1 + 4 * η ^ 2 * 5 + 2 * (4 * η ^ 2 * 5) ^ 2 + 3 * (1 / 2 ^ 40) ≤ 1 + 21 / 1000000 := by
  have hs : √5 * √150 ≤ 273862 / 10000 := by
    rw [← Real.sqrt_mul (by norm_num)]
    exact Real.sqrt_le_iff.2 ⟨by norm_num, by norm_num⟩
  have hs0 : 0 ≤ √5 * √150 := by positivity
  have hη2 : η ^ 2 ≤ (10001 / 10000000) ^ 2 := pow_le_pow_left₀ h0 h1 2
  have hη4 : (4 * η ^ 2 * 5) ^ 2 ≤ (4 * (10001 / 10000000) ^ 2 * 5) ^ 2 :=
    pow_le_pow_left₀ (by positivity) (by linarith) 2
  have hM : η * (2 * (√5 * √150) + η * 5) ≤ 10001 / 10000000 * 55 :=
    mul_le_mul h1 (by linarith) (by positivity) (by norm_num)
  have hK : η * (1 + 2 * (√5 * √150)) ≤ 10001 / 10000000 * 56 :=
    mul_le_mul h1 (by linarith) (by positivity) (by norm_num)
  norm_num at hη2 hη4 hM hK ⊢
  refine ⟨?_, ?_, ?_⟩ <;> linarith

theorem tail_small {n : ℕ} (hn : n ≤ 1000000) {C d : ℝ} (hC0 : 0 ≤ C) (hC : C ≤ 1 + 21 / 1000000) (hd : d ≤ 5) :
    C ^ n * Real.exp (4 * (d - 150)) ≤ 1 / 10 ^ 240 := by
  have h1 : C ≤ Real.exp (21 / 1000000) := hC.trans (by
    have := Real.add_one_le_exp (21 / 1000000 : ℝ)
    linarith)
  have hn' : (n : ℝ) ≤ 1000000 := by exact_mod_cast hn
  have h2 : C ^ n ≤ Real.exp 21 := by
    refine (pow_le_pow_left₀ hC0 h1 n).trans ?_
    rw [← Real.exp_nat_mul]
    exact Real.exp_le_exp.2 (by linarith)
  have h3 : Real.exp (4 * (d - 150)) ≤ Real.exp (-580) := Real.exp_le_exp.2 (by linarith)
  have h4 : (10 ^ 240 : ℝ) ≤ Real.exp 559 := by
    have e : Real.exp 559 = (Real.exp 1 ^ 3) ^ 186 * Real.exp 1 := by
      rw [← Real.exp_nat_mul, ← Real.exp_nat_mul, ← Real.exp_add]; congr 1; norm_num
    have h5 : (20 : ℝ) ≤ Real.exp 1 ^ 3 := by
      have h6 : (2.718 : ℝ) ^ 3 ≤ Real.exp 1 ^ 3 :=
        pow_le_pow_left₀ (by norm_num) (by linarith [Real.exp_one_gt_d9]) _
      exact le_trans (by norm_num) h6
    have h6 : (20 : ℝ) ^ 186 ≤ (Real.exp 1 ^ 3) ^ 186 := pow_le_pow_left₀ (by norm_num) h5 _
    have h7 : (1 : ℝ) ≤ Real.exp 1 := by linarith [Real.exp_one_gt_d9]
    rw [e]
    refine le_trans ?_ (mul_le_mul h6 h7 (by norm_num) (by positivity))
    norm_num
  calc C ^ n * Real.exp (4 * (d - 150)) ≤ Real.exp 21 * Real.exp (-580) :=
        mul_le_mul h2 h3 (Real.exp_pos _).le (Real.exp_pos _).le
    _ = (Real.exp 559)⁻¹ := by rw [← Real.exp_add, ← Real.exp_neg]; congr 1; norm_num
    _ ≤ 1 / 10 ^ 240 := by rw [one_div]; exact inv_anti₀ (by positivity) h4

/-- The program in double precision in five dimensions, with any rate up to one thousandth, for any true weights and
independent samples of any distribution on the doubles of the unit cube. Except with probability `10 ^ -240` it does
not panic, no weight is infinite or NaN, and each is within `10 ^ -8` of the weight that gradient ascent in exact
arithmetic reaches on the same draws. -/
theorem C88_double {Ω T : Type} [MeasurableSpace Ω] {P : Measure Ω} [IsProbabilityMeasure P]
    [MeasurableSpace T] [Countable T] [MeasurableSingletonClass T] {ν : Measure T} [IsProbabilityMeasure ν]
    {X : ℕ → Ω → T × ℝ} (hX : ∀ k, Measurable (X k)) (hi : iIndepFun X P)
    (hμ : ∀ k, P.map (X k) = ν.prod uniform) {gen : T → NArr Double [5]}
    (hg : ∀ t i, ((gen t).elem i).Finite ∧ |vals Fp.val (gen t) i| ≤ 1) {tw : NArr Double [5]}
    (ht : ∀ i, (tw.elem i).Finite ∧ |vals Fp.val tw i| ≤ 1) {η : Double} (hf : η.Finite)
    (hη0 : 0 ≤ η.val) (hη1 : η.val ≤ 10001 / 10000000) {s : Data Double 5} (hs : ∀ i, s.w.elem i = 0)
    {n : ℕ} (hn : n ≤ 1000000) :
    P {ω | ¬ ∃ s', logisticRun η tw s (doubleDraws tw gen X n ω) = .ok s' ∧ (∀ i, (s'.w.elem i).Finite) ∧
        ∀ i, |vals Fp.val s'.w i - ascents η.val (fun _ => 0)
          ((doubleDraws tw gen X n ω).map fun d => (vals Fp.val d.1, d.2)) i| ≤ 1 / 10 ^ 8} ≤
      ENNReal.ofReal (1 / 10 ^ 240) := by
  have hsq : ∀ a : NArr Double [5], (∀ i, |vals Fp.val a i| ≤ 1) → prod' (vals Fp.val a) (vals Fp.val a) ≤ 5 :=
    fun a ha => by
      have := prod_self_le (val := Fp.val) ha
      norm_num at this ⊢
      exact this
  obtain ⟨hM, hK, hC⟩ := growth_small hη0 hη1
  have hd : sqDist (fun _ => 0) (vals Fp.val tw) ≤ 5 := by
    refine le_trans (le_of_eq ?_) (hsq tw fun i => (ht i).2)
    exact Finset.sum_congr rfl fun i _ => by ring
  have hfar := C88_far (η := η.val) (κ := 4) (B := 5) (l := 150) (ε := 1 / 2 ^ 40) hX hi hμ hη0 (by norm_num)
    (x := fun t => vals Fp.val (gen t)) (measurable_of_countable _) (p := fun t => labelProb tw (gen t))
    (measurable_of_countable _) (fun t => (labelProb_near ht (hg t)).1) (vals Fp.val tw)
    (fun t => hsq _ fun i => (hg t i).2) (fun t => (labelProb_near ht (hg t)).2) hM hK (fun _ => 0) n
  refine le_trans (measure_mono fun ω hω => ?_) (hfar.trans (ENNReal.ofReal_le_ofReal
    (tail_small hn (by positivity) hC hd)))
  by_contra hno
  refine hω ?_
  have hno' : ∀ k ≤ n, sqDist (along (flipStep η.val (fun t => vals Fp.val (gen t)) fun t => labelProb tw (gen t))
      (fun _ => 0) X k ω) (vals Fp.val tw) ≤ 150 := fun k hk => by
    by_contra h
    exact hno ⟨k, hk, not_le.1 h⟩
  have hs5 : √(5 : ℝ) ≤ 22361 / 10000 := Real.sqrt_le_iff.2 ⟨by norm_num, by norm_num⟩
  have hmod := moderate_flips (η := η.val) (l := 150) (D := 122475 / 10000) (A := 22361 / 10000) (B := 22361 / 10000)
    (x := fun t => vals Fp.val (gen t)) (fun t => labelProb tw (gen t)) X (tw := vals Fp.val tw)
    (fun t => (Real.sqrt_le_sqrt (hsq _ fun i => (hg t i).2)).trans hs5)
    (Real.sqrt_le_iff.2 ⟨by norm_num, by norm_num⟩) (fun i => (ht i).2)
    ((Real.sqrt_le_sqrt (hsq tw fun i => (ht i).2)).trans hs5) n ω (fun _ => 0) fun k hk => hno' k hk.le
  have hmap : (doubleDraws tw gen X n ω).map (fun d => (vals Fp.val d.1, d.2)) =
      flips (fun t => vals Fp.val (gen t)) (fun t => labelProb tw (gen t)) X n ω := by
    unfold doubleDraws flips
    rw [List.map_ofFn]
    rfl
  have hlen : (doubleDraws tw gen X n ω).length = n := List.length_ofFn
  have hv0 : vals Fp.val s.w = fun _ => 0 := by
    funext i
    simp only [vals, hs]
    rfl
  rw [← hmap, ← hv0] at hmod
  rw [← hv0]
  have hx : ∀ d ∈ doubleDraws tw gen X n ω, ∀ i, (d.1.elem i).Finite ∧ |vals Fp.val d.1 i| ≤ 1 := fun d hd => by
    obtain ⟨i, rfl⟩ := (List.mem_ofFn' _ _).1 hd
    exact hg _
  have h5 : √((5 : ℕ) : ℝ) ≤ 2.24 := Real.sqrt_le_iff.2 ⟨by norm_num, by norm_num⟩
  have hs0 : 0 ≤ stepErr 5 (1 / 2 ^ (52 + 1)) (1 / 2 ^ (52 + 1)) η.val 16 := by
    unfold stepErr dotErr
    have : (0 : ℝ) ≤ (1 + 1 / 2 ^ (52 + 1)) ^ (5 + 1) - 1 := by norm_num
    positivity
  have hs := stepErr_double (η := η.val) (by linarith)
  have hm : (doubleDraws tw gen X n ω).length *
      (√((5 : ℕ) : ℝ) * stepErr 5 (1 / 2 ^ (52 + 1)) (1 / 2 ^ (52 + 1)) η.val 16) ≤ 1 / 10 ^ 8 := by
    have hn' : ((doubleDraws tw gen X n ω).length : ℝ) ≤ 1000000 := by rw [hlen]; exact_mod_cast hn
    refine (mul_le_mul hn' (mul_le_mul h5 hs hs0 (by norm_num)) (by positivity) (by norm_num)).trans ?_
    norm_num
  have hD := dotErr_double
  obtain ⟨s', h, h', h''⟩ := C80_run (Fp.rangedExp (p := 52) (q := 1074) (E := 971) (by norm_num))
    logistic_sizes_double (η := η) ⟨hf, hη0, by linarith⟩ (by push_cast; linarith) (tw := tw)
    (fun i => ⟨(ht i).1, (ht i).2.trans (by norm_num)⟩) (by norm_num at hD ⊢; linarith)
    (m := 1 / 10 ^ 8) (by norm_num) (by
      norm_num at hD ⊢
      norm_num at h5
      linarith) _ hx s (fun i => by rw [‹∀ i, s.w.elem i = 0›]; trivial) hmod hm
  exact ⟨s', h, h', fun i => (h'' i).trans hm⟩

/-- `examples/logistic.rs` with its own rate. -/
theorem C88_example {Ω T : Type} [MeasurableSpace Ω] {P : Measure Ω} [IsProbabilityMeasure P]
    [MeasurableSpace T] [Countable T] [MeasurableSingletonClass T] {ν : Measure T} [IsProbabilityMeasure ν]
    {X : ℕ → Ω → T × ℝ} (hX : ∀ k, Measurable (X k)) (hi : iIndepFun X P)
    (hμ : ∀ k, P.map (X k) = ν.prod uniform) {gen : T → NArr Double [5]}
    (hg : ∀ t i, ((gen t).elem i).Finite ∧ |vals Fp.val (gen t) i| ≤ 1) {tw : NArr Double [5]}
    (ht : ∀ i, (tw.elem i).Finite ∧ |vals Fp.val tw i| ≤ 1) {n : ℕ} (hn : n ≤ 1000000) :
    P {ω | ¬ ∃ s', logisticRun (Fp.round (1 / 2000) : Double) tw (logisticInit 5) (doubleDraws tw gen X n ω) = .ok s' ∧
        (∀ i, (s'.w.elem i).Finite) ∧
        ∀ i, |vals Fp.val s'.w i - ascents (Fp.round (1 / 2000) : Double).val (fun _ => 0)
          ((doubleDraws tw gen X n ω).map fun d => (vals Fp.val d.1, d.2)) i| ≤ 1 / 10 ^ 8} ≤
      ENNReal.ofReal (1 / 10 ^ 240) := by
  obtain ⟨hf, hη⟩ := logistic_rate
  rw [abs_le] at hη
  exact C88_double hX hi hμ hg ht hf (by norm_num at hη ⊢; linarith) (by norm_num at hη ⊢; linarith)
    (s := logisticInit 5) (fun i => NArr.row_mkRows _ i) hn

end Aegir.Examples

namespace Aegir.Benches

open Aegir.Spec Aegir.Examples MeasureTheory ProbabilityTheory

/-- What the benchmark draws (`benches/logistic.rs` L76-80, L101-105): the probability of label one is that of the first
five numbers of its table. -/
noncomputable def benchDraws {Ω T : Type} (tw : List Double) (hl : 5 ≤ tw.length) (gen : T → NArr Double [5])
    (X : ℕ → Ω → T × ℝ) (n : ℕ) (ω : Ω) : List (NArr Double [5] × Bool) :=
  doubleDraws (NArr.ofElems fun k : Fin 5 => tw[k]) gen X n ω

/-- The benchmark with the library's gradient in five dimensions, with its own rate and number of iterations, computes
what the one with the gradient written by hand does, except with probability `10 ^ -240`: neither panics, no weight is
infinite or NaN, both are within `10 ^ -8` of gradient ascent in exact arithmetic on the same draws, and so within
`2 * 10 ^ -8` of each other. (For some draws it does not: `C83_violation`.) -/
theorem C88_bench {Ω T : Type} [MeasurableSpace Ω] {P : Measure Ω} [IsProbabilityMeasure P]
    [MeasurableSpace T] [Countable T] [MeasurableSingletonClass T] {ν : Measure T} [IsProbabilityMeasure ν]
    {X : ℕ → Ω → T × ℝ} (hX : ∀ k, Measurable (X k)) (hi : iIndepFun X P)
    (hμ : ∀ k, P.map (X k) = ν.prod uniform) {gen : T → NArr Double [5]}
    (hg : ∀ t i, ((gen t).elem i).Finite ∧ |vals Fp.val (gen t) i| ≤ 1) {tw : List Double} (hl : 5 ≤ tw.length)
    (ht : ∀ t ∈ tw, t.Finite ∧ |t.val| ≤ 1) {n : ℕ} (hn : n ≤ 1000000) :
    P {ω | ¬ ∃ s s', logisticAuto (Fp.round (1 / 1000) : Double) tw (init 5) (benchDraws tw hl gen X n ω) = .ok s ∧
        logisticByHand (Fp.round (1 / 1000) : Double) tw (init 5) (benchDraws tw hl gen X n ω) = .ok s' ∧
        ∀ i, (s.w.elem i).Finite ∧ (s'.w.elem i).Finite ∧
          |vals Fp.val s.w i - ascents (Fp.round (1 / 1000) : Double).val (fun _ => 0)
            ((benchDraws tw hl gen X n ω).map fun d => (vals Fp.val d.1, d.2)) i| ≤ 1 / 10 ^ 8 ∧
          |vals Fp.val s.w i - vals Fp.val s'.w i| ≤ 2 / 10 ^ 8} ≤
      ENNReal.ofReal (1 / 10 ^ 240) := by
  obtain ⟨hf, ha, hb⟩ := bench_rate'
  refine (measure_mono fun ω hω => ?_).trans (C88_double hX hi hμ hg (table_ok hl ht) hf (by linarith) hb
    (s := init 5) init_elem hn)
  rintro ⟨s, h, f, e⟩
  refine hω ?_
  have hx : ∀ d ∈ benchDraws tw hl gen X n ω, ∀ i, (d.1.elem i).Finite ∧ |vals Fp.val d.1 i| ≤ 1 := fun d hd => by
    obtain ⟨i, rfl⟩ := (List.mem_ofFn' _ _).1 hd
    exact hg _
  obtain ⟨s', h', f', e'⟩ := C83_manual (by norm_num) hl ht (benchDraws tw hl gen X n ω)
    (by rw [benchDraws, doubleDraws, List.length_ofFn]; exact hn) hx
  refine ⟨s, s', (C83_example _ tw hl _ _).trans h, h', fun i => ⟨f i, f' i, e i, ?_⟩⟩
  have h1 := abs_le.1 (e i)
  have h2 := abs_le.1 (e' i)
  rw [benchDraws] at h2
  rw [abs_le]
  constructor <;> linarith

/-! ### A concrete case -/

/-- The samples of the program: entries `j / 2 ^ 53` with `j < m` (in `rand`, `m = 2 ^ 53`), of any joint distribution; the
table of the source: the benchmark hardly ever ends with NaN. -/
example {m : ℕ} (hm : m ≤ 2 ^ 53) (ν : Measure (Fin 5 → Fin m)) [IsProbabilityMeasure ν] :
    ∃ (Ω : Type) (_ : MeasurableSpace Ω) (P : Measure Ω) (_ : IsProbabilityMeasure P)
      (X : ℕ → Ω → (Fin 5 → Fin m) × ℝ), (∀ k, P.map (X k) = ν.prod uniform) ∧
      P {ω | ∃ s', logisticAuto (Fp.round (1 / 1000) : Double) table (init 5)
        (benchDraws table table_small.1 (fun t => NArr.ofElems fun i => Fp.round ((t i : ℕ) / 2 ^ 53)) X 1000000 ω) =
          .ok s' ∧ ∃ i, s'.w.elem i = .nan} ≤ ENNReal.ofReal (1 / 10 ^ 240) := by
  have hg : ∀ (t : Fin 5 → Fin m) i,
      ((NArr.ofElems fun i => (Fp.round ((t i : ℕ) / 2 ^ 53) : Double)).elem i).Finite ∧
      |vals Fp.val (NArr.ofElems fun i => (Fp.round ((t i : ℕ) / 2 ^ 53) : Double)) i| ≤ 1 := fun t i => by
    obtain ⟨hf, hv⟩ := C78_drawn (t i) ((t i).2.trans_le hm)
    rw [vals_ofElems, show (NArr.ofElems fun i => (Fp.round ((t i : ℕ) / 2 ^ 53) : Double)).elem i =
      Fp.round ((t i : ℕ) / 2 ^ 53) from NArr.row_mkRows (ds := []) _ i]
    refine ⟨hf, ?_⟩
    beta_reduce
    rw [hv, abs_of_nonneg (by positivity)]
    exact (div_le_one (by positivity)).2 (by exact_mod_cast ((t i).2.trans_le hm).le)
  refine ⟨ℕ → (Fin 5 → Fin m) × ℝ, inferInstance, Measure.infinitePi fun _ => ν.prod uniform, inferInstance,
    fun k ω => ω k, fun k => Measure.infinitePi_map_eval (fun _ : ℕ => ν.prod uniform) k, ?_⟩
  refine (measure_mono fun ω hω => ?_).trans (C88_bench (fun k => measurable_pi_apply k)
    (iIndepFun_infinitePi (X := fun _ x => x) fun _ => measurable_id)
    (fun k => Measure.infinitePi_map_eval (fun _ : ℕ => ν.prod uniform) k) hg table_small.1 table_small.2 le_rfl)
  rintro ⟨s, s₂, h, -, hf⟩
  obtain ⟨s'', h', i, hn⟩ := hω
  rw [h] at h'
  injection h' with h'
  subst h'
  have := (hf i).1
  rw [hn] at this
  exact this

end Aegir.Benches
