import Verif.Lemmas.LearningStop
import Verif.Props.C79_LogisticLearns
import Verif.Props.C80_LogisticDouble
/-!
# C81: how likely the logistic regression example fails in double precision

By C80 there are draws for which the program (`aegir/examples/logistic.rs`) ends with NaN. Here the draws are
random, and the failure is shown to be next to impossible.
-/

namespace Aegir.Examples

open Aegir.Spec MeasureTheory ProbabilityTheory
open scoped ENNReal

variable {N : ℕ}

/-! ### Exact arithmetic -/

theorem sqDist_ascent (η : ℝ) (tw w x : Fin N → ℝ) (b : Bool) {c : ℝ}
    (hc : (if b then 1 else 0) - logistic (prod' x w) = c) :
    sqDist (ascent η w x b) tw = sqDist w tw +
      (2 * η * c * (prod' x w - prod' x tw) + η ^ 2 * c ^ 2 * prod' x x) := by
  simp only [sqDist, prod', Finset.mul_sum, ← Finset.sum_sub_distrib, ← Finset.sum_add_distrib]
  refine Finset.sum_congr rfl fun i _ => ?_
  simp only [ascent, hc]
  ring

/-- Increments that are small and on average not positive. -/
theorem exp_mean {q p ε κ d₁ d₀ D₂ G : ℝ} (hq0 : 0 ≤ q) (hq1 : q ≤ 1) (hε : |p - q| ≤ ε)
    (h1 : |κ * d₁| ≤ 1) (h0 : |κ * d₀| ≤ 1) (hm : κ * (q * d₁ + (1 - q) * d₀) ≤ G)
    (h2 : κ ^ 2 * (q * d₁ ^ 2 + (1 - q) * d₀ ^ 2) ≤ D₂) :
    p * Real.exp (κ * d₁) + (1 - p) * Real.exp (κ * d₀) ≤ 1 + G + D₂ + 3 * ε := by
  have e1 := (abs_le.1 (Real.abs_exp_sub_one_sub_id_le h1)).2
  have e0 := (abs_le.1 (Real.abs_exp_sub_one_sub_id_le h0)).2
  have b1 : Real.exp (κ * d₁) ≤ 3 := (Real.exp_le_exp.2 ((le_abs_self _).trans h1)).trans
    (by linarith [Real.exp_one_lt_d9])
  have b0 : Real.exp (κ * d₀) ≤ 3 := (Real.exp_le_exp.2 ((le_abs_self _).trans h0)).trans
    (by linarith [Real.exp_one_lt_d9])
  have p1 := Real.exp_pos (κ * d₁)
  have p0 := Real.exp_pos (κ * d₀)
  set E₁ := Real.exp (κ * d₁)
  set E₀ := Real.exp (κ * d₀)
  have h3 : (p - q) * (E₁ - E₀) ≤ 3 * ε := by
    have h4 : |E₁ - E₀| ≤ 3 := by rw [abs_le]; constructor <;> linarith
    calc (p - q) * (E₁ - E₀) ≤ |p - q| * |E₁ - E₀| := by rw [← abs_mul]; exact le_abs_self _
      _ ≤ ε * 3 := mul_le_mul hε h4 (abs_nonneg _) ((abs_nonneg _).trans hε)
      _ = 3 * ε := by ring
  have h5 : q * E₁ ≤ q * (1 + κ * d₁ + (κ * d₁) ^ 2) := mul_le_mul_of_nonneg_left (by linarith) hq0
  have h6 : (1 - q) * E₀ ≤ (1 - q) * (1 + κ * d₀ + (κ * d₀) ^ 2) :=
    mul_le_mul_of_nonneg_left (by linarith) (by linarith)
  linarith

/-- The growth of `exp (κ |w - tw| ^ 2)` in one step, where the weights have not gone far. -/
theorem exp_ascent_mean {η κ B l ε p : ℝ} (hη : 0 ≤ η) (hκ : 0 ≤ κ) (tw w x : Fin N → ℝ)
    (hx : prod' x x ≤ B) (hw : sqDist w tw ≤ l) (hM : κ * (η * (2 * (√B * √l) + η * B)) ≤ 1)
    (hK : κ * η ^ 2 * B + κ ^ 2 * (η * (2 * (√B * √l) + η * B)) ^ 2 ≤ 8 * (κ * η))
    (hp : |p - logistic (prod' x tw)| ≤ ε) :
    p * Real.exp (κ * sqDist (ascent η w x true) tw) + (1 - p) * Real.exp (κ * sqDist (ascent η w x false) tw) ≤
      (1 + (κ * η ^ 2 * B + κ ^ 2 * (η * (2 * (√B * √l) + η * B)) ^ 2) / 4 + 3 * ε) *
        Real.exp (κ * sqDist w tw) := by
  have hr := logistic_range (prod' x tw)
  have hs := logistic_range (prod' x w)
  have hx0 : 0 ≤ prod' x x := Finset.sum_nonneg fun i _ => mul_self_nonneg _
  have hB : 0 ≤ B := hx0.trans hx
  have hl : 0 ≤ l := (dist2_nonneg w tw).trans hw
  set q := logistic (prod' x tw) with hq
  set s := logistic (prod' x w) with hsd
  set m := prod' x w - prod' x tw with hmd
  set g := gap (prod' x w) (prod' x tw) with hgd
  have hg : g = (s - q) * m := rfl
  have hg0 : 0 ≤ g := gap_nonneg _ _
  have hgs : 4 * (s - q) ^ 2 ≤ g := sq_le_gap _ _
  have hm : |m| ≤ √B * √l := by
    have e : m = inner' x fun i => w i - tw i := by
      simp only [hmd, prod', inner', ← Finset.sum_sub_distrib, mul_sub]
    have h1 := inner_sq_le x fun i => w i - tw i
    rw [← e] at h1
    rw [← Real.sqrt_sq_eq_abs, ← Real.sqrt_mul hB]
    refine Real.sqrt_le_sqrt (h1.trans (mul_le_mul hx ?_ (inner_self_nonneg' _) hB))
    have := dist2_eq w tw
    rw [← this]
    exact hw
  set M := 2 * (√B * √l) + η * B with hMd
  have hM0 : 0 ≤ M := by positivity
  have key : ∀ c : ℝ, |c| ≤ 1 → |2 * η * c * m + η ^ 2 * c ^ 2 * prod' x x| ≤ |c| * (η * M) := fun c hc => by
    rw [show 2 * η * c * m + η ^ 2 * c ^ 2 * prod' x x = c * (η * (2 * m + η * (c * prod' x x))) by ring,
      abs_mul, abs_mul, abs_of_nonneg hη]
    refine mul_le_mul_of_nonneg_left (mul_le_mul_of_nonneg_left ?_ hη) (abs_nonneg _)
    refine (abs_add_le _ _).trans ?_
    rw [abs_mul, abs_mul η, abs_mul c, abs_of_nonneg hη, abs_of_nonneg hx0, abs_two]
    have : |c| * prod' x x ≤ B := (mul_le_of_le_one_left hx0 hc).trans hx
    have := mul_le_mul_of_nonneg_left this hη
    linarith
  have hc1 : |1 - s| ≤ 1 := by rw [abs_le]; constructor <;> linarith
  have hc0 : |0 - s| ≤ 1 := by rw [abs_le]; constructor <;> linarith
  have e1 := sqDist_ascent η tw w x true (c := 1 - s) (by simp [hsd])
  have e0 := sqDist_ascent η tw w x false (c := 0 - s) (by simp [hsd])
  rw [← hmd] at e1 e0
  have k1 := key (1 - s) hc1
  have k0 := key (0 - s) hc0
  set d₁ := 2 * η * (1 - s) * m + η ^ 2 * (1 - s) ^ 2 * prod' x x with hd₁
  set d₀ := 2 * η * (0 - s) * m + η ^ 2 * (0 - s) ^ 2 * prod' x x with hd₀
  have hηM : 0 ≤ η * M := mul_nonneg hη hM0
  have small : ∀ {c d : ℝ}, |c| ≤ 1 → |d| ≤ |c| * (η * M) → |κ * d| ≤ 1 := fun {c d} hc hd => by
    rw [abs_mul, abs_of_nonneg hκ]
    exact (mul_le_mul_of_nonneg_left (hd.trans (mul_le_of_le_one_left hηM hc)) hκ).trans hM
  have sqs : ∀ {c d : ℝ}, |d| ≤ |c| * (η * M) → d ^ 2 ≤ c ^ 2 * (η * M) ^ 2 := fun {c d} hd => by
    rw [← sq_abs d, ← sq_abs c, ← mul_pow]
    exact pow_le_pow_left₀ (abs_nonneg _) hd 2
  set V := q * (1 - s) ^ 2 + (1 - q) * (0 - s) ^ 2 with hV
  have hVe : V ≤ 1 / 4 + g / 4 := by
    have : V = q * (1 - q) + (s - q) ^ 2 := by rw [hV]; ring
    nlinarith [sq_nonneg (q - 1 / 2)]
  have hV0 : 0 ≤ V := add_nonneg (mul_nonneg hr.1.le (sq_nonneg _)) (mul_nonneg (by linarith) (sq_nonneg _))
  have hmean := exp_mean (κ := κ) (d₁ := d₁) (d₀ := d₀) hr.1.le hr.2.le hp (small hc1 k1) (small hc0 k0)
    (G := -(2 * (κ * η) * g) + κ * η ^ 2 * B * V) (D₂ := κ ^ 2 * (η * M) ^ 2 * V) (by
      have : κ * (q * d₁ + (1 - q) * d₀) = -(2 * (κ * η) * g) + κ * η ^ 2 * (prod' x x * V) := by
        rw [hd₁, hd₀, hV, hg]; ring
      rw [this, mul_assoc _ B]
      have := mul_le_mul_of_nonneg_left (mul_le_mul_of_nonneg_right hx hV0) (by positivity : 0 ≤ κ * η ^ 2)
      linarith) (by
      have h1 := mul_le_mul_of_nonneg_left (sqs k1) hr.1.le
      have h0 := mul_le_mul_of_nonneg_left (sqs k0) (by linarith : 0 ≤ 1 - q)
      have := mul_le_mul_of_nonneg_left (add_le_add h1 h0) (sq_nonneg κ)
      refine this.trans (le_of_eq ?_)
      rw [hV]; ring)
  set K := κ * η ^ 2 * B + κ ^ 2 * (η * M) ^ 2 with hKd
  have hK0 : 0 ≤ K := by positivity
  have htot : p * Real.exp (κ * d₁) + (1 - p) * Real.exp (κ * d₀) ≤ 1 + K / 4 + 3 * ε := by
    have h1 : K * V ≤ K * (1 / 4 + g / 4) := mul_le_mul_of_nonneg_left hVe hK0
    have h2 : K * g ≤ 8 * (κ * η) * g := mul_le_mul_of_nonneg_right hK hg0
    have h3 : κ * η ^ 2 * B * V + κ ^ 2 * (η * M) ^ 2 * V = K * V := by rw [hKd]; ring
    linarith
  have split : ∀ d, Real.exp (κ * (sqDist w tw + d)) = Real.exp (κ * sqDist w tw) * Real.exp (κ * d) := fun d => by
    rw [mul_add, Real.exp_add]
  rw [e1, e0, split d₁, split d₀]
  calc p * (Real.exp (κ * sqDist w tw) * Real.exp (κ * d₁)) +
        (1 - p) * (Real.exp (κ * sqDist w tw) * Real.exp (κ * d₀))
      = (p * Real.exp (κ * d₁) + (1 - p) * Real.exp (κ * d₀)) * Real.exp (κ * sqDist w tw) := by ring
    _ ≤ _ := mul_le_mul_of_nonneg_right htot (Real.exp_pos _).le

/-- One iteration in exact arithmetic: the sample is `x t`, and its label is one if the uniform number is
below `p t` (aegir/examples/logistic.rs L37-51). -/
noncomputable def flipStep {T : Type} (η : ℝ) (x : T → Fin N → ℝ) (p : T → ℝ) (w : Fin N → ℝ) (d : T × ℝ) :
    Fin N → ℝ := ascent η w (x d.1) (decide (d.2 < p d.1))

section
variable {Ω T : Type} [MeasurableSpace Ω] {P : Measure Ω} [IsProbabilityMeasure P]
  [MeasurableSpace T] {ν : Measure T} [IsProbabilityMeasure ν] {X : ℕ → Ω → T × ℝ}

theorem measurable_flipStep (η : ℝ) {x : T → Fin N → ℝ} (hx : Measurable x) {p : T → ℝ} (hp : Measurable p) :
    Measurable fun a : (Fin N → ℝ) × (T × ℝ) => flipStep η x p a.1 a.2 := by
  have hset : MeasurableSet {a : (Fin N → ℝ) × (T × ℝ) | a.2.2 < p a.2.1} :=
    measurableSet_lt measurable_snd.snd (hp.comp measurable_snd.fst)
  have hc : ∀ b, Continuous fun a : (Fin N → ℝ) × (Fin N → ℝ) => ascent η a.1 a.2 b := fun b => by
    refine continuous_pi fun k => ?_
    have h1 : Continuous fun a : (Fin N → ℝ) × (Fin N → ℝ) => logistic (prod' a.2 a.1) :=
      continuous_logistic.comp (continuous_prod2.comp (continuous_snd.prodMk continuous_fst))
    unfold ascent
    fun_prop
  have hb : ∀ b, Measurable fun a : (Fin N → ℝ) × (T × ℝ) => ascent η a.1 (x a.2.1) b := fun b =>
    (hc b).measurable.comp (measurable_fst.prodMk (hx.comp measurable_snd.fst))
  have h : Measurable fun a : (Fin N → ℝ) × (T × ℝ) =>
      if a.2.2 < p a.2.1 then ascent η a.1 (x a.2.1) true else ascent η a.1 (x a.2.1) false :=
    Measurable.ite hset (hb true) (hb false)
  refine (congrArg Measurable (funext fun a => ?_)).mp h
  unfold flipStep
  by_cases hp : a.2.2 < p a.2.1
  · rw [if_pos hp, decide_eq_true hp]
  · rw [if_neg hp, decide_eq_false hp]

/-- Gradient ascent in exact arithmetic on independent samples of squared length at most `B`, whose labels
have nearly the probabilities of the true weights: how likely the squared distance to the true weights ever
exceeds `l` in `n` steps. -/
theorem C81_far (hX : ∀ k, Measurable (X k)) (hi : iIndepFun X P) (hμ : ∀ k, P.map (X k) = ν.prod uniform)
    {η κ B l ε : ℝ} (hη : 0 ≤ η) (hκ : 0 ≤ κ) {x : T → Fin N → ℝ} (hx : Measurable x) {p : T → ℝ}
    (hpm : Measurable p) (hp : ∀ t, 0 ≤ p t ∧ p t ≤ 1) (tw : Fin N → ℝ) (hB : ∀ t, prod' (x t) (x t) ≤ B)
    (hε : ∀ t, |p t - logistic (prod' (x t) tw)| ≤ ε)
    (hM : κ * (η * (2 * (√B * √l) + η * B)) ≤ 1)
    (hK : κ * η ^ 2 * B + κ ^ 2 * (η * (2 * (√B * √l) + η * B)) ^ 2 ≤ 8 * (κ * η)) (w : Fin N → ℝ) (n : ℕ) :
    P {ω | ∃ k ≤ n, l < sqDist (along (flipStep η x p) w X k ω) tw} ≤ ENNReal.ofReal
      ((1 + (κ * η ^ 2 * B + κ ^ 2 * (η * (2 * (√B * √l) + η * B)) ^ 2) / 4 + 3 * ε) ^ n *
        Real.exp (κ * (sqDist w tw - l))) := by
  set C := 1 + (κ * η ^ 2 * B + κ ^ 2 * (η * (2 * (√B * √l) + η * B)) ^ 2) / 4 + 3 * ε with hC
  obtain ⟨t₀⟩ : Nonempty T := by
    by_contra h
    rw [not_nonempty_iff] at h
    have := measure_univ (μ := ν)
    rw [Set.univ_eq_empty_iff.2 h, measure_empty] at this
    exact zero_ne_one this
  have hε0 : 0 ≤ ε := (abs_nonneg _).trans (hε t₀)
  have hB0 : 0 ≤ B := le_trans (Finset.sum_nonneg fun i _ => mul_self_nonneg _) (hB t₀)
  have hC1 : 1 ≤ C := by
    have : 0 ≤ κ * η ^ 2 * B + κ ^ 2 * (η * (2 * (√B * √l) + η * B)) ^ 2 := by positivity
    rw [hC]; linarith
  have hcont : Continuous fun w : Fin N → ℝ => sqDist w tw := continuous_dist2 tw
  have hVm : Measurable fun w : Fin N → ℝ => ENNReal.ofReal (Real.exp (κ * sqDist w tw)) :=
    ENNReal.measurable_ofReal.comp (Real.measurable_exp.comp (hcont.measurable.const_mul κ))
  have hmain := ever_le (L := ENNReal.ofReal (Real.exp (κ * l))) (c := ENNReal.ofReal C)
    (A := {v | l < sqDist v tw}) (measurable_flipStep η hx hpm) hX hi hμ hVm
    (by rw [← ENNReal.ofReal_one]; exact ENNReal.ofReal_le_ofReal hC1)
    (measurableSet_lt measurable_const hcont.measurable)
    (fun v hv => ENNReal.ofReal_le_ofReal (Real.exp_le_exp.2 (mul_le_mul_of_nonneg_left (le_of_lt hv) hκ)))
    (fun v hv => by
      have hm : Measurable fun d : T × ℝ => ENNReal.ofReal (Real.exp (κ * sqDist (flipStep η x p v d) tw)) :=
        hVm.comp ((measurable_flipStep η hx hpm).comp (measurable_const.prodMk measurable_id))
      rw [lintegral_prod _ hm.aemeasurable]
      calc ∫⁻ t, ∫⁻ u, ENNReal.ofReal (Real.exp (κ * sqDist (flipStep η x p v (t, u)) tw)) ∂uniform ∂ν
          ≤ ∫⁻ _, ENNReal.ofReal C * ENNReal.ofReal (Real.exp (κ * sqDist v tw)) ∂ν := by
            refine lintegral_mono fun t => ?_
            have hcoin := lintegral_coin (hp t).1 (hp t).2
              (fun b => ENNReal.ofReal (Real.exp (κ * sqDist (ascent η v (x t) b) tw)))
            have hp' : 0 ≤ 1 - p t := by linarith [(hp t).2]
            refine le_trans (le_of_eq hcoin) ?_
            rw [← ENNReal.ofReal_mul (hp t).1, ← ENNReal.ofReal_mul hp', ← ENNReal.ofReal_add
              (mul_nonneg (hp t).1 (Real.exp_pos _).le) (mul_nonneg hp' (Real.exp_pos _).le),
              ← ENNReal.ofReal_mul (by linarith)]
            exact ENNReal.ofReal_le_ofReal (exp_ascent_mean hη hκ tw v (x t) (hB t) (not_lt.1 hv) hM hK (hε t))
        _ = _ := by rw [lintegral_const, measure_univ, mul_one]) w n
  have hpos : 0 < Real.exp (κ * l) := Real.exp_pos _
  rw [← ENNReal.ofReal_pow (by linarith), ← ENNReal.ofReal_mul (by positivity)] at hmain
  have e : (C ^ n * Real.exp (κ * (sqDist w tw - l))) = (C ^ n * Real.exp (κ * sqDist w tw)) / Real.exp (κ * l) := by
    rw [mul_sub, Real.exp_sub]; ring
  rw [e, ENNReal.ofReal_div_of_pos hpos, ENNReal.le_div_iff_mul_le (.inl (by simpa using hpos))
    (.inl ENNReal.ofReal_ne_top), mul_comm]
  exact hmain

end

/-! ### The program in double precision -/

theorem moderate_snoc {η Y Z : ℝ} (d : (Fin N → ℝ) × Bool) (ds : List ((Fin N → ℝ) × Bool)) :
    ∀ w : Fin N → ℝ, Moderate η Y Z w ds → (∀ i, |ascents η w ds i| ≤ Y) → |prod' d.1 (ascents η w ds)| ≤ Z →
      Moderate η Y Z w (ds ++ [d]) := by
  induction ds with
  | nil => intro w _ h1 h2; exact ⟨h1, h2, trivial⟩
  | cons e ds ih => intro w h h1 h2; exact ⟨h.1, h.2.1, ih _ h.2.2 h1 h2⟩

theorem ascents_snoc {η : ℝ} (d : (Fin N → ℝ) × Bool) (ds : List ((Fin N → ℝ) × Bool)) :
    ∀ w : Fin N → ℝ, ascents η w (ds ++ [d]) = ascent η (ascents η w ds) d.1 d.2 := by
  induction ds with
  | nil => intro w; rfl
  | cons e ds ih => intro w; exact ih _

/-- What exact ascent is given in the first `n` iterations (aegir/examples/logistic.rs L37-44). -/
noncomputable def flips {Ω T : Type} (x : T → Fin N → ℝ) (p : T → ℝ) (X : ℕ → Ω → T × ℝ) (n : ℕ) (ω : Ω) :
    List ((Fin N → ℝ) × Bool) :=
  List.ofFn fun i : Fin n => (x (X i ω).1, decide ((X i ω).2 < p (X i ω).1))

theorem flips_succ {Ω T : Type} (x : T → Fin N → ℝ) (p : T → ℝ) (X : ℕ → Ω → T × ℝ) (n : ℕ) (ω : Ω) :
    flips x p X (n + 1) ω = flips x p X n ω ++ [(x (X n ω).1, decide ((X n ω).2 < p (X n ω).1))] := by
  unfold flips
  rw [List.ofFn_succ', List.concat_eq_append]
  rfl

theorem ascents_flips {Ω T : Type} (η : ℝ) (x : T → Fin N → ℝ) (p : T → ℝ) (X : ℕ → Ω → T × ℝ) (n : ℕ) (ω : Ω)
    (w : Fin N → ℝ) : ascents η w (flips x p X n ω) = along (flipStep η x p) w X n ω := by
  induction n with
  | zero => rfl
  | succ n ih =>
    rw [flips_succ, ascents_snoc, ih, along_succ]
    rfl

/-- Ascent that never goes far is moderate. -/
theorem moderate_flips {Ω T : Type} {η A D l B : ℝ} {x : T → Fin N → ℝ} (p : T → ℝ) (X : ℕ → Ω → T × ℝ)
    {tw : Fin N → ℝ} (hB : ∀ t, √(prod' (x t) (x t)) ≤ B) (hl : √l ≤ D) (ht : ∀ i, |tw i| ≤ 1)
    (ht' : √(prod' tw tw) ≤ A) (n : ℕ) (ω : Ω) (w : Fin N → ℝ)
    (h : ∀ k < n, sqDist (along (flipStep η x p) w X k ω) tw ≤ l) :
    Moderate η (1 + D) (B * (A + D)) w (flips x p X n ω) := by
  induction n with
  | zero => trivial
  | succ n ih =>
    rw [flips_succ]
    have hd : √(sqDist (along (flipStep η x p) w X n ω) tw) ≤ D :=
      (Real.sqrt_le_sqrt (h n (Nat.lt_succ_self n))).trans hl
    set v := along (flipStep η x p) w X n ω with hv
    have hlen : √(sqDist v tw) = len fun i => v i - tw i := dist_eq_len v tw
    refine moderate_snoc _ _ _ (ih fun k hk => h k (by omega)) (fun i => ?_) ?_
    · rw [ascents_flips, ← hv]
      have h1 := le_len (fun i => v i - tw i) i
      rw [← hlen] at h1
      have h2 := abs_sub_abs_le_abs_sub (v i) (tw i)
      linarith [ht i]
    · rw [ascents_flips, ← hv]
      have h1 : len v ≤ A + D := by
        have := len_add_le tw fun i => v i - tw i
        simp only [add_sub_cancel] at this
        rw [← hlen] at this
        have ht2 : len tw ≤ A := ht'
        linarith
      have h2 := inner_sq_le (x (X n ω).1) v
      have h3 : |prod' (x (X n ω).1) v| ≤ √(prod' (x (X n ω).1) (x (X n ω).1)) * len v := by
        rw [← Real.sqrt_sq_eq_abs]
        unfold len
        rw [← Real.sqrt_mul (show 0 ≤ prod' (x (X n ω).1) (x (X n ω).1) from inner_self_nonneg' _)]
        exact Real.sqrt_le_sqrt h2
      refine h3.trans (mul_le_mul (hB _) h1 (len_nonneg v) ((Real.sqrt_nonneg _).trans (hB (X n ω).1)))

theorem growth_double {η : ℝ} (h0 : 4999 / 10000000 ≤ η) (h1 : η ≤ 50001 / 100000000) :
    3 / 8 * (η * (2 * (√5 * √150) + η * 5)) ≤ 1 ∧
    3 / 8 * η ^ 2 * 5 + (3 / 8) ^ 2 * (η * (2 * (√5 * √150) + η * 5)) ^ 2 ≤ 8 * (3 / 8 * η) ∧
    1 + (3 / 8 * η ^ 2 * 5 + (3 / 8) ^ 2 * (η * (2 * (√5 * √150) + η * 5)) ^ 2) / 4 + 3 * (1 / 2 ^ 40) ≤
      1 + 266 / 10000000 := by
  have hs : √5 * √150 ≤ 273862 / 10000 := by
    rw [← Real.sqrt_mul (by norm_num)]
    exact Real.sqrt_le_iff.2 ⟨by norm_num, by norm_num⟩
  have hs0 : 0 ≤ √5 * √150 := by positivity
  have hη : 0 ≤ η := by linarith
  have hM : η * (2 * (√5 * √150) + η * 5) ≤ 27389 / 1000000 := by
    have : 2 * (√5 * √150) + η * 5 ≤ 54775 / 1000 := by linarith
    exact (mul_le_mul h1 this (by positivity) (by norm_num)).trans (by norm_num)
  have hM0 : 0 ≤ η * (2 * (√5 * √150) + η * 5) := by positivity
  have hM2 : (η * (2 * (√5 * √150) + η * 5)) ^ 2 ≤ (27389 / 1000000) ^ 2 := pow_le_pow_left₀ hM0 hM 2
  have hη2 : η ^ 2 ≤ (50001 / 100000000) ^ 2 := pow_le_pow_left₀ hη h1 2
  norm_num at hM2 hη2 ⊢
  refine ⟨?_, ?_, ?_⟩ <;> linarith

theorem tail_double {n : ℕ} (hn : n ≤ 1000000) {C d : ℝ} (hC0 : 0 ≤ C) (hC : C ≤ 1 + 266 / 10000000) (hd : d ≤ 5) :
    C ^ n * Real.exp (3 / 8 * (d - 150)) ≤ 1 / 10 ^ 12 := by
  have h1 : C ≤ Real.exp (266 / 10000000) := hC.trans (by
    have := Real.add_one_le_exp (266 / 10000000 : ℝ)
    linarith)
  have hn' : (n : ℝ) ≤ 1000000 := by exact_mod_cast hn
  have h2 : C ^ n ≤ Real.exp (266 / 10) := by
    refine (pow_le_pow_left₀ hC0 h1 n).trans ?_
    rw [← Real.exp_nat_mul]
    exact Real.exp_le_exp.2 (by linarith)
  have h3 : Real.exp (3 / 8 * (d - 150)) ≤ Real.exp (-54375 / 1000) := Real.exp_le_exp.2 (by linarith)
  have h4 : (10 ^ 12 : ℝ) ≤ Real.exp (27775 / 1000) := by
    have e : Real.exp (27775 / 1000) = Real.exp 1 ^ 27 * Real.exp (775 / 1000) := by
      rw [← Real.exp_nat_mul, ← Real.exp_add]; congr 1; norm_num
    have h5 := Real.quadratic_le_exp_of_nonneg (x := 775 / 1000) (by norm_num)
    have h6 : (2.718 : ℝ) ^ 27 ≤ Real.exp 1 ^ 27 :=
      pow_le_pow_left₀ (by norm_num) (by linarith [Real.exp_one_gt_d9]) _
    rw [e]
    refine le_trans ?_ (mul_le_mul h6 h5 (by norm_num) (by positivity))
    norm_num
  calc C ^ n * Real.exp (3 / 8 * (d - 150)) ≤ Real.exp (266 / 10) * Real.exp (-54375 / 1000) :=
        mul_le_mul h2 h3 (Real.exp_pos _).le (Real.exp_pos _).le
    _ = (Real.exp (27775 / 1000))⁻¹ := by rw [← Real.exp_add, ← Real.exp_neg]; congr 1; norm_num
    _ ≤ 1 / 10 ^ 12 := by rw [one_div]; exact inv_anti₀ (by positivity) h4

/-- The probability with which the program draws label one (aegir/examples/logistic.rs L42-44). -/
noncomputable def labelProb (tw x : NArr Double [5]) : ℝ := (sigmoid (label x tw)).val

theorem labelProb_near {tw x : NArr Double [5]} (ht : ∀ i, (tw.elem i).Finite ∧ |vals Fp.val tw i| ≤ 1)
    (hx : ∀ i, (x.elem i).Finite ∧ |vals Fp.val x i| ≤ 1) :
    (0 ≤ labelProb tw x ∧ labelProb tw x ≤ 1) ∧
      |labelProb tw x - logistic (prod' (vals Fp.val x) (vals Fp.val tw))| ≤ 1 / 2 ^ 40 := by
  have hv := Fp.rangedExp (p := 52) (q := 1074) (E := 971) (by norm_num)
  obtain ⟨fl, hl⟩ := dot_float hv (tiny_double.trans (by norm_num)) hx (w := tw)
    (fun i => ⟨(ht i).1, (ht i).2.trans (by norm_num)⟩) logistic_sizes_double.dot
  obtain ⟨-, h0, h1, h2⟩ := C80_sigmoid hv (tiny_double.trans (by norm_num)) fl
  refine ⟨⟨h0, h1⟩, ?_⟩
  have h3 := abs_logistic_sub (label x tw).val (prod' (vals Fp.val x) (vals Fp.val tw))
  have hD := dotErr_double
  have h4 : |labelProb tw x - logistic (label x tw).val| ≤ 1 / 2 ^ (52 + 1) + 3 * (1 / 2 ^ (52 + 1)) := h2
  have h5 := abs_add_le (labelProb tw x - logistic (label x tw).val)
    (logistic (label x tw).val - logistic (prod' (vals Fp.val x) (vals Fp.val tw)))
  rw [sub_add_sub_cancel] at h5
  have h6 : |logistic (label x tw).val - logistic (prod' (vals Fp.val x) (vals Fp.val tw))| ≤ 1 / 2 ^ 44 := by
    have : ∀ {a b c : ℝ}, a ≤ b / 4 → b ≤ c → c ≤ 1 / 2 ^ 44 → a ≤ 1 / 2 ^ 44 := fun h h' h'' => by
      norm_num at h'' ⊢; linarith
    exact this h3 hl hD
  norm_num at h4 h6 ⊢
  linarith

/-- What the program draws in the first `n` iterations, when the generator returns the numbers `X`: the
sample `gen t`, and for `gen_bool(p)` whether a uniform number is below `p` (aegir/examples/logistic.rs L37-44). -/
noncomputable def doubleDraws {Ω T : Type} (tw : NArr Double [5]) (gen : T → NArr Double [5]) (X : ℕ → Ω → T × ℝ)
    (n : ℕ) (ω : Ω) : List (NArr Double [5] × Bool) :=
  List.ofFn fun i : Fin n => (gen (X i ω).1, decide ((X i ω).2 < labelProb tw (gen (X i ω).1)))

/-- The program in double precision with its own rate, dimension and number of iterations, for any true
weights and independent samples of any distribution on the doubles of the unit cube. With probability at
least `1 - 10 ^ -12` it does not panic, no weight is infinite or NaN, and each is within `10 ^ -8` of the
weight that gradient ascent in exact arithmetic reaches on the same draws. -/
theorem C81_double {Ω T : Type} [MeasurableSpace Ω] {P : Measure Ω} [IsProbabilityMeasure P]
    [MeasurableSpace T] [Countable T] [MeasurableSingletonClass T] {ν : Measure T} [IsProbabilityMeasure ν]
    {X : ℕ → Ω → T × ℝ} (hX : ∀ k, Measurable (X k)) (hi : iIndepFun X P)
    (hμ : ∀ k, P.map (X k) = ν.prod uniform) {gen : T → NArr Double [5]}
    (hg : ∀ t i, ((gen t).elem i).Finite ∧ |vals Fp.val (gen t) i| ≤ 1) {tw : NArr Double [5]}
    (ht : ∀ i, (tw.elem i).Finite ∧ |vals Fp.val tw i| ≤ 1) {n : ℕ} (hn : n ≤ 1000000) :
    P {ω | ¬ ∃ s', logisticRun (Fp.round (1 / 2000) : Double) tw (logisticInit 5) (doubleDraws tw gen X n ω) = .ok s' ∧
        (∀ i, (s'.w.elem i).Finite) ∧
        ∀ i, |vals Fp.val s'.w i - ascents (Fp.round (1 / 2000) : Double).val (fun _ => 0)
          ((doubleDraws tw gen X n ω).map fun d => (vals Fp.val d.1, d.2)) i| ≤ 1 / 10 ^ 8} ≤
      ENNReal.ofReal (1 / 10 ^ 12) := by
  obtain ⟨hf, hη⟩ := logistic_rate
  set η : Double := Fp.round (1 / 2000)
  have hη1 : 4999 / 10000000 ≤ η.val ∧ η.val ≤ 50001 / 100000000 := by
    rw [abs_le] at hη
    constructor <;> norm_num at hη ⊢ <;> linarith
  have hη0 : 0 ≤ η.val := by linarith
  have hsq : ∀ a : NArr Double [5], (∀ i, |vals Fp.val a i| ≤ 1) → prod' (vals Fp.val a) (vals Fp.val a) ≤ 5 :=
    fun a ha => by
      have := prod_self_le (val := Fp.val) ha
      norm_num at this ⊢
      exact this
  obtain ⟨hM, hK, hC⟩ := growth_double hη1.1 hη1.2
  have hd : sqDist (fun _ => 0) (vals Fp.val tw) ≤ 5 := by
    refine le_trans (le_of_eq ?_) (hsq tw fun i => (ht i).2)
    exact Finset.sum_congr rfl fun i _ => by ring
  have hfar := C81_far (η := η.val) (κ := 3 / 8) (B := 5) (l := 150) (ε := 1 / 2 ^ 40) hX hi hμ hη0 (by norm_num)
    (x := fun t => vals Fp.val (gen t)) (measurable_of_countable _) (p := fun t => labelProb tw (gen t))
    (measurable_of_countable _) (fun t => (labelProb_near ht (hg t)).1) (vals Fp.val tw)
    (fun t => hsq _ fun i => (hg t i).2) (fun t => (labelProb_near ht (hg t)).2) hM hK (fun _ => 0) n
  refine le_trans (measure_mono fun ω hω => ?_) (hfar.trans (ENNReal.ofReal_le_ofReal
    (tail_double hn (by positivity) hC hd)))
  by_contra hno
  refine hω ?_
  have hno' : ∀ k ≤ n, sqDist (along (flipStep η.val (fun t => vals Fp.val (gen t)) fun t => labelProb tw (gen t))
      (fun _ => 0) X k ω) (vals Fp.val tw) ≤ 150 := fun k hk => by
    by_contra h
    exact hno ⟨k, hk, not_le.1 h⟩
  have hs5 : √(5 : ℝ) ≤ 22361 / 10000 := Real.sqrt_le_iff.2 ⟨by norm_num, by norm_num⟩
  have hmod := moderate_flips (η := η.val) (l := 150) (D := 122475 / 10000) (A := 22361 / 10000) (B := 22361 / 10000)
    (x := fun t => vals Fp.val (gen t)) (fun t => labelProb tw (gen t)) X (tw := vals Fp.val tw)
    (fun t => (Real.sqrt_le_sqrt (hsq _ fun i => (hg t i).2)).trans hs5)
    (Real.sqrt_le_iff.2 ⟨by norm_num, by norm_num⟩) (fun i => (ht i).2)
    ((Real.sqrt_le_sqrt (hsq tw fun i => (ht i).2)).trans hs5) n ω (fun _ => 0) fun k hk => hno' k hk.le
  have hmap : (doubleDraws tw gen X n ω).map (fun d => (vals Fp.val d.1, d.2)) =
      flips (fun t => vals Fp.val (gen t)) (fun t => labelProb tw (gen t)) X n ω := by
    unfold doubleDraws flips
    rw [List.map_ofFn]
    rfl
  have hlen : (doubleDraws tw gen X n ω).length = n := List.length_ofFn
  have hi : ∀ i, (logisticInit (F := Double) 5).w.elem i = 0 := fun i => NArr.row_mkRows _ i
  have hv0 : vals Fp.val (logisticInit (F := Double) 5).w = fun _ => 0 := by
    funext i
    simp only [vals, hi]
    rfl
  rw [← hmap, ← hv0] at hmod
  rw [← hv0]
  have hx : ∀ d ∈ doubleDraws tw gen X n ω, ∀ i, (d.1.elem i).Finite ∧ |vals Fp.val d.1 i| ≤ 1 := fun d hd => by
    obtain ⟨i, rfl⟩ := (List.mem_ofFn' _ _).1 hd
    exact hg _
  have h5 : √((5 : ℕ) : ℝ) ≤ 2.24 := Real.sqrt_le_iff.2 ⟨by norm_num, by norm_num⟩
  have hs0 : 0 ≤ stepErr 5 (1 / 2 ^ (52 + 1)) (1 / 2 ^ (52 + 1)) η.val 16 := by
    unfold stepErr dotErr
    have : (0 : ℝ) ≤ (1 + 1 / 2 ^ (52 + 1)) ^ (5 + 1) - 1 := by norm_num
    positivity
  have hs := stepErr_double (η := η.val) (by linarith)
  have hm : (doubleDraws tw gen X n ω).length *
      (√((5 : ℕ) : ℝ) * stepErr 5 (1 / 2 ^ (52 + 1)) (1 / 2 ^ (52 + 1)) η.val 16) ≤ 1 / 10 ^ 8 := by
    have hn' : ((doubleDraws tw gen X n ω).length : ℝ) ≤ 1000000 := by rw [hlen]; exact_mod_cast hn
    refine (mul_le_mul hn' (mul_le_mul h5 hs hs0 (by norm_num)) (by positivity) (by norm_num)).trans ?_
    norm_num
  have hD := dotErr_double
  obtain ⟨s', h, h', h''⟩ := C80_run (Fp.rangedExp (p := 52) (q := 1074) (E := 971) (by norm_num))
    logistic_sizes_double (η := η) ⟨hf, hη0, by linarith⟩ (by push_cast; linarith) (tw := tw)
    (fun i => ⟨(ht i).1, (ht i).2.trans (by norm_num)⟩) (by norm_num at hD ⊢; linarith)
    (m := 1 / 10 ^ 8) (by norm_num) (by
      norm_num at hD ⊢
      norm_num at h5
      linarith) _ hx (logisticInit 5) (fun i => by rw [hi]; trivial) hmod hm
  exact ⟨s', h, h', fun i => (h'' i).trans hm⟩

/-! ### Concrete cases -/

/-- The samples of the program: entries `j / 2 ^ 53` with `j < m` (in `rand`, `m = 2 ^ 53`), of any joint
distribution; true weights a quarter each (`C81_double`, and so `C81_far`). -/
example {m : ℕ} (hm : m ≤ 2 ^ 53) (ν : Measure (Fin 5 → Fin m)) [IsProbabilityMeasure ν] :
    ∃ (Ω : Type) (_ : MeasurableSpace Ω) (P : Measure Ω) (_ : IsProbabilityMeasure P)
      (X : ℕ → Ω → (Fin 5 → Fin m) × ℝ), (∀ k, P.map (X k) = ν.prod uniform) ∧
      P {ω | ∃ s', logisticRun (Fp.round (1 / 2000) : Double) (equal (2 ^ 51)) (logisticInit 5)
        (doubleDraws (equal (2 ^ 51)) (fun t => NArr.ofElems fun i => Fp.round ((t i : ℕ) / 2 ^ 53)) X 1000000 ω) =
          .ok s' ∧ ∃ i, s'.w.elem i = .nan} ≤ ENNReal.ofReal (1 / 10 ^ 12) := by
  have hg : ∀ (t : Fin 5 → Fin m) i,
      ((NArr.ofElems fun i => (Fp.round ((t i : ℕ) / 2 ^ 53) : Double)).elem i).Finite ∧
      |vals Fp.val (NArr.ofElems fun i => (Fp.round ((t i : ℕ) / 2 ^ 53) : Double)) i| ≤ 1 := fun t i => by
    obtain ⟨hf, hv⟩ := C78_drawn (t i) ((t i).2.trans_le hm)
    rw [vals_ofElems, show (NArr.ofElems fun i => (Fp.round ((t i : ℕ) / 2 ^ 53) : Double)).elem i =
      Fp.round ((t i : ℕ) / 2 ^ 53) from NArr.row_mkRows (ds := []) _ i]
    refine ⟨hf, ?_⟩
    beta_reduce
    rw [hv, abs_of_nonneg (by positivity)]
    exact (div_le_one (by positivity)).2 (by exact_mod_cast ((t i).2.trans_le hm).le)
  have ht : ∀ i, ((equal (2 ^ 51)).elem i).Finite ∧ |vals Fp.val (equal (2 ^ 51)) i| ≤ 1 := fun i => by
    have h : (2 ^ 51 : ℕ) < 2 ^ 53 := by norm_num
    refine ⟨?_, ?_⟩
    · rw [equal_elem]
      exact (C78_drawn _ h).1
    · rw [equal_vals h]
      norm_num
  refine ⟨ℕ → (Fin 5 → Fin m) × ℝ, inferInstance, Measure.infinitePi fun _ => ν.prod uniform, inferInstance,
    fun k ω => ω k, fun k => Measure.infinitePi_map_eval (fun _ : ℕ => ν.prod uniform) k, ?_⟩
  refine (measure_mono fun ω hω => ?_).trans (C81_double (fun k => measurable_pi_apply k)
    (iIndepFun_infinitePi (X := fun _ x => x) fun _ => measurable_id)
    (fun k => Measure.infinitePi_map_eval (fun _ : ℕ => ν.prod uniform) k) hg ht le_rfl)
  rintro ⟨s', h, hf, -⟩
  obtain ⟨s'', h', i, hn⟩ := hω
  rw [h] at h'
  injection h' with h'
  subst h'
  have := hf i
  rw [hn] at this
  exact this

end Aegir.Examples
