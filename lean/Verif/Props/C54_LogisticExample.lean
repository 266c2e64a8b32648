import Verif.Lemmas.Examples
/-!
# C54: the logistic regression example (`aegir/examples/logistic.rs`) over exact reals
-/

namespace Aegir.Examples
open Aegir.Spec

variable {N : Nat}

/-- The logistic function. -/
noncomputable def logistic (z : ℝ) : ℝ := 1 / (1 + Real.exp (-z))

/-- Inner product. -/
def prod' (a b : Fin N → ℝ) : ℝ := ∑ i, a i * b i

/-- Probability that the model with weights `w` gives to label `b` for the sample `x`. -/
noncomputable def pr (w x : Fin N → ℝ) (b : Bool) : ℝ :=
  if b then logistic (prod' x w) else 1 - logistic (prod' x w)

/-- One step of gradient ascent on the log-likelihood of one labelled sample. -/
noncomputable def ascent (η : ℝ) (w x : Fin N → ℝ) (b : Bool) : Fin N → ℝ := fun k =>
  w k + η * (((if b then 1 else 0) - logistic (prod' x w)) * x k)

/-- Gradient ascent along a list of labelled samples. -/
noncomputable def ascents (η : ℝ) : (Fin N → ℝ) → List ((Fin N → ℝ) × Bool) → Fin N → ℝ
  | w, [] => w
  | w, (x, b) :: ds => ascents η (ascent η w x b) ds

theorem sigmoid_eq (z : ℝ) : sigmoid z = logistic z := by
  simp only [sigmoid, logistic, ScalarFns.leb, ScalarFns.exp]
  split_ifs with h
  · rfl
  · have := Real.exp_pos z
    rw [Real.exp_neg]
    field_simp
    ring

theorem logistic_range (z : ℝ) : 0 < logistic z ∧ logistic z < 1 := by
  have := Real.exp_pos (-z)
  refine ⟨by unfold logistic; positivity, ?_⟩
  rw [logistic, div_lt_one (by positivity)]
  linarith

theorem logistic_mono {y z : ℝ} (h : y ≤ z) : logistic y ≤ logistic z := by
  unfold logistic
  have := Real.exp_pos (-z)
  gcongr

/-- `adj` of the program is the expression that the model evaluates. -/
theorem C54_adjoint : (likelihood : Node ℝ).adjoint W = some likelihoodAdj := rfl

/-- `gen_bool` returns a bool exactly for probabilities. -/
theorem C54_gen_bool_iff (p : ℝ) (b : Bool) :
    (genBool p b = .ok b ↔ 0 ≤ p ∧ p ≤ 1) ∧ (genBool p b = .panic ↔ p < 0 ∨ 1 < p) := by
  have h : (ScalarFns.leb 0 p && ScalarFns.leb p 1) = true ↔ 0 ≤ p ∧ p ≤ 1 := by
    simp [ScalarFns.leb]
  by_cases hp : 0 ≤ p ∧ p ≤ 1
  · rw [genBool, if_pos (h.2 hp)]
    exact ⟨by simp [hp], by simp [hp.1, hp.2]⟩
  · rw [genBool, if_neg (fun h' => hp (h.1 h'))]
    refine ⟨by simp [hp], ?_⟩
    simp only [true_iff]
    by_contra h'
    push Not at h'
    exact hp h'

/-- `rng.gen_bool(ops::sigmoid(yy))` never panics. -/
theorem C54_gen_bool (yy : ℝ) (b : Bool) : genBool (sigmoid yy) b = .ok b := by
  have h := logistic_range yy
  rw [sigmoid_eq, genBool, if_pos]
  simp [ScalarFns.leb, h.1.le, h.2.le]

/-- For labels zero and one the likelihood is the logarithm of the probability of the label. -/
theorem C54_likelihood (x w : NArr ℝ [N]) (b : Bool) :
    ((likelihoodValue N).evaluate (Data.ctx ⟨x, if b then 1 else 0, w⟩)).1 =
      .ok (Real.log (pr w.elem x.elem b)) := by
  rw [likelihood_value, sigmoid_eq]
  cases b <;> simp [pr, dotXW, prod']

/-- For labels zero and one `adj.evaluate` succeeds and returns `(y - σ(⟨x, w⟩)) x`. -/
theorem C54_gradient (x w : NArr ℝ [N]) (b : Bool) : ∃ g : NArr ℝ [N],
    ((likelihoodImpl N).evaluate (Data.ctx ⟨x, if b then 1 else 0, w⟩)).1 = .ok g ∧
      ∀ k, g.elem k = ((if b then 1 else 0) - logistic (prod' x.elem w.elem)) * x.elem k := by
  obtain ⟨g, hg, h⟩ := likelihood_eval ⟨x, if b then 1 else 0, w⟩
  refine ⟨g, hg, fun k => ?_⟩
  rw [h, sigmoid_eq]
  have hr := logistic_range (prod' x.elem w.elem)
  have h1 : 1 - logistic (prod' x.elem w.elem) ≠ 0 := by linarith [hr.2]
  have h0 := hr.1.ne'
  simp only [dotXW]
  change _ = (_ - logistic (∑ i, x.elem i * w.elem i)) * _
  change 1 - logistic (∑ i, x.elem i * w.elem i) ≠ 0 at h1
  change logistic (∑ i, x.elem i * w.elem i) ≠ 0 at h0
  generalize logistic (∑ i, x.elem i * w.elem i) = p at h0 h1 ⊢
  cases b
  · rw [div_eq_iff (by simpa using h1)]
    simp only [Bool.false_eq_true, if_false]
    ring
  · rw [div_eq_iff (by simpa using h0)]
    simp only [if_true]
    ring

/-- In the initial context, all-one features with label zero under zero weights, every entry of the
gradient is `-1/2`. -/
theorem C54_initial : ∃ g : NArr ℝ [N],
    ((likelihoodImpl N).evaluate (Data.ctx (logisticInit N))).1 = .ok g ∧
      ∀ k, g.elem k = -(1 / 2) := by
  have h1 : ∀ k, (NArr.full [N] (1 : ℝ)).elem k = 1 := fun k => NArr.row_mkRows _ k
  have h0 : ∀ k, (NArr.full [N] (0 : ℝ)).elem k = 0 := fun k => NArr.row_mkRows _ k
  obtain ⟨g, hg, h⟩ := C54_gradient (NArr.full [N] (1 : ℝ)) (NArr.full [N] 0) false
  refine ⟨g, hg, fun k => ?_⟩
  rw [h, h1]
  have : prod' (NArr.full [N] (1 : ℝ)).elem (NArr.full [N] (0 : ℝ)).elem = 0 := by
    simp only [prod', h0, mul_zero, Finset.sum_const_zero]
  rw [this]
  norm_num [logistic]

/-- Read off for five features. -/
example : ∃ g : NArr ℝ [5],
    ((likelihoodImpl 5).evaluate (Data.ctx (logisticInit 5))).1 = .ok g ∧ g.elem 4 = -(1 / 2) :=
  C54_initial.imp fun _ h => ⟨h.1, h.2 4⟩

/-- One iteration never panics, whatever is drawn, and performs one step of gradient ascent. -/
theorem C54_step (η : ℝ) (tw : NArr ℝ [N]) (s : Data ℝ N) (x : NArr ℝ [N]) (b : Bool) :
    ∃ s', logisticStep η tw s (x, b) = .ok s' ∧ s'.x = x ∧ s'.y = (if b then 1 else 0) ∧
      s'.w.elem = ascent η s.w.elem x.elem b := by
  obtain ⟨g, hg, h⟩ := C54_gradient x s.w b
  refine ⟨⟨x, if b then 1 else 0, update (fun w g => w + η * g) s.w g⟩, ?_, rfl, rfl, ?_⟩
  · simp only [logisticStep, C54_gen_bool, Res.bind]
    rw [hg]
    rfl
  · funext k
    rw [update_elem, h]
    rfl

/-- The whole run, for any number of iterations and any draws, never panics and ends with the
weights of gradient ascent. -/
theorem C54_run (η : ℝ) (tw : NArr ℝ [N]) (ds : List (NArr ℝ [N] × Bool)) (s : Data ℝ N) :
    ∃ s', logisticRun η tw s ds = .ok s' ∧
      s'.w.elem = ascents η s.w.elem (ds.map fun d => (d.1.elem, d.2)) := by
  induction ds generalizing s with
  | nil => exact ⟨s, rfl, rfl⟩
  | cons d ds ih =>
    obtain ⟨s1, h1, -, -, hw⟩ := C54_step η tw s d.1 d.2
    obtain ⟨s2, h2, hw2⟩ := ih s1
    refine ⟨s2, by rw [logisticRun, h1]; exact h2, ?_⟩
    rw [hw2, hw]
    rfl

/-- A step moves the prediction for its own sample towards the label, for any rate. -/
theorem C54_ascent (η : ℝ) (hη : 0 ≤ η) (w x : Fin N → ℝ) (b : Bool) :
    pr w x b ≤ pr (ascent η w x b) x b := by
  have hz : prod' x (ascent η w x b) = prod' x w +
      η * ((if b then 1 else 0) - logistic (prod' x w)) * prod' x x := by
    simp only [prod', Finset.mul_sum, ← Finset.sum_add_distrib]
    exact Finset.sum_congr rfl fun i _ => by simp only [ascent, prod']; ring
  have hx : 0 ≤ prod' x x := Finset.sum_nonneg fun i _ => mul_self_nonneg _
  have hr := logistic_range (prod' x w)
  cases b
  · simp only [pr, Bool.false_eq_true, if_false] at hz ⊢
    have : 0 ≤ η * logistic (prod' x w) * prod' x x := by
      have := hr.1.le
      positivity
    have := logistic_mono (y := prod' x (ascent η w x false)) (z := prod' x w) (by rw [hz]; linarith)
    linarith
  · simp only [pr, if_true] at hz ⊢
    refine logistic_mono ?_
    have : 0 ≤ η * (1 - logistic (prod' x w)) * prod' x x := by
      have : 0 ≤ 1 - logistic (prod' x w) := by linarith [hr.2]
      positivity
    rw [hz]
    linarith

/-- In terms of the program: evaluating `likelihood` before and after the update of the weights
gives a value that does not decrease. -/
theorem C54_likelihood_increases (η : ℝ) (hη : 0 ≤ η) (tw : NArr ℝ [N]) (s : Data ℝ N)
    (x : NArr ℝ [N]) (b : Bool) : ∃ s' u v, logisticStep η tw s (x, b) = .ok s' ∧
      ((likelihoodValue N).evaluate (Data.ctx ⟨s'.x, s'.y, s.w⟩)).1 = .ok u ∧
      ((likelihoodValue N).evaluate s'.ctx).1 = .ok v ∧ u ≤ v := by
  obtain ⟨s', h, hx, hy, hw⟩ := C54_step η tw s x b
  obtain ⟨x', y', w'⟩ := s'
  simp only at hx hy hw
  subst hx hy
  refine ⟨_, _, _, h, C54_likelihood x' s.w b, C54_likelihood x' w' b, ?_⟩
  have hr := logistic_range (prod' x'.elem s.w.elem)
  refine Real.log_le_log ?_ (by rw [hw]; exact C54_ascent η hη _ _ b)
  cases b <;> simp only [pr, Bool.false_eq_true, if_false, if_true] <;> linarith [hr.1, hr.2]

/-- Log-likelihood of the labels under fixed weights. -/
noncomputable def offline (u : Fin N → ℝ) : List ((Fin N → ℝ) × Bool) → ℝ
  | [] => 0
  | (x, b) :: ds => Real.log (pr u x b) + offline u ds

/-- Log-likelihood of the labels under the weights that ascent has reached when they arrive. -/
noncomputable def online (η : ℝ) : (Fin N → ℝ) → List ((Fin N → ℝ) × Bool) → ℝ
  | _, [] => 0
  | w, (x, b) :: ds => Real.log (pr w x b) + online η (ascent η w x b) ds

/-- Sum of the squared lengths of the samples. -/
noncomputable def energy : List ((Fin N → ℝ) × Bool) → ℝ
  | [] => 0
  | (x, _) :: ds => prod' x x + energy ds

/-- Squared distance. -/
noncomputable def sqDist (w u : Fin N → ℝ) : ℝ := ∑ i, (w i - u i) ^ 2

theorem log_logistic (z : ℝ) : Real.log (logistic z) = -Real.log (1 + Real.exp (-z)) := by
  rw [logistic, one_div, Real.log_inv]

theorem one_sub_logistic (z : ℝ) : 1 - logistic z = logistic (-z) := by
  have := Real.exp_pos z
  rw [logistic, logistic, neg_neg, Real.exp_neg]
  field_simp
  ring

/-- `log ∘ logistic` lies below its tangents. -/
theorem log_logistic_le (z z' : ℝ) :
    Real.log (logistic z') - Real.log (logistic z) ≤ (1 - logistic z) * (z' - z) := by
  have h0 := Real.exp_pos (-z)
  have h1 := Real.exp_pos (-z')
  have hs := logistic_range z
  have key : Real.exp (-((1 - logistic z) * (z' - z))) ≤
      logistic z + (1 - logistic z) * Real.exp (-(z' - z)) := by
    have := convexOn_exp.2 (Set.mem_univ (0 : ℝ)) (Set.mem_univ (-(z' - z))) hs.1.le
      (by linarith [hs.2] : 0 ≤ 1 - logistic z) (by ring)
    simp only [smul_eq_mul, Real.exp_zero, mul_zero, zero_add, mul_one] at this
    rwa [← mul_neg]
  have hm : logistic z + (1 - logistic z) * Real.exp (-(z' - z)) =
      (1 + Real.exp (-z')) / (1 + Real.exp (-z)) := by
    have : Real.exp (-(z' - z)) = Real.exp (-z') / Real.exp (-z) := by
      rw [← Real.exp_sub]; ring_nf
    rw [this, logistic]
    field_simp
    ring
  rw [log_logistic, log_logistic]
  have h2 := Real.log_le_log (Real.exp_pos _) (key.trans_eq hm)
  rw [Real.log_exp, Real.log_div (by positivity) (by positivity)] at h2
  linarith

/-- The log-likelihood of a label lies below its tangents. -/
theorem log_pr_le (w u x : Fin N → ℝ) (b : Bool) :
    Real.log (pr u x b) - Real.log (pr w x b) ≤
      ((if b then 1 else 0) - logistic (prod' x w)) * (prod' x u - prod' x w) := by
  cases b
  · simp only [pr, Bool.false_eq_true, if_false, one_sub_logistic]
    have := log_logistic_le (-prod' x w) (-prod' x u)
    rw [one_sub_logistic, neg_neg] at this
    linarith
  · simp only [pr, if_true]
    exact log_logistic_le _ _

/-- Whatever the labels are and in whatever order the samples come, predicting with the weights of the
moment is almost as good as with the best fixed weights `u` in hindsight. -/
theorem C54_regret (η : ℝ) (hη : 0 ≤ η) (u : Fin N → ℝ) (ds : List ((Fin N → ℝ) × Bool))
    (w : Fin N → ℝ) : 2 * η * (offline u ds - online η w ds) + sqDist (ascents η w ds) u ≤
      sqDist w u + η ^ 2 * energy ds := by
  induction ds generalizing w with
  | nil => simp [offline, online, energy, ascents]
  | cons d ds ih =>
    obtain ⟨x, b⟩ := d
    have h := ih (ascent η w x b)
    have hl := log_pr_le w u x b
    have hr := logistic_range (prod' x w)
    set c : ℝ := (if b then 1 else 0) - logistic (prod' x w) with hc
    have hc1 : c ^ 2 ≤ 1 := by
      cases b <;> simp only [hc, Bool.false_eq_true, if_false, if_true] <;> nlinarith [hr.1, hr.2]
    have hx : 0 ≤ prod' x x := Finset.sum_nonneg fun i _ => mul_self_nonneg _
    have hd : sqDist (ascent η w x b) u =
        sqDist w u - 2 * η * (c * (prod' x u - prod' x w)) + η ^ 2 * (c ^ 2 * prod' x x) := by
      simp only [sqDist, prod', Finset.mul_sum, ← Finset.sum_sub_distrib, ← Finset.sum_add_distrib]
      refine Finset.sum_congr rfl fun i _ => ?_
      simp only [ascent, ← hc]
      ring
    have h1 : η * (Real.log (pr u x b) - Real.log (pr w x b)) ≤
        η * (c * (prod' x u - prod' x w)) := mul_le_mul_of_nonneg_left hl hη
    have h2 : η ^ 2 * (c ^ 2 * prod' x x) ≤ η ^ 2 * prod' x x :=
      mul_le_mul_of_nonneg_left (mul_le_of_le_one_left hx hc1) (sq_nonneg η)
    simp only [offline, online, energy, ascents]
    rw [hd] at h
    linarith

/-- The program with its `N = 5`, its rate and its initial context: no draws make it panic, and after
`n` iterations the labels were predicted, along the way, at most `5000 + n / 800` worse (in
log-likelihood) than by the true weights. -/
theorem C54_program (tw : NArr ℝ [5]) (ht : ∀ i, 0 ≤ tw.elem i ∧ tw.elem i ≤ 1)
    (ds : List (NArr ℝ [5] × Bool)) (hx : ∀ d ∈ ds, ∀ i, 0 ≤ d.1.elem i ∧ d.1.elem i ≤ 1) :
    ∃ s', logisticRun 0.0005 tw (logisticInit 5) ds = .ok s' ∧
      s'.w.elem = ascents 0.0005 (fun _ => 0) (ds.map fun d => (d.1.elem, d.2)) ∧
      offline tw.elem (ds.map fun d => (d.1.elem, d.2)) -
        online 0.0005 (fun _ => 0) (ds.map fun d => (d.1.elem, d.2)) ≤ 5000 + ds.length / 800 := by
  obtain ⟨s', h, hw⟩ := C54_run 0.0005 tw ds (logisticInit 5)
  have h0 : (logisticInit (F := ℝ) 5).w.elem = fun _ => 0 := by
    funext i; exact NArr.row_mkRows _ i
  rw [h0] at hw
  refine ⟨s', h, hw, ?_⟩
  have hr := C54_regret 0.0005 (by norm_num) tw.elem (ds.map fun d => (d.1.elem, d.2)) (fun _ => 0)
  have hu : ∀ a : Fin 5 → ℝ, (∀ i, 0 ≤ a i ∧ a i ≤ 1) → ∑ i, a i * a i ≤ 5 := fun a ha => by
    calc ∑ i, a i * a i ≤ ∑ _i : Fin 5, (1 : ℝ) :=
          Finset.sum_le_sum fun i _ => by nlinarith [ha i]
      _ = 5 := by simp
  have hd : sqDist (fun _ => 0) tw.elem ≤ 5 := by
    refine le_trans (le_of_eq ?_) (hu _ ht)
    exact Finset.sum_congr rfl fun i _ => by ring
  have hp : 0 ≤ sqDist (ascents 0.0005 (fun _ => 0) (ds.map fun d => (d.1.elem, d.2))) tw.elem :=
    Finset.sum_nonneg fun i _ => sq_nonneg _
  have he : energy (ds.map fun d => (d.1.elem, d.2)) ≤ 5 * ds.length := by
    clear hr hp h hw s'
    induction ds with
    | nil => simp [energy]
    | cons d ds ih =>
      have h1 := ih fun d hd => hx d (List.mem_cons_of_mem _ hd)
      have h2 := hu _ (hx d List.mem_cons_self)
      simp only [List.map_cons, energy, List.length_cons, Nat.cast_add, Nat.cast_one]
      have h3 : prod' d.1.elem d.1.elem ≤ 5 := h2
      linarith
  norm_num at hr ⊢
  linarith

/-! ### Concrete cases -/

/-- One weight at zero, sample `1`, label true, rate `1`: the weight becomes one half. -/
example : ascent (N := 1) 1 (fun _ => 0) (fun _ => 1) true = fun _ => 1 / 2 := by
  funext k; simp [ascent, logistic, prod']; norm_num

/-- The same sample with label false moves the weight the other way. -/
example : ascent (N := 1) 1 (fun _ => 0) (fun _ => 1) false = fun _ => -1 / 2 := by
  funext k; simp [ascent, logistic, prod']; norm_num

/-- A label other than zero and one is not covered by `C54_gradient`, and `gen_bool` does panic for a
probability out of range. -/
example : genBool (2 : ℝ) true = .panic := by
  rw [genBool, if_neg]
  simp [ScalarFns.leb]

/-- Two contradicting labels for one sample: the regret against weight zero is bounded by the bound of
`C54_regret`, which is `2 η²` there. -/
example : 2 * (offline (N := 1) (fun _ => 0) [(fun _ => 1, true), (fun _ => 1, false)] -
    online (N := 1) 1 (fun _ => 0) [(fun _ => 1, true), (fun _ => 1, false)]) ≤ 2 := by
  have h := C54_regret (N := 1) 1 zero_le_one (fun _ => 0) [(fun _ => 1, true), (fun _ => 1, false)]
    (fun _ => 0)
  have hp : 0 ≤ sqDist (ascents (N := 1) 1 (fun _ => 0) [(fun _ => 1, true), (fun _ => 1, false)])
    (fun _ => 0) := Finset.sum_nonneg fun i _ => sq_nonneg _
  have he : energy (N := 1) [(fun _ => 1, true), (fun _ => 1, false)] = 2 := by
    simp [energy, prod']; norm_num
  have hz : sqDist (N := 1) (fun _ => 0) (fun _ => 0) = 0 := by simp [sqDist]
  rw [he, hz] at h
  linarith

/-- A run of the program: one sample of ones, label true. -/
example : ∃ s', logisticRun (0.0005 : ℝ) (NArr.full [5] 1) (logisticInit 5) [(NArr.full [5] 1, true)] =
    .ok s' := by
  have h1 : ∀ i, (NArr.full [5] (1 : ℝ)).elem i = 1 := fun i => NArr.row_mkRows _ i
  obtain ⟨s', h, -⟩ := C54_program (NArr.full [5] 1) (fun i => by simp [h1])
    [(NArr.full [5] 1, true)] (fun d hd i => by simp at hd; subst hd; simp [h1])
  exact ⟨s', h⟩

end Aegir.Examples
