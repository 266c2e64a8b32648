import Verif.Lemmas.Examples
import Verif.Spec.Learning
/-!
# C53: the linear regression example (`aegir/examples/linear.rs`) over exact reals

The specification (`Spec/Learning.lean`) is least mean squares on functions `Fin N → ℝ`; it mentions
no expression, buffer or context.
-/

namespace Aegir.Examples
open Aegir.Spec

variable {N : Nat}

/-- `adj` of the program is the expression that the model evaluates. -/
theorem C53_adjoint : (sse : Node ℝ).adjoint W = some sseAdj := rfl

/-- In every state `adj.evaluate` succeeds and returns the gradient of the squared error. -/
theorem C53_gradient (s : Data ℝ N) : ∃ g : NArr ℝ [N], ((sseImpl N).evaluate s.ctx).1 = .ok g ∧
    ∀ k, g.elem k = 2 * (inner' s.x.elem s.w.elem - s.y) * s.x.elem k :=
  sse_eval s

/-- One iteration never panics and performs one step of gradient descent. -/
theorem C53_step (η : ℝ) (tw : NArr ℝ [N]) (s : Data ℝ N) (x : NArr ℝ [N]) :
    ∃ s', linearStep η tw s x = .ok s' ∧ s'.x = x ∧ s'.y = inner' x.elem tw.elem ∧
      s'.w.elem = lmsStep η tw.elem s.w.elem x.elem := by
  obtain ⟨g, hg, h⟩ := C53_gradient ⟨x, label x tw, s.w⟩
  refine ⟨⟨x, label x tw, update (fun w g => w - η * g) s.w g⟩, ?_, rfl, label_eq x tw, ?_⟩
  · simp only [linearStep]
    rw [hg]
    rfl
  · funext k
    rw [update_elem, h]
    simp only [label_eq, lmsStep, err, inner']

/-- The whole run, for any number of iterations and any samples, never panics and ends with the
weights of gradient descent. -/
theorem C53_run (η : ℝ) (tw : NArr ℝ [N]) (xs : List (NArr ℝ [N])) (s : Data ℝ N) :
    ∃ s', linearRun η tw s xs = .ok s' ∧
      s'.w.elem = lms η tw.elem s.w.elem (xs.map NArr.elem) := by
  induction xs generalizing s with
  | nil => exact ⟨s, rfl, rfl⟩
  | cons x xs ih =>
    obtain ⟨s1, h1, -, -, hw⟩ := C53_step η tw s x
    obtain ⟨s2, h2, hw2⟩ := ih s1
    refine ⟨s2, by rw [linearRun, h1]; exact h2, ?_⟩
    rw [hw2, hw]
    rfl

/-- What a step does to the distance from the true weights, exactly. -/
theorem C53_distance (η : ℝ) (tw w x : Fin N → ℝ) :
    dist2 (lmsStep η tw w x) tw =
      dist2 w tw - 4 * η * (1 - η * inner' x x) * err tw w x ^ 2 := by
  have he : err tw w x = ∑ i, x i * (w i - tw i) := by
    simp only [err, inner', ← Finset.sum_sub_distrib, mul_sub]
  have h1 : dist2 (lmsStep η tw w x) tw =
      ∑ i, ((w i - tw i) ^ 2 - 4 * η * err tw w x * (x i * (w i - tw i)) +
        4 * η ^ 2 * err tw w x ^ 2 * (x i * x i)) :=
    Finset.sum_congr rfl fun i _ => by simp only [lmsStep]; ring
  rw [h1, Finset.sum_add_distrib, Finset.sum_sub_distrib, ← Finset.mul_sum, ← Finset.mul_sum, ← he]
  simp only [dist2, inner']
  ring

/-- The total squared error is bounded by the initial distance, however many samples there are, as
long as `η |x|² ≤ r` for all of them. -/
theorem C53_loss (η r : ℝ) (hη : 0 ≤ η) (tw : Fin N → ℝ) (xs : List (Fin N → ℝ))
    (hx : ∀ x ∈ xs, η * inner' x x ≤ r) (w : Fin N → ℝ) :
    dist2 (lms η tw w xs) tw + 4 * η * (1 - r) * loss η tw w xs ≤ dist2 w tw := by
  induction xs generalizing w with
  | nil => simp [lms, loss]
  | cons x xs ih =>
    have h := ih (fun y hy => hx y (List.mem_cons_of_mem _ hy)) (lmsStep η tw w x)
    have hr := hx x List.mem_cons_self
    have hd := C53_distance η tw w x
    have hm : 4 * η * (1 - r) * err tw w x ^ 2 ≤ 4 * η * (1 - η * inner' x x) * err tw w x ^ 2 := by
      gcongr
    simp only [lms, loss]
    linarith

/-- The program as written: thirty weights, rate `0.01`, weights starting at zero, samples and true
weights in the unit interval. It terminates without panic, never further from the true weights than
it began, and its squared errors add up to at most `30 / 0.028`, for any number of iterations. -/
theorem C53_program (tw : NArr ℝ [30]) (ht : ∀ i, 0 ≤ tw.elem i ∧ tw.elem i ≤ 1)
    (xs : List (NArr ℝ [30])) (hx : ∀ x ∈ xs, ∀ i, 0 ≤ x.elem i ∧ x.elem i ≤ 1) :
    ∃ s', linearRun (1 / 100) tw (linearInit 30) xs = .ok s' ∧
      dist2 s'.w.elem tw.elem ≤ dist2 (fun _ => 0) tw.elem ∧
      loss (1 / 100) tw.elem (fun _ => 0) (xs.map NArr.elem) ≤ 30 / 0.028 := by
  obtain ⟨s', h, hw⟩ := C53_run (1 / 100) tw xs (linearInit 30)
  have h0 : (linearInit (F := ℝ) 30).w.elem = fun _ => 0 := by
    funext i; exact NArr.row_mkRows _ i
  have hu : ∀ a : Fin 30 → ℝ, (∀ i, 0 ≤ a i ∧ a i ≤ 1) → ∑ i, a i ^ 2 ≤ 30 := fun a ha => by
    calc ∑ i, a i ^ 2 ≤ ∑ _i : Fin 30, (1 : ℝ) :=
          Finset.sum_le_sum fun i _ => pow_le_one₀ (ha i).1 (ha i).2
      _ = 30 := by simp
  have hl := C53_loss (1 / 100) (3 / 10) (by norm_num) tw.elem (xs.map NArr.elem) (fun x hxm => by
    obtain ⟨y, hy, rfl⟩ := List.mem_map.1 hxm
    have := hu _ (hx y hy)
    simp only [inner', ← pow_two]
    linarith) (fun _ => 0)
  have hpos : 0 ≤ loss (1 / 100) tw.elem (fun _ => 0) (xs.map NArr.elem) := by
    generalize (fun _ => 0 : Fin 30 → ℝ) = w
    generalize xs.map NArr.elem = ys
    induction ys generalizing w with
    | nil => exact le_rfl
    | cons y ys ih => exact add_nonneg (sq_nonneg _) (ih _)
  have hd : dist2 (fun _ => 0) tw.elem ≤ 30 := by simpa [dist2] using hu _ ht
  have hn : 0 ≤ dist2 (lms (1 / 100) tw.elem (fun _ => 0) (xs.map NArr.elem)) tw.elem :=
    Finset.sum_nonneg fun i _ => sq_nonneg _
  refine ⟨s', h, ?_, ?_⟩
  · rw [hw, h0]; linarith
  · rw [le_div_iff₀ (by norm_num)]; linarith

/-! ### Concrete cases -/

/-- Samples of ones and true weights of one half meet the hypotheses of `C53_program`. -/
example : (∀ i, 0 ≤ (NArr.ofElems fun _ : Fin 30 => (1 / 2 : ℝ)).elem i ∧
      (NArr.ofElems fun _ : Fin 30 => (1 / 2 : ℝ)).elem i ≤ 1) ∧
    ∀ x ∈ [NArr.ofElems fun _ : Fin 30 => (1 : ℝ)], ∀ i, 0 ≤ x.elem i ∧ x.elem i ≤ 1 := by
  have h (a : ℝ) (i : Fin 30) : (NArr.ofElems fun _ => a).elem i = a := NArr.row_mkRows (ds := []) _ i
  refine ⟨fun i => by rw [h]; norm_num, fun x hx i => ?_⟩
  rw [List.mem_singleton.1 hx, h]
  norm_num

/-- One weight: from `0` towards `1` with the sample `1` and rate `1/4`, half of the way. -/
example : lms (N := 1) (1 / 4) (fun _ => 1) (fun _ => 0) [fun _ => 1] = fun _ => 1 / 2 := by
  funext k; simp [lms, lmsStep, err, inner']; norm_num

/-- The bound on the rate matters: with `η |x|² = 2` the distance grows. -/
example : dist2 (N := 1) (lms 2 (fun _ => 1) (fun _ => 0) [fun _ => 1]) (fun _ => 1) = 9 ∧
    dist2 (N := 1) (fun _ => 0) (fun _ => 1) = 1 := by
  constructor <;> simp [lms, lmsStep, err, inner', dist2]; norm_num

end Aegir.Examples
