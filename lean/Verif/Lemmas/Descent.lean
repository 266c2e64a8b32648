import Mathlib.Analysis.Calculus.MeanValue
import Mathlib.Analysis.Calculus.Deriv.MeanValue
import Mathlib.Analysis.Calculus.Deriv.Pow
import Mathlib.Analysis.Convex.Deriv
import Mathlib.Algebra.Order.Chebyshev
/-!
# Gradient descent on functions of finitely many numbers
-/

namespace Aegir.Descent

variable {ι : Type} [Fintype ι] {f : (ι → ℝ) → ℝ} {g : (ι → ℝ) → ι → ℝ} {L η : ℝ}

/-- A function whose gradient is Lipschitz lies below a parabola through each of its points. -/
theorem parabola (hL : 0 ≤ L)
    (hd : ∀ x y : ι → ℝ, ∀ s : ℝ, HasDerivAt (fun t => f fun p => x p + t * (y p - x p))
      (∑ p, g (fun p => x p + s * (y p - x p)) p * (y p - x p)) s)
    (hl : ∀ x y : ι → ℝ, ∑ p, (g x p - g y p) ^ 2 ≤ L ^ 2 * ∑ p, (x p - y p) ^ 2) (x y : ι → ℝ) :
    f y ≤ f x + ∑ p, g x p * (y p - x p) + L / 2 * ∑ p, (y p - x p) ^ 2 := by
  set D := ∑ p, (y p - x p) ^ 2 with hD
  have hD0 : 0 ≤ D := Finset.sum_nonneg fun p _ => sq_nonneg _
  set φ : ℝ → ℝ := fun t => f (fun p => x p + t * (y p - x p)) - t * (∑ p, g x p * (y p - x p)) -
    L / 2 * t ^ 2 * D with hφ
  have hφd : ∀ s, HasDerivAt φ (∑ p, g (fun p => x p + s * (y p - x p)) p * (y p - x p) -
      (∑ p, g x p * (y p - x p)) - L * s * D) s := fun s => by
    have h1 := (hd x y s).sub ((hasDerivAt_id s).mul_const (∑ p, g x p * (y p - x p)))
    have h2 := ((hasDerivAt_pow 2 s).const_mul (L / 2)).mul_const D
    have := h1.sub h2
    refine this.congr_deriv ?_
    push_cast
    ring
  have hanti : AntitoneOn φ (Set.Ici 0) := by
    refine antitoneOn_of_deriv_nonpos (convex_Ici 0) (fun s _ => (hφd s).continuousAt.continuousWithinAt)
      (fun s _ => (hφd s).differentiableAt.differentiableWithinAt) fun s hs => ?_
    rw [interior_Ici, Set.mem_Ioi] at hs
    rw [(hφd s).deriv, ← Finset.sum_sub_distrib]
    have cs := Finset.sum_mul_sq_le_sq_mul_sq Finset.univ
      (fun p => g (fun p => x p + s * (y p - x p)) p - g x p) (fun p => y p - x p)
    have hl' := hl (fun p => x p + s * (y p - x p)) x
    have e1 : ∑ p, (x p + s * (y p - x p) - x p) ^ 2 = s ^ 2 * D := by
      rw [hD, Finset.mul_sum]
      exact Finset.sum_congr rfl fun p _ => by ring
    rw [e1] at hl'
    have e2 : ∑ p, (g (fun p => x p + s * (y p - x p)) p * (y p - x p) - g x p * (y p - x p)) =
        ∑ p, (g (fun p => x p + s * (y p - x p)) p - g x p) * (y p - x p) :=
      Finset.sum_congr rfl fun p _ => by ring
    rw [e2]
    have h3 : (∑ p, (g (fun p => x p + s * (y p - x p)) p - g x p) * (y p - x p)) ^ 2 ≤ (L * s * D) ^ 2 :=
      cs.trans (le_of_le_of_eq (mul_le_mul_of_nonneg_right hl' hD0) (by ring))
    have := abs_le_of_sq_le_sq h3 (by positivity)
    linarith [le_abs_self (∑ p, (g (fun p => x p + s * (y p - x p)) p - g x p) * (y p - x p))]
  have := hanti (Set.mem_Ici.2 le_rfl) (Set.mem_Ici.2 zero_le_one) zero_le_one
  simp only [hφ] at this
  simp only [zero_mul, add_zero, one_mul, add_sub_cancel, ne_eq, OfNat.ofNat_ne_zero, not_false_eq_true, zero_pow,
    mul_zero, sub_zero, one_pow, mul_one] at this
  linarith

/-- A step of gradient descent decreases the function. -/
theorem step (hη : 0 < η) (hηL : η * L ≤ 1)
    (hp : ∀ x y : ι → ℝ, f y ≤ f x + ∑ p, g x p * (y p - x p) + L / 2 * ∑ p, (y p - x p) ^ 2) (x : ι → ℝ) :
    f (fun p => x p - η * g x p) ≤ f x - η / 2 * ∑ p, g x p ^ 2 := by
  have h := hp x fun p => x p - η * g x p
  have e1 : ∑ p, g x p * (x p - η * g x p - x p) = -η * ∑ p, g x p ^ 2 := by
    rw [Finset.mul_sum]
    exact Finset.sum_congr rfl fun p _ => by ring
  have e2 : ∑ p, (x p - η * g x p - x p) ^ 2 = η ^ 2 * ∑ p, g x p ^ 2 := by
    rw [Finset.mul_sum]
    exact Finset.sum_congr rfl fun p _ => by ring
  rw [e1, e2] at h
  have hG : 0 ≤ ∑ p, g x p ^ 2 := Finset.sum_nonneg fun p _ => sq_nonneg _
  have : L / 2 * (η ^ 2 * ∑ p, g x p ^ 2) ≤ η / 2 * ∑ p, g x p ^ 2 := by
    have : L / 2 * (η ^ 2 * ∑ p, g x p ^ 2) = (η * L) * (η / 2 * ∑ p, g x p ^ 2) := by ring
    rw [this]
    exact mul_le_of_le_one_left (by positivity) hηL
  linarith

/-- Gradient descent on a convex function. -/
theorem rate (hη : 0 < η) (hηL : η * L ≤ 1)
    (hp : ∀ x y : ι → ℝ, f y ≤ f x + ∑ p, g x p * (y p - x p) + L / 2 * ∑ p, (y p - x p) ^ 2)
    (ht : ∀ x y : ι → ℝ, f x + ∑ p, g x p * (y p - x p) ≤ f y) {x : ℕ → ι → ℝ}
    (hx : ∀ n p, x (n + 1) p = x n p - η * g (x n) p) (z : ι → ℝ) (n : ℕ) :
    2 * η * n * (f (x n) - f z) + ∑ p, (x n p - z p) ^ 2 ≤ ∑ p, (x 0 p - z p) ^ 2 := by
  induction n with
  | zero => simp
  | succ n ih =>
    have hxn : x (n + 1) = fun p => x n p - η * g (x n) p := funext (hx n)
    have hs := step hη hηL hp (x n)
    rw [← hxn] at hs
    have ht' := ht (x n) z
    have e : ∑ p, (x (n + 1) p - z p) ^ 2 = ∑ p, (x n p - z p) ^ 2 + 2 * η * ∑ p, g (x n) p * (z p - x n p) +
        η ^ 2 * ∑ p, g (x n) p ^ 2 := by
      rw [Finset.mul_sum, Finset.mul_sum, ← Finset.sum_add_distrib, ← Finset.sum_add_distrib]
      exact Finset.sum_congr rfl fun p _ => by rw [hx]; ring
    have hG : 0 ≤ ∑ p, g (x n) p ^ 2 := Finset.sum_nonneg fun p _ => sq_nonneg _
    have hmono : f (x (n + 1)) ≤ f (x n) := by
      have : 0 ≤ η / 2 * ∑ p, g (x n) p ^ 2 := by positivity
      linarith
    rw [e]
    push_cast
    have h1 : 2 * η * (f (x (n + 1)) - f z) + 2 * η * ∑ p, g (x n) p * (z p - x n p) +
        η ^ 2 * ∑ p, g (x n) p ^ 2 ≤ 0 := by
      have h3 := mul_le_mul_of_nonneg_left hs (by positivity : (0 : ℝ) ≤ 2 * η)
      have h4 := mul_le_mul_of_nonneg_left ht' (by positivity : (0 : ℝ) ≤ 2 * η)
      nlinarith
    have h2 : 2 * η * n * (f (x (n + 1)) - f z) ≤ 2 * η * n * (f (x n) - f z) :=
      mul_le_mul_of_nonneg_left (by linarith) (by positivity)
    nlinarith

/-- The squares of the gradients add up to no more than the decrease. -/
theorem gradients (hη : 0 < η) (hηL : η * L ≤ 1)
    (hp : ∀ x y : ι → ℝ, f y ≤ f x + ∑ p, g x p * (y p - x p) + L / 2 * ∑ p, (y p - x p) ^ 2) {x : ℕ → ι → ℝ}
    (hx : ∀ n p, x (n + 1) p = x n p - η * g (x n) p) (n : ℕ) :
    η / 2 * ∑ k ∈ Finset.range n, ∑ p, g (x k) p ^ 2 ≤ f (x 0) - f (x n) := by
  induction n with
  | zero => simp
  | succ n ih =>
    have hxn : x (n + 1) = fun p => x n p - η * g (x n) p := funext (hx n)
    have hs := step hη hηL hp (x n)
    rw [← hxn] at hs
    rw [Finset.sum_range_succ]
    linarith

/-- A convex function lies above its tangents. -/
theorem tangent (hd : ∀ x y : ι → ℝ, ∀ s : ℝ, HasDerivAt (fun t => f fun p => x p + t * (y p - x p))
      (∑ p, g (fun p => x p + s * (y p - x p)) p * (y p - x p)) s)
    (hc : ∀ x y : ι → ℝ, ∀ a b : ℝ, 0 ≤ a → 0 ≤ b → a + b = 1 →
      f (fun p => a * x p + b * y p) ≤ a * f x + b * f y) (x y : ι → ℝ) :
    f x + ∑ p, g x p * (y p - x p) ≤ f y := by
  have hcv : ConvexOn ℝ Set.univ fun t : ℝ => f fun p => x p + t * (y p - x p) :=
    ⟨convex_univ, fun s _ t _ a b h1 h2 h3 => by
      have := hc (fun p => x p + s * (y p - x p)) (fun p => x p + t * (y p - x p)) a b h1 h2 h3
      have e : (fun p => x p + (a • s + b • t) * (y p - x p)) =
          fun p => a * (x p + s * (y p - x p)) + b * (x p + t * (y p - x p)) := by
        funext p
        have : b = 1 - a := by linarith
        subst this
        simp only [smul_eq_mul]
        ring
      simp only [e]
      exact this⟩
  have := hcv.le_slope_of_hasDerivAt (Set.mem_univ 0) (Set.mem_univ 1) one_pos (hd x y 0)
  rw [slope_def_field] at this
  simp only [zero_mul, add_zero, one_mul, add_sub_cancel, sub_zero, div_one] at this
  linarith

/-- A sum of functions of inner products has a Lipschitz gradient. -/
theorem ridge {J : Type} [Fintype J] {K : ℝ} (hK : 0 ≤ K) (a : J → ι → ℝ) (φ : J → ℝ → ℝ)
    (hφ : ∀ j s t, |φ j s - φ j t| ≤ K * |s - t|) (x y : ι → ℝ) :
    ∑ p, (∑ j, φ j (∑ q, a j q * x q) * a j p - ∑ j, φ j (∑ q, a j q * y q) * a j p) ^ 2 ≤
      (K * ∑ j, ∑ q, a j q ^ 2) ^ 2 * ∑ p, (x p - y p) ^ 2 := by
  set u : J → ℝ := fun j => φ j (∑ q, a j q * x q) - φ j (∑ q, a j q * y q) with hu
  have eD : ∀ p, ∑ j, φ j (∑ q, a j q * x q) * a j p - ∑ j, φ j (∑ q, a j q * y q) * a j p =
      ∑ j, u j * a j p := fun p => by
    rw [← Finset.sum_sub_distrib]
    exact Finset.sum_congr rfl fun j _ => by simp only [hu]; ring
  simp only [eD]
  set D : ι → ℝ := fun p => ∑ j, u j * a j p with hD
  set d := Real.sqrt (∑ p, D p ^ 2) with hd
  set e := Real.sqrt (∑ p, (x p - y p) ^ 2) with he
  have hd2 : d ^ 2 = ∑ p, D p ^ 2 := Real.sq_sqrt (Finset.sum_nonneg fun p _ => sq_nonneg _)
  have he2 : e ^ 2 = ∑ p, (x p - y p) ^ 2 := Real.sq_sqrt (Finset.sum_nonneg fun p _ => sq_nonneg _)
  have hd0 : 0 ≤ d := Real.sqrt_nonneg _
  have he0 : 0 ≤ e := Real.sqrt_nonneg _
  have cs : ∀ (b : ι → ℝ) (j : J), |∑ q, a j q * b q| ≤
      Real.sqrt (∑ q, a j q ^ 2) * Real.sqrt (∑ q, b q ^ 2) := fun b j => by
    rw [← Real.sqrt_mul (Finset.sum_nonneg fun p _ => sq_nonneg _)]
    exact Real.abs_le_sqrt (Finset.sum_mul_sq_le_sq_mul_sq Finset.univ (a j) b)
  have hsum : d ^ 2 ≤ K * (∑ j, ∑ q, a j q ^ 2) * e * d := by
    have e1 : d ^ 2 = ∑ j, u j * ∑ p, a j p * D p := by
      rw [hd2]
      have : ∀ p, D p ^ 2 = ∑ j, u j * (a j p * D p) := fun p => by
        rw [sq]
        nth_rewrite 1 [hD]
        rw [Finset.sum_mul]
        exact Finset.sum_congr rfl fun j _ => by ring
      simp only [this, Finset.mul_sum]
      exact Finset.sum_comm
    rw [e1]
    have e2 : K * (∑ j, ∑ q, a j q ^ 2) * e * d = ∑ j, K * (∑ q, a j q ^ 2) * e * d := by
      rw [Finset.mul_sum, Finset.sum_mul, Finset.sum_mul]
    rw [e2]
    refine Finset.sum_le_sum fun j _ => ?_
    have hn : 0 ≤ ∑ q, a j q ^ 2 := Finset.sum_nonneg fun p _ => sq_nonneg _
    have h1 : |u j| ≤ K * (Real.sqrt (∑ q, a j q ^ 2) * e) := by
      refine (hφ j _ _).trans (mul_le_mul_of_nonneg_left ?_ hK)
      have := cs (fun q => x q - y q) j
      rw [← he] at this
      rw [← Finset.sum_sub_distrib]
      simpa only [mul_sub] using this
    have h2 := cs D j
    rw [← hd] at h2
    calc u j * ∑ p, a j p * D p ≤ |u j * ∑ p, a j p * D p| := le_abs_self _
      _ = |u j| * |∑ p, a j p * D p| := abs_mul _ _
      _ ≤ K * (Real.sqrt (∑ q, a j q ^ 2) * e) * (Real.sqrt (∑ q, a j q ^ 2) * d) :=
        mul_le_mul h1 h2 (abs_nonneg _) (by positivity)
      _ = K * (Real.sqrt (∑ q, a j q ^ 2)) ^ 2 * e * d := by ring
      _ = K * (∑ q, a j q ^ 2) * e * d := by rw [Real.sq_sqrt hn]
  have hle : d ≤ K * (∑ j, ∑ q, a j q ^ 2) * e := by
    rcases hd0.eq_or_lt with h | h
    · rw [← h]
      have : 0 ≤ ∑ j, ∑ q, a j q ^ 2 :=
        Finset.sum_nonneg fun j _ => Finset.sum_nonneg fun p _ => sq_nonneg _
      positivity
    · rw [sq] at hsum
      exact le_of_mul_le_mul_right hsum h
  rw [← hd2, ← he2, ← mul_pow]
  exact pow_le_pow_left₀ hd0 hle 2

/-- A function with increasing derivative lies above its tangents. -/
theorem tangent_of_mono {ψ φ : ℝ → ℝ} (hd : ∀ s, HasDerivAt ψ (φ s) s) (hm : Monotone φ) (s t : ℝ) :
    ψ s + φ s * (t - s) ≤ ψ t := by
  have hc : ConvexOn ℝ Set.univ ψ := by
    refine MonotoneOn.convexOn_of_deriv convex_univ (fun x _ => (hd x).continuousAt.continuousWithinAt)
      (fun x _ => (hd x).differentiableAt.differentiableWithinAt) fun x _ y _ hxy => ?_
    rw [(hd x).deriv, (hd y).deriv]
    exact hm hxy
  rcases lt_trichotomy s t with h | h | h
  · have := hc.le_slope_of_hasDerivAt (Set.mem_univ s) (Set.mem_univ t) h (hd s)
    rw [slope_def_field, le_div_iff₀ (sub_pos.2 h)] at this
    linarith
  · subst h
    simp
  · have := hc.slope_le_of_hasDerivAt (Set.mem_univ t) (Set.mem_univ s) h (hd s)
    rw [slope_def_field, div_le_iff₀ (sub_pos.2 h)] at this
    linarith

/-- Gradient descent on a sum of convex functions of inner products. -/
theorem ridge_rate {J : Type} [Fintype J] {K η : ℝ} (hK : 0 ≤ K) (hη : 0 < η) (a : J → ι → ℝ) {ψ φ : J → ℝ → ℝ}
    (hd : ∀ j s, HasDerivAt (ψ j) (φ j s) s) (hm : ∀ j, Monotone (φ j))
    (hφ : ∀ j s t, |φ j s - φ j t| ≤ K * |s - t|) (hηL : η * (K * ∑ j, ∑ q, a j q ^ 2) ≤ 1)
    {w : ℕ → ι → ℝ} (hw : ∀ n p, w (n + 1) p = w n p - η * ∑ j, φ j (∑ q, a j q * w n q) * a j p)
    (z : ι → ℝ) {n : ℕ} (hn : 0 < n) :
    ∑ j, ψ j (∑ q, a j q * w n q) ≤
      ∑ j, ψ j (∑ q, a j q * z q) + (∑ p, (w 0 p - z p) ^ 2) / (2 * η * n) := by
  set f : (ι → ℝ) → ℝ := fun w => ∑ j, ψ j (∑ q, a j q * w q) with hf
  set g : (ι → ℝ) → ι → ℝ := fun w p => ∑ j, φ j (∑ q, a j q * w q) * a j p with hg
  have hA : 0 ≤ ∑ j, ∑ q, a j q ^ 2 := Finset.sum_nonneg fun _ _ => Finset.sum_nonneg fun _ _ => sq_nonneg _
  have inner : ∀ x y : ι → ℝ, ∑ p, g x p * (y p - x p) =
      ∑ j, φ j (∑ q, a j q * x q) * (∑ q, a j q * y q - ∑ q, a j q * x q) := fun x y => by
    simp only [hg, Finset.sum_mul, ← Finset.sum_sub_distrib, Finset.mul_sum]
    rw [Finset.sum_comm]
    refine Finset.sum_congr rfl fun j _ => Finset.sum_congr rfl fun p _ => by ring
  have hline : ∀ x y : ι → ℝ, ∀ s : ℝ, HasDerivAt (fun t => f fun p => x p + t * (y p - x p))
      (∑ p, g (fun p => x p + s * (y p - x p)) p * (y p - x p)) s := fun x y s => by
    have h1 : ∀ j, HasDerivAt (fun t : ℝ => ∑ q, a j q * (x q + t * (y q - x q))) (∑ q, a j q * (y q - x q)) s :=
      fun j => by
        refine HasDerivAt.fun_sum fun q _ => ?_
        have := (((hasDerivAt_id s).mul_const (y q - x q)).const_add (x q)).const_mul (a j q)
        simpa using this
    have h2 := HasDerivAt.fun_sum (u := Finset.univ) fun j _ => (hd j _).comp s (h1 j)
    refine h2.congr_deriv ?_
    simp only [hg, Finset.sum_mul, Finset.mul_sum]
    rw [Finset.sum_comm]
    exact Finset.sum_congr rfl fun p _ => Finset.sum_congr rfl fun j _ => by ring
  have hp := parabola (L := K * ∑ j, ∑ q, a j q ^ 2) (mul_nonneg hK hA) hline (ridge hK a φ hφ)
  have ht : ∀ x y : ι → ℝ, f x + ∑ p, g x p * (y p - x p) ≤ f y := fun x y => by
    rw [inner]
    simp only [hf, ← Finset.sum_add_distrib]
    exact Finset.sum_le_sum fun j _ => tangent_of_mono (hd j) (hm j) _ _
  have h := rate hη hηL hp ht hw z n
  have hx0 : 0 ≤ ∑ p, (w n p - z p) ^ 2 := Finset.sum_nonneg fun _ _ => sq_nonneg _
  have hn' : (0 : ℝ) < n := by exact_mod_cast hn
  rw [← sub_le_iff_le_add', le_div_iff₀ (by positivity)]
  linarith

end Aegir.Descent
