import Verif.Props.C53_LinearExample
import Mathlib.Analysis.SpecialFunctions.Pow.Real
import Mathlib.Topology.MetricSpace.ProperSpace.Real
import Mathlib.Analysis.Normed.Module.FiniteDimension

/-!
# Gradient descent along samples that see every direction
-/

namespace Aegir.Examples

variable {N : Nat}

/-- Sum of the squared errors of the weights `w` over all samples. -/
def sumErr2 (tw w : Fin N → ℝ) (xs : List (Fin N → ℝ)) : ℝ := (xs.map fun x => err tw w x ^ 2).sum

theorem sumErr2_nonneg (tw w : Fin N → ℝ) (xs : List (Fin N → ℝ)) : 0 ≤ sumErr2 tw w xs :=
  List.sum_nonneg fun _ hm => by
    obtain ⟨_, -, rfl⟩ := List.mem_map.1 hm
    exact sq_nonneg _

theorem err_eq (tw w x : Fin N → ℝ) : err tw w x = inner' x (fun i => w i - tw i) := by
  simp only [err, inner', ← Finset.sum_sub_distrib, mul_sub]

theorem dist2_eq (w tw : Fin N → ℝ) : dist2 w tw = inner' (fun i => w i - tw i) (fun i => w i - tw i) := by
  simp only [dist2, inner', pow_two]

theorem dist2_nonneg (w tw : Fin N → ℝ) : 0 ≤ dist2 w tw := Finset.sum_nonneg fun _ _ => sq_nonneg _

theorem inner_sq_le (x y : Fin N → ℝ) : inner' x y ^ 2 ≤ inner' x x * inner' y y := by
  simp only [inner', ← pow_two]
  exact Finset.sum_mul_sq_le_sq_mul_sq _ _ _

theorem inner_self_nonneg' (x : Fin N → ℝ) : 0 ≤ inner' x x :=
  Finset.sum_nonneg fun _ _ => mul_self_nonneg _

theorem loss_nonneg (η : ℝ) (tw w : Fin N → ℝ) (xs : List (Fin N → ℝ)) : 0 ≤ loss η tw w xs := by
  induction xs generalizing w with
  | nil => exact le_rfl
  | cons y ys ih => exact add_nonneg (sq_nonneg _) (ih _)

/-- The error on `y` before and after a step on `x`. -/
theorem err_step (η : ℝ) (tw w x y : Fin N → ℝ) :
    err tw w y = err tw (lmsStep η tw w x) y + 2 * η * err tw w x * inner' y x := by
  have : inner' y (lmsStep η tw w x) = inner' y w - 2 * η * err tw w x * inner' y x := by
    simp only [inner', lmsStep]
    rw [Finset.mul_sum, ← Finset.sum_sub_distrib]
    exact Finset.sum_congr rfl fun i _ => by ring
  simp only [err] at this ⊢
  linarith

theorem mink2 (a b c d : ℝ) : √((a + b) ^ 2 + (c + d) ^ 2) ≤ √(a ^ 2 + c ^ 2) + √(b ^ 2 + d ^ 2) := by
  rw [Real.sqrt_le_left (by positivity)]
  have h1 := Real.sq_sqrt (show 0 ≤ a ^ 2 + c ^ 2 by positivity)
  have h2 := Real.sq_sqrt (show 0 ≤ b ^ 2 + d ^ 2 by positivity)
  have h3 : a * b + c * d ≤ √(a ^ 2 + c ^ 2) * √(b ^ 2 + d ^ 2) := by
    rw [← Real.sqrt_mul (by positivity)]
    exact Real.le_sqrt_of_sq_le (by nlinarith [sq_nonneg (a * d - b * c)])
  nlinarith

theorem mink_list {α : Type} (l : List α) (f g : α → ℝ) :
    √((l.map fun x => (f x + g x) ^ 2).sum) ≤
      √((l.map fun x => f x ^ 2).sum) + √((l.map fun x => g x ^ 2).sum) := by
  induction l with
  | nil => simp
  | cons x l ih =>
    have hn (h : α → ℝ) : 0 ≤ (l.map fun x => h x ^ 2).sum :=
      List.sum_nonneg fun _ hm => by
        obtain ⟨_, -, rfl⟩ := List.mem_map.1 hm
        exact sq_nonneg _
    simp only [List.map_cons, List.sum_cons]
    have := mink2 (f x) (g x) √((l.map fun x => f x ^ 2).sum) √((l.map fun x => g x ^ 2).sum)
    rw [Real.sq_sqrt (hn f), Real.sq_sqrt (hn g)] at this
    refine le_trans (Real.sqrt_le_sqrt ?_) this
    have h2 := pow_le_pow_left₀ (Real.sqrt_nonneg _) ih 2
    rw [Real.sq_sqrt (hn fun x => f x + g x)] at h2
    linarith

/-- The errors that the first weights make on all samples are controlled by the errors made along the
way. -/
theorem sumErr_le {η r : ℝ} (hη : 0 ≤ η) (hr : 0 ≤ r) (tw : Fin N → ℝ) (xs : List (Fin N → ℝ))
    (hx : ∀ x ∈ xs, η * inner' x x ≤ r) (w : Fin N → ℝ) :
    √(sumErr2 tw w xs) ≤ (1 + r * xs.length ^ 2) * √(loss η tw w xs) := by
  induction xs generalizing w with
  | nil => simp [sumErr2, loss]
  | cons x xs ih =>
    set w' := lmsStep η tw w x with hw'
    have h := ih (fun y hy => hx y (List.mem_cons_of_mem _ hy)) w'
    set ε := err tw w x with hε
    set L : ℝ := (xs.length : ℝ) with hL
    have hL0 : 0 ≤ L := Nat.cast_nonneg _
    have hLs : √L ≤ L := by
      rcases Nat.eq_zero_or_pos xs.length with h0 | h0
      · rw [hL, h0]; simp
      · have : (1 : ℝ) ≤ L := by rw [hL]; exact_mod_cast h0
        exact Real.sqrt_le_iff.2 ⟨hL0, by nlinarith⟩
    -- the other samples
    have hrest : √(sumErr2 tw w xs) ≤ (1 + r * L ^ 2) * √(loss η tw w' xs) + 2 * r * |ε| * L := by
      have h1 := mink_list xs (err tw w') fun y => 2 * η * ε * inner' y x
      have h2 : √((xs.map fun y => (2 * η * ε * inner' y x) ^ 2).sum) ≤ 2 * r * |ε| * L := by
        have : (xs.map fun y => (2 * η * ε * inner' y x) ^ 2).sum ≤ L * (2 * r * |ε|) ^ 2 := by
          rw [hL, ← nsmul_eq_mul, ← List.length_map (as := xs)
            (fun y => (2 * η * ε * inner' y x) ^ 2)]
          refine List.sum_le_card_nsmul _ _ fun z hz => ?_
          obtain ⟨y, hy, rfl⟩ := List.mem_map.1 hz
          have hyy := hx y (List.mem_cons_of_mem _ hy)
          have hxx := hx x List.mem_cons_self
          have hm : (η * inner' y y) * (η * inner' x x) ≤ r * r :=
            mul_le_mul hyy hxx (mul_nonneg hη (inner_self_nonneg' _)) hr
          have hc := inner_sq_le y x
          rw [mul_pow (2 * r), sq_abs]
          have : (η * inner' y x) ^ 2 ≤ r * r := by
            refine le_trans ?_ hm
            calc (η * inner' y x) ^ 2 = η ^ 2 * inner' y x ^ 2 := by ring
              _ ≤ η ^ 2 * (inner' y y * inner' x x) := by gcongr
              _ = _ := by ring
          calc (2 * η * ε * inner' y x) ^ 2 = 4 * ε ^ 2 * (η * inner' y x) ^ 2 := by ring
            _ ≤ 4 * ε ^ 2 * (r * r) := by gcongr
            _ = _ := by ring
        refine le_trans (Real.sqrt_le_sqrt this) ?_
        rw [Real.sqrt_mul hL0, Real.sqrt_sq (by positivity)]
        have : 0 ≤ 2 * r * |ε| := by positivity
        nlinarith
      have h3 : (fun y => (err tw w' y + 2 * η * ε * inner' y x) ^ 2) = fun y => err tw w y ^ 2 := by
        funext y
        rw [err_step η tw w x y]
      rw [h3] at h1
      exact le_trans h1 (add_le_add h h2)
    set s := √(loss η tw w' xs) with hs
    have hs2 : s ^ 2 = loss η tw w' xs := Real.sq_sqrt (loss_nonneg _ _ _ _)
    have hs0 : 0 ≤ s := Real.sqrt_nonneg _
    have hsum : sumErr2 tw w (x :: xs) = ε ^ 2 + √(sumErr2 tw w xs) ^ 2 := by
      rw [Real.sq_sqrt (sumErr2_nonneg _ _ _)]
      simp [sumErr2, hε]
    have hloss : loss η tw w (x :: xs) = ε ^ 2 + s ^ 2 := by rw [hs2]; rfl
    rw [hsum, hloss]
    have hk : 0 ≤ r * L ^ 2 := by positivity
    set R := √(ε ^ 2 + s ^ 2) with hR
    have hRε : |ε| ≤ R := Real.abs_le_sqrt (by nlinarith [sq_nonneg s])
    have h4 : √(ε ^ 2 + √(sumErr2 tw w xs) ^ 2) ≤ (1 + r * L ^ 2) * R + 2 * r * |ε| * L := by
      have hm := mink2 ε 0 ((1 + r * L ^ 2) * s) (2 * r * |ε| * L)
      refine le_trans (Real.sqrt_le_sqrt (?_ : _ ≤ (ε + 0) ^ 2 + ((1 + r * L ^ 2) * s + 2 * r * |ε| * L) ^ 2))
        (le_trans hm (add_le_add ?_ ?_))
      · have := pow_le_pow_left₀ (Real.sqrt_nonneg _) hrest 2
        rw [add_zero]
        linarith
      · have hR0 : 0 ≤ R := Real.sqrt_nonneg _
        have hR2 : R ^ 2 = ε ^ 2 + s ^ 2 := Real.sq_sqrt (by positivity)
        have : 1 ≤ (1 + r * L ^ 2) ^ 2 := one_le_pow₀ (by linarith)
        rw [Real.sqrt_le_left (by positivity), mul_pow, mul_pow, hR2]
        nlinarith [sq_nonneg ε]
      · rw [zero_pow two_ne_zero, zero_add, Real.sqrt_sq (by positivity)]
    refine le_trans h4 ?_
    have hcast : (((x :: xs).length : ℕ) : ℝ) = L + 1 := by simp [hL]
    rw [hcast]
    have : 2 * r * |ε| * L ≤ 2 * r * R * L := by gcongr
    have hR0 : 0 ≤ R := Real.sqrt_nonneg _
    nlinarith [mul_nonneg hr hR0]


theorem lms_append (η : ℝ) (tw w : Fin N → ℝ) (xs ys : List (Fin N → ℝ)) :
    lms η tw w (xs ++ ys) = lms η tw (lms η tw w xs) ys := by
  induction xs generalizing w with
  | nil => rfl
  | cons x xs ih => exact ih _

/-- A window of samples shrinks the distance. -/
theorem window {η r α : ℝ} (hη : 0 ≤ η) (hr : 0 ≤ r) (hr1 : r ≤ 1) (tw : Fin N → ℝ)
    (xs : List (Fin N → ℝ)) (hx : ∀ x ∈ xs, η * inner' x x ≤ r)
    (hα : ∀ v : Fin N → ℝ, α * inner' v v ≤ (xs.map fun x => inner' x v ^ 2).sum) (w : Fin N → ℝ) :
    dist2 (lms η tw w xs) tw ≤
      (1 - 4 * η * (1 - r) * α / (1 + r * xs.length ^ 2) ^ 2) * dist2 w tw := by
  have h1 := C53_loss η r hη tw xs hx w
  have h2 := sumErr_le hη hr tw xs hx w
  have h3 := hα fun i => w i - tw i
  rw [← dist2_eq] at h3
  have h4 : (xs.map fun x => inner' x (fun i => w i - tw i) ^ 2).sum = sumErr2 tw w xs := by
    simp only [sumErr2, err_eq]
  rw [h4] at h3
  set K : ℝ := 1 + r * xs.length ^ 2 with hK
  have hK0 : 0 < K := by positivity
  have h5 : sumErr2 tw w xs ≤ K ^ 2 * loss η tw w xs := by
    have := pow_le_pow_left₀ (Real.sqrt_nonneg _) h2 2
    rwa [mul_pow, Real.sq_sqrt (sumErr2_nonneg _ _ _), Real.sq_sqrt (loss_nonneg _ _ _ _)] at this
  have h6 : α / K ^ 2 * dist2 w tw ≤ loss η tw w xs := by
    rw [div_mul_eq_mul_div, div_le_iff₀ (by positivity)]
    linarith
  have h7 : 4 * η * (1 - r) * (α / K ^ 2 * dist2 w tw) ≤ 4 * η * (1 - r) * loss η tw w xs :=
    mul_le_mul_of_nonneg_left h6 (by have : 0 ≤ 1 - r := by linarith
                                     positivity)
  have h8 : (1 - 4 * η * (1 - r) * α / K ^ 2) * dist2 w tw =
      dist2 w tw - 4 * η * (1 - r) * (α / K ^ 2 * dist2 w tw) := by ring
  rw [h8]
  linarith

/-- What no sample sees does not change. -/
theorem unseen (η : ℝ) (tw w v : Fin N → ℝ) (xs : List (Fin N → ℝ))
    (hv : ∀ x ∈ xs, inner' x v = 0) : inner' (lms η tw w xs) v = inner' w v := by
  induction xs generalizing w with
  | nil => rfl
  | cons x xs ih =>
    rw [lms, ih _ fun y hy => hv y (List.mem_cons_of_mem _ hy)]
    have hx := hv x List.mem_cons_self
    have : inner' (lmsStep η tw w x) v = inner' w v - 2 * η * err tw w x * inner' x v := by
      simp only [inner', lmsStep]
      rw [Finset.mul_sum, ← Finset.sum_sub_distrib]
      exact Finset.sum_congr rfl fun i _ => by ring
    rw [this, hx, mul_zero, sub_zero]

theorem inner_self_eq_zero' {v : Fin N → ℝ} (h : inner' v v = 0) : v = 0 := by
  funext i
  have := (Finset.sum_eq_zero_iff_of_nonneg fun i _ => mul_self_nonneg (v i)).1 h i (Finset.mem_univ _)
  exact mul_self_eq_zero.1 this

/-- A list of samples that sees every direction sees all of them uniformly. -/
theorem exists_excitation (xs : List (Fin N → ℝ))
    (h : ∀ v : Fin N → ℝ, (∀ x ∈ xs, inner' x v = 0) → v = 0) :
    ∃ α > 0, ∀ v : Fin N → ℝ, α * inner' v v ≤ (xs.map fun x => inner' x v ^ 2).sum := by
  let Q : (Fin N → ℝ) → ℝ := fun v => (xs.map fun x => inner' x v ^ 2).sum
  have hQ : Continuous Q := by
    refine continuous_list_sum _ fun x _ => ?_
    simp only [inner']
    fun_prop
  have hQ0 : ∀ v, 0 ≤ Q v := fun v => List.sum_nonneg fun _ hm => by
    obtain ⟨_, -, rfl⟩ := List.mem_map.1 hm
    exact sq_nonneg _
  have hQs : ∀ (c : ℝ) v, Q (c • v) = c ^ 2 * Q v := fun c v => by
    simp only [Q, ← List.sum_map_mul_left]
    refine congrArg List.sum (List.map_congr_left fun x _ => ?_)
    rw [← mul_pow]
    congr 1
    simp only [inner', Finset.mul_sum, Pi.smul_apply, smul_eq_mul]
    exact Finset.sum_congr rfl fun i _ => by ring
  have hpos : ∀ v, v ≠ 0 → 0 < Q v := fun v hv => by
    refine lt_of_le_of_ne (hQ0 v) fun he => hv (h v fun x hx => ?_)
    have := List.single_le_sum (l := xs.map fun x => inner' x v ^ 2) (fun _ hm => by
      obtain ⟨_, -, rfl⟩ := List.mem_map.1 hm
      exact sq_nonneg _) _ (List.mem_map_of_mem hx)
    have h0 : (xs.map fun x => inner' x v ^ 2).sum = 0 := he.symm
    rw [h0] at this
    exact pow_eq_zero_iff two_ne_zero |>.1 (le_antisymm this (sq_nonneg _))
  by_cases hN : Nonempty (Fin N)
  · obtain ⟨u, hu, hm⟩ := (isCompact_sphere (0 : Fin N → ℝ) 1).exists_isMinOn
      (NormedSpace.sphere_nonempty.2 zero_le_one) hQ.continuousOn
    have hu0 : u ≠ 0 := fun h0 => by simp [h0] at hu
    have hN0 : (0 : ℝ) < N := by exact_mod_cast Fin.pos_iff_nonempty.2 hN
    refine ⟨Q u / N, div_pos (hpos u hu0) hN0, fun v => ?_⟩
    show _ ≤ Q v
    by_cases hv : v = 0
    · subst hv
      simpa [inner'] using hQ0 0
    have hn : 0 < ‖v‖ := norm_pos_iff.2 hv
    have h1 : Q u ≤ Q (‖v‖⁻¹ • v) := hm (by simp [norm_smul, hn.ne'])
    rw [hQs] at h1
    have h2 : inner' v v ≤ N * ‖v‖ ^ 2 := by
      have : ∀ i, v i * v i ≤ ‖v‖ ^ 2 := fun i => by
        have := norm_le_pi_norm v i
        rw [← pow_two, ← sq_abs]
        exact pow_le_pow_left₀ (abs_nonneg _) this 2
      calc inner' v v ≤ ∑ _i : Fin N, ‖v‖ ^ 2 := Finset.sum_le_sum fun i _ => this i
        _ = _ := by simp
    have h3 : Q u * ‖v‖ ^ 2 ≤ Q v := by
      have := mul_le_mul_of_nonneg_right h1 (sq_nonneg ‖v‖)
      rwa [inv_pow, inv_mul_eq_div, div_mul_cancel₀ _ (pow_ne_zero 2 hn.ne')] at this
    calc Q u / N * inner' v v ≤ Q u / N * (N * ‖v‖ ^ 2) :=
          mul_le_mul_of_nonneg_left h2 (div_nonneg (hQ0 u) hN0.le)
      _ = Q u * ‖v‖ ^ 2 := by field_simp
      _ ≤ Q v := h3
  · refine ⟨1, one_pos, fun v => ?_⟩
    have : IsEmpty (Fin N) := not_nonempty_iff.1 hN
    simp [inner']

end Aegir.Examples
