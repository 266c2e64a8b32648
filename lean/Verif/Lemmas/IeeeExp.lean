import Verif.Spec.Exponential
import Verif.Spec.Ieee
/-!
# IEEE floating point satisfies the laws with comparison, division and exponential function
-/

namespace Aegir.Spec

theorem roundEven_ge {x : ℝ} {m : ℤ} (h : (m : ℝ) ≤ x) : m ≤ roundEven x := by
  have h1 := (abs_le.1 (abs_sub_roundEven x)).2
  have h3 : ((m : ℤ) : ℝ) < ((roundEven x + 1 : ℤ) : ℝ) := by push_cast; linarith
  have := Int.cast_lt.1 h3
  omega

theorem roundEven_le' {x : ℝ} {m : ℤ} (h : x ≤ m) : roundEven x ≤ m := by
  have h1 := (abs_le.1 (abs_sub_roundEven x)).1
  have h3 : ((roundEven x : ℤ) : ℝ) < ((m + 1 : ℤ) : ℝ) := by push_cast; linarith
  have := Int.cast_lt.1 h3
  omega

section
variable {p q : ℕ}

/-- A number whose last place is below that of `x` is smaller than the leading power of two of `x`. -/
theorem lt_of_place_lt {x z : ℝ} (hx0 : x ≠ 0) (h : place p q z < place p q x) :
    |z| < 2 ^ p * 2 ^ place p q x ∧ 2 ^ p * 2 ^ place p q x ≤ |x| := by
  have hq : -(q : ℤ) ≤ place p q z := le_max_right _ _
  have hx : place p q x = Int.log 2 |x| - p := by
    unfold place at h hq ⊢
    rcases max_choice (Int.log 2 |x| - p) (-(q : ℤ)) with h' | h'
    · exact h'
    · rw [h'] at h; omega
  constructor
  · refine lt_of_lt_of_le (lt_place (p := p) (q := q) z) ?_
    rw [pow_succ, mul_assoc]
    refine mul_le_mul_of_nonneg_left ?_ (by positivity)
    rw [← zpow_one_add₀ (by norm_num)]
    exact zpow_le_zpow_right₀ (by norm_num) (by omega)
  · have hlog : (2 : ℝ) ^ Int.log 2 |x| ≤ |x| := by
      have := Int.zpow_log_le_self (b := 2) (by norm_num) (abs_pos.2 hx0)
      exact_mod_cast this
    refine le_trans (le_of_eq ?_) hlog
    rw [hx, ← zpow_natCast, ← zpow_add₀ (by norm_num)]
    congr 1
    omega

/-- A number of the format is a multiple of each smaller place. -/
theorem mult_of_place {x z : ℝ} (hz : fround p q z = z) (h : place p q x ≤ place p q z) :
    ∃ m : ℤ, z = m * 2 ^ place p q x := by
  obtain ⟨d, hd⟩ : ∃ d : ℕ, place p q z = place p q x + d := ⟨(place p q z - place p q x).toNat, by omega⟩
  refine ⟨roundEven (z / 2 ^ place p q z) * 2 ^ d, ?_⟩
  conv_lhs => rw [← hz, fround]
  rw [hd, zpow_add₀ (by norm_num : (2 : ℝ) ≠ 0) (place p q x) d, zpow_natCast]
  push_cast; ring

theorem fround_ge {x z : ℝ} (hz : fround p q z = z) (h : z ≤ x) : z ≤ fround p q x := by
  by_cases hx0 : x = 0
  · rwa [hx0, fround_zero, ← hx0]
  have hU : (0 : ℝ) < 2 ^ place p q x := by positivity
  rcases le_or_gt (place p q x) (place p q z) with hp | hp
  · obtain ⟨m, hm⟩ := mult_of_place hz hp
    have h1 : m ≤ roundEven (x / 2 ^ place p q x) := roundEven_ge (by
      rw [le_div_iff₀ hU, ← hm]; exact h)
    rw [hm, fround]
    exact mul_le_mul_of_nonneg_right (by exact_mod_cast h1) hU.le
  · obtain ⟨h1, h2⟩ := lt_of_place_lt hx0 hp
    have hx : 0 < x := by
      by_contra hx
      rw [abs_of_nonpos (not_lt.1 hx)] at h2
      linarith [neg_abs_le z]
    rw [abs_of_pos hx] at h2
    have h3 : (2 : ℤ) ^ p ≤ roundEven (x / 2 ^ place p q x) := roundEven_ge (by
      rw [le_div_iff₀ hU]; push_cast; exact h2)
    refine ((le_abs_self z).trans h1.le).trans ?_
    rw [fround]
    exact mul_le_mul_of_nonneg_right (by exact_mod_cast h3) hU.le

theorem fround_le' {x z : ℝ} (hz : fround p q z = z) (h : x ≤ z) : fround p q x ≤ z := by
  by_cases hx0 : x = 0
  · rwa [hx0, fround_zero, ← hx0]
  have hU : (0 : ℝ) < 2 ^ place p q x := by positivity
  rcases le_or_gt (place p q x) (place p q z) with hp | hp
  · obtain ⟨m, hm⟩ := mult_of_place hz hp
    have h1 : roundEven (x / 2 ^ place p q x) ≤ m := roundEven_le' (by
      rw [div_le_iff₀ hU, ← hm]; exact h)
    rw [hm, fround]
    exact mul_le_mul_of_nonneg_right (by exact_mod_cast h1) hU.le
  · obtain ⟨h1, h2⟩ := lt_of_place_lt hx0 hp
    have hx : x < 0 := by
      by_contra hx
      rw [abs_of_nonneg (not_lt.1 hx)] at h2
      linarith [le_abs_self z]
    rw [abs_of_neg hx] at h2
    have h3 : roundEven (x / 2 ^ place p q x) ≤ -2 ^ p := roundEven_le' (by
      rw [div_le_iff₀ hU]; push_cast; linarith)
    have h4 : fround p q x ≤ -(2 ^ p * 2 ^ place p q x) := by
      rw [fround, ← neg_mul]
      exact mul_le_mul_of_nonneg_right (by exact_mod_cast h3) hU.le
    linarith [neg_abs_le z]

end

namespace Fp
variable {p q E : ℕ}

theorem nearby_round {t : ℝ} (h : (round t : Fp p q E).Finite) : Nearby val Finite (round t : Fp p q E) t := by
  intro z hz
  cases z with
  | num z hz' =>
    rw [val_round h]
    exact ⟨fround_ge hz'.1, fround_le' hz'.1⟩
  | inf s => exact absurd hz id
  | nan => exact absurd hz id

/-- IEEE arithmetic, with a correctly rounded exponential function. -/
theorem rangedExp (hp : 1 ≤ p) : RangedExp (F := Fp p q E) val Finite (1 / 2 ^ (p + 1)) (1 / 2 ^ (p + 1))
    (2 ^ (p - q : ℤ)) (largest p E) where
  toRanged := ranged hp
  nonneg' := by positivity
  lo_nonneg := by positivity
  zero_of x hx h0 := by
    cases x with
    | num x h => simpa [ScalarFns.isZero, val] using h0
    | inf s => exact absurd hx id
    | nan => exact absurd hx id
  le x y hx hy := by
    cases x with
    | num x h =>
      cases y with
      | num y h' => simp [ScalarFns.leb, val]
      | inf s => exact absurd hy id
      | nan => exact absurd hy id
    | inf s => exact absurd hx id
    | nan => exact absurd hx id
  add_nearby x y h := by
    obtain ⟨hx, hy, -⟩ := (ranged (E := E) hp).add x y h
    cases x with
    | num x h1 =>
      cases y with
      | num y h2 => exact nearby_round h
      | inf s => exact absurd hy id
      | nan => exact absurd hy id
    | inf s => exact absurd hx id
    | nan => exact absurd hx id
  sub_nearby x y h := by
    obtain ⟨hx, hy, -⟩ := (ranged (E := E) hp).sub x y h
    cases x with
    | num x h1 =>
      cases y with
      | num y h2 => exact nearby_round h
      | inf s => exact absurd hy id
      | nan => exact absurd hy id
    | inf s => exact absurd hx id
    | nan => exact absurd hx id
  mul_nearby x y h := by
    obtain ⟨hx, hy, -⟩ := (ranged (E := E) hp).mul x y h
    cases x with
    | num x h1 =>
      cases y with
      | num y h2 => exact nearby_round h
      | inf s => exact absurd hy id
      | nan => exact absurd hy id
    | inf s => exact absurd hx id
    | nan => exact absurd hx id
  div x y hx hy h0 hle := by
    cases x with
    | num x h1 =>
      cases y with
      | num y h2 =>
        have e : (num x h1 / num y h2 : Fp p q E) = round (x / y) := if_neg h0
        have hf : (round (x / y) : Fp p q E).Finite := round_fin hle
        rw [e]
        refine ⟨hf, ?_, nearby_round hf⟩
        rw [val_round hf]
        exact fround_abs _
      | inf s => exact absurd hy id
      | nan => exact absurd hy id
    | inf s => exact absurd hx id
    | nan => exact absurd hx id
  exp x hx h0 := by
    cases x with
    | num x h =>
      have e1 : Real.exp x ≤ 1 := Real.exp_le_one_iff.2 h0
      have e0 := Real.exp_pos x
      have hf : (round (Real.exp x) : Fp p q E).Finite := round_fin (by
        rw [abs_of_pos e0]; exact e1.trans one_le_largest)
      have k := nearby_round hf
      refine ⟨hf, (k 0 trivial).1 e0.le, (k 1 trivial).2 e1, ?_⟩
      change |val (round (Real.exp x) : Fp p q E) - _| ≤ _
      rw [val_round hf]
      have := fround_abs (p := p) (q := q) (Real.exp x)
      rwa [abs_of_pos e0] at this
    | inf s => exact absurd hx id
    | nan => exact absurd hx id

end Fp

end Aegir.Spec
