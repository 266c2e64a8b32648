import Verif.Spec.Rounding
import Mathlib.Data.Int.Log
import Mathlib.Algebra.Order.Round
import Mathlib.Analysis.SpecialFunctions.Pow.Real
/-!
# Binary floating point

Scalars with `p + 1` significant bits and unbounded exponents, rounded to nearest. `p = 52` is
double, `p = 23` single precision as long as no number is too large or too small.
-/

namespace Aegir.Spec

/-- `x` rounded to `p + 1` significant bits. -/
noncomputable def rnd (p : ℕ) (x : ℝ) : ℝ :=
  round (x / 2 ^ (Int.log 2 |x| - p)) * 2 ^ (Int.log 2 |x| - p)

/-- Rounding commits a relative error of at most half a unit in the last place. -/
theorem rnd_error (p : ℕ) (x : ℝ) : ∃ δ, |δ| ≤ 1 / 2 ^ (p + 1) ∧ rnd p x = x * (1 + δ) := by
  by_cases hx : x = 0
  · exact ⟨0, by simp, by simp [rnd, hx]⟩
  have hpos : 0 < |x| := abs_pos.2 hx
  have hU : (0 : ℝ) < 2 ^ (Int.log 2 |x| - p) := by positivity
  have hlog : (2 : ℝ) ^ Int.log 2 |x| ≤ |x| := by
    have := Int.zpow_log_le_self (b := 2) (by norm_num) hpos
    exact_mod_cast this
  refine ⟨(rnd p x - x) / x, ?_, by field_simp; ring⟩
  rw [abs_div, div_le_iff₀ hpos]
  have h1 : |rnd p x - x| ≤ 1 / 2 * 2 ^ (Int.log 2 |x| - p) := by
    have h2 := abs_sub_round (x / 2 ^ (Int.log 2 |x| - (p : ℤ)))
    have h3 : rnd p x - x = -((x / 2 ^ (Int.log 2 |x| - (p : ℤ))
        - round (x / 2 ^ (Int.log 2 |x| - (p : ℤ)))) * 2 ^ (Int.log 2 |x| - (p : ℤ))) := by
      unfold rnd; field_simp; ring
    rw [h3, abs_neg, abs_mul, abs_of_pos hU]
    exact mul_le_mul_of_nonneg_right h2 hU.le
  refine h1.trans ?_
  rw [zpow_sub₀ (by norm_num : (2 : ℝ) ≠ 0), zpow_natCast]
  rw [show (1 : ℝ) / 2 * (2 ^ Int.log 2 |x| / 2 ^ p) = 1 / 2 ^ (p + 1) * 2 ^ Int.log 2 |x| by
    rw [pow_succ]; field_simp]
  exact mul_le_mul_of_nonneg_left hlog (by positivity)

/-- A floating-point number, given by its value. -/
structure Fl (p : ℕ) where
  /-- the number it stands for -/
  val : ℝ

namespace Fl
variable {p : ℕ}

noncomputable instance : Zero (Fl p) := ⟨⟨0⟩⟩
noncomputable instance : One (Fl p) := ⟨⟨1⟩⟩
noncomputable instance : Add (Fl p) := ⟨fun x y => ⟨rnd p (x.val + y.val)⟩⟩
noncomputable instance : Sub (Fl p) := ⟨fun x y => ⟨rnd p (x.val - y.val)⟩⟩
noncomputable instance : Mul (Fl p) := ⟨fun x y => ⟨rnd p (x.val * y.val)⟩⟩
noncomputable instance : Div (Fl p) := ⟨fun x y => ⟨rnd p (x.val / y.val)⟩⟩
noncomputable instance : Neg (Fl p) := ⟨fun x => ⟨-x.val⟩⟩

/-- A function of the reals, rounded. -/
noncomputable def lift (f : ℝ → ℝ) (x : Fl p) : Fl p := ⟨rnd p (f x.val)⟩

noncomputable instance : ScalarFns (Fl p) where
  isZero x := decide (x.val = 0)
  eqb x y := decide (x.val = y.val)
  leb x y := decide (x.val ≤ y.val)
  fromUsize n := some ⟨rnd p n⟩
  infinity := ⟨0⟩
  pow x y := ⟨rnd p (x.val ^ y.val)⟩
  abs x := ⟨|x.val|⟩
  signum x := ⟨if x.val < 0 then -1 else 1⟩
  ln := lift ScalarFns.ln
  exp := lift ScalarFns.exp
  cos := lift ScalarFns.cos
  cosh := lift ScalarFns.cosh
  acos := lift ScalarFns.acos
  acosh := lift ScalarFns.acosh
  sin := lift ScalarFns.sin
  sinh := lift ScalarFns.sinh
  asin := lift ScalarFns.asin
  asinh := lift ScalarFns.asinh
  tan := lift ScalarFns.tan
  tanh := lift ScalarFns.tanh
  atan := lift ScalarFns.atan
  atanh := lift ScalarFns.atanh
  gamma := lift ScalarFns.gamma
  digamma := lift ScalarFns.digamma
  loggamma := lift ScalarFns.loggamma
  erf := lift ScalarFns.erf

end Fl

/-- `x` rounded, when its size is known. -/
theorem rnd_eq (p : ℕ) {x : ℝ} {k : ℤ} (h1 : (2 : ℝ) ^ k ≤ |x|) (h2 : |x| < 2 ^ (k + 1)) :
    rnd p x = round (x / 2 ^ (k - p)) * 2 ^ (k - p) := by
  have : Int.log 2 |x| = k := by
    have hpos : 0 < |x| := lt_of_lt_of_le (by positivity) h1
    refine le_antisymm ?_ ?_
    · have := (Int.lt_zpow_iff_log_lt (b := 2) (by norm_num) hpos (x := k + 1)).1
        (by exact_mod_cast h2)
      omega
    · exact (Int.zpow_le_iff_le_log (b := 2) (by norm_num) hpos).1 (by exact_mod_cast h1)
  rw [rnd, this]

/-- Numbers that fit are not changed. -/
theorem rnd_fits (p : ℕ) {x : ℝ} {k : ℤ} (h1 : (2 : ℝ) ^ k ≤ |x|) (h2 : |x| < 2 ^ (k + 1))
    {m : ℤ} (hm : x = m * 2 ^ (k - p)) : rnd p x = x := by
  rw [rnd_eq p h1 h2]
  have : x / 2 ^ (k - (p : ℤ)) = m := by rw [hm]; field_simp
  rw [this, round_intCast, hm]

/-- Floating point satisfies the standard model. -/
theorem Fl.rounding (p : ℕ) : Rounding (Fl.val : Fl p → ℝ) (1 / 2 ^ (p + 1)) where
  nonneg := by positivity
  zero := rfl
  one := rfl
  isZero x h := by simpa [ScalarFns.isZero] using h
  neg _ := rfl
  add x y := rnd_error p (x.val + y.val)
  sub x y := rnd_error p (x.val - y.val)
  mul x y := rnd_error p (x.val * y.val)
  square x := by
    have h2 : rnd p (1 + 1 : ℝ) = 2 := by
      have : rnd p (2 : ℝ) = 2 := rnd_fits p (k := 1) (by norm_num) (by norm_num) (m := 2 ^ p) (by
        rw [zpow_sub₀ (by norm_num : (2 : ℝ) ≠ 0)]
        push_cast
        rw [zpow_natCast, zpow_one]; field_simp)
      rwa [show (1 + 1 : ℝ) = 2 by norm_num]
    obtain ⟨δ', hδ', h3⟩ := rnd_error p (x.val ^ 2)
    refine ⟨δ', hδ', ?_⟩
    show rnd p (x.val ^ (rnd p (1 + 1 : ℝ))) = _
    rw [h2, show (2 : ℝ) = ((2 : ℕ) : ℝ) by norm_num, Real.rpow_natCast]
    exact h3
  fromUsize n k h := by
    cases h
    exact rnd_error p n

end Aegir.Spec
