import Verif.Spec.Float
import Verif.Spec.Range
/-!
# IEEE binary floating point

Binary formats with `p + 1` significant bits, smallest positive number `2 ^ -q` and largest exponent
`E` of the last place: finite numbers, infinities and NaN, with rounding to nearest and ties to even,
gradual underflow, and overflow to infinity. `Fp 52 1074 971` is `f64`, `Fp 23 149 104` is `f32`. The
two zeros are not distinguished. Arithmetic, powers and functions follow the standard (annex F of that of C
for the functions), with results of functions taken to be correctly rounded: they give the rounded exact
value where they are defined, NaN elsewhere, and for infinite arguments their limit if there is one. Where
libraries differ, at the poles of the gamma function and its logarithm and at `-∞`, the choice is NaN
(`+∞` for the logarithm at `-∞`).
-/

namespace Aegir.Spec

/-- Rounding to the nearest integer, ties to even. -/
noncomputable def roundEven (x : ℝ) : ℤ :=
  if Int.fract x = 1 / 2 then 2 * round (x / 2) else round x

theorem abs_sub_roundEven (x : ℝ) : |x - roundEven x| ≤ 1 / 2 := by
  unfold roundEven
  split
  · next h =>
    have hx : x = ⌊x⌋ + 1 / 2 := by have := Int.floor_add_fract x; linarith
    set k := ⌊x⌋ with hk
    have key : ∀ j : ℤ, k = 2 * j ∨ k = 2 * j + 1 →
        round (x / 2) = if k = 2 * j then j else j + 1 := by
      intro j hj
      rw [round_eq, Int.floor_eq_iff]
      rcases hj with hj | hj
      · rw [if_pos hj, hx, hj]; push_cast; constructor <;> linarith
      · rw [if_neg (by omega), hx, hj]; push_cast; constructor <;> linarith
    obtain ⟨j, hj⟩ := Int.even_or_odd' k
    rw [key j hj]
    rcases hj with hj | hj
    · rw [if_pos hj, hx, hj]; push_cast; rw [abs_le]; constructor <;> linarith
    · rw [if_neg (by omega), hx, hj]; push_cast; rw [abs_le]; constructor <;> linarith
  · exact abs_sub_round x

theorem roundEven_intCast (m : ℤ) : roundEven m = m := by
  unfold roundEven
  rw [Int.fract_intCast, if_neg (by norm_num), round_intCast]

theorem roundEven_le {x : ℝ} {m : ℤ} (h : |x| ≤ m) : |roundEven x| ≤ m := by
  have h1 := abs_sub_roundEven x
  have h2 : |(roundEven x : ℝ)| ≤ |x| + 1 / 2 := by
    have := abs_sub_abs_le_abs_sub (roundEven x : ℝ) x
    rw [abs_sub_comm] at this
    linarith
  have h3 : ((|roundEven x| : ℤ) : ℝ) < ((m + 1 : ℤ) : ℝ) := by
    rw [Int.cast_abs]; push_cast; linarith
  have := Int.cast_lt.1 h3
  omega

section
variable (p q : ℕ)

/-- The exponent of the last place to which a number is rounded. -/
noncomputable def place (x : ℝ) : ℤ := max (Int.log 2 |x| - p) (-q)

/-- `x` rounded to `p + 1` significant bits, but no further than to multiples of `2 ^ -q`. -/
noncomputable def fround (x : ℝ) : ℝ := roundEven (x / 2 ^ place p q x) * 2 ^ place p q x

/-- The largest finite number. -/
noncomputable def largest (E : ℕ) : ℝ := (2 ^ (p + 1) - 1) * 2 ^ E

variable {p q}

theorem lt_place (x : ℝ) : |x| < 2 ^ (p + 1) * 2 ^ place p q x := by
  by_cases hx : x = 0
  · rw [hx, abs_zero]; positivity
  have h := Int.lt_zpow_succ_log_self (b := 2) (by norm_num) (|x|)
  refine lt_of_lt_of_le (by exact_mod_cast h) ?_
  rw [← zpow_natCast, ← zpow_add₀ (by norm_num)]
  refine zpow_le_zpow_right₀ (by norm_num) ?_
  have := le_max_left (Int.log 2 |x| - p) (-(q : ℤ))
  unfold place
  push_cast
  omega

theorem fround_error (x : ℝ) : |fround p q x - x| ≤ 1 / 2 * 2 ^ place p q x := by
  have hU : (0 : ℝ) < 2 ^ place p q x := by positivity
  have h2 := abs_sub_roundEven (x / 2 ^ place p q x)
  have h3 : fround p q x - x = -((x / 2 ^ place p q x - roundEven (x / 2 ^ place p q x))
      * 2 ^ place p q x) := by
    unfold fround; field_simp; ring
  rw [h3, abs_neg, abs_mul, abs_of_pos hU]
  exact mul_le_mul_of_nonneg_right h2 hU.le

theorem fround_of_mul {x : ℝ} {m : ℤ} (h : x = m * 2 ^ place p q x) : fround p q x = x := by
  have : x / 2 ^ place p q x = m := by
    rw [div_eq_iff (by positivity)]; exact h
  unfold fround
  rw [this, roundEven_intCast, ← h]

/-- Relative accuracy of normal results. -/
theorem fround_normal {x : ℝ} (h : place p q x = Int.log 2 |x| - p) (hx : x ≠ 0) :
    |fround p q x - x| ≤ 1 / 2 ^ (p + 1) * |x| := by
  refine (fround_error x).trans ?_
  have hlog : (2 : ℝ) ^ Int.log 2 |x| ≤ |x| := by
    have := Int.zpow_log_le_self (b := 2) (by norm_num) (abs_pos.2 hx)
    exact_mod_cast this
  rw [h, zpow_sub₀ (by norm_num : (2 : ℝ) ≠ 0), zpow_natCast]
  rw [show (1 : ℝ) / 2 * (2 ^ Int.log 2 |x| / 2 ^ p) = 1 / 2 ^ (p + 1) * 2 ^ Int.log 2 |x| by
    rw [pow_succ]; field_simp]
  exact mul_le_mul_of_nonneg_left hlog (by positivity)

/-- `x` is a multiple of the smallest positive number. -/
def OnGrid (q : ℕ) (x : ℝ) : Prop := ∃ m : ℤ, x = m * 2 ^ (-(q : ℤ))

theorem fround_grid (x : ℝ) : OnGrid q (fround p q x) := by
  obtain ⟨d, hd⟩ : ∃ d : ℕ, place p q x = -(q : ℤ) + d :=
    ⟨(place p q x + q).toNat, by
      have := le_max_right (Int.log 2 |x| - p) (-(q : ℤ))
      unfold place; omega⟩
  refine ⟨roundEven (x / 2 ^ place p q x) * 2 ^ d, ?_⟩
  unfold fround
  rw [hd, zpow_add₀ (by norm_num), zpow_natCast]
  push_cast; ring

/-- Results on the grid are rounded with relative accuracy. -/
theorem fround_relative {x : ℝ} (h : OnGrid q x) : |fround p q x - x| ≤ 1 / 2 ^ (p + 1) * |x| := by
  by_cases hx : x = 0
  · obtain ⟨m, hm⟩ := h
    rw [fround_of_mul (m := 0) (by rw [hx]; simp), hx]; simp
  rcases le_total (-(q : ℤ)) (Int.log 2 |x| - p) with h1 | h1
  · exact fround_normal (max_eq_left h1) hx
  · obtain ⟨m, hm⟩ := h
    have h2 : place p q x = -q := max_eq_right h1
    rw [fround_of_mul (m := m) (by rw [h2]; exact hm), sub_self, abs_zero]
    positivity

/-- Rounding loses at most half the smallest positive number to underflow. -/
theorem fround_abs (x : ℝ) :
    |fround p q x - x| ≤ 1 / 2 ^ (p + 1) * max |x| (2 ^ (p - q : ℤ)) := by
  by_cases hx : x = 0
  · rw [fround_of_mul (m := 0) (by rw [hx]; simp), hx, sub_self, abs_zero]; positivity
  rcases le_total (-(q : ℤ)) (Int.log 2 |x| - p) with h1 | h1
  · exact (fround_normal (max_eq_left h1) hx).trans
      (mul_le_mul_of_nonneg_left (le_max_left _ _) (by positivity))
  · refine (fround_error x).trans ?_
    rw [show place p q x = -q from max_eq_right h1]
    refine le_trans (le_of_eq ?_) (mul_le_mul_of_nonneg_left (le_max_right _ _) (by positivity))
    rw [sub_eq_add_neg, zpow_add₀ (by norm_num), zpow_natCast, pow_succ]
    field_simp

theorem fround_zero : fround p q 0 = 0 := fround_of_mul (m := 0) (by simp)

theorem place_le {x : ℝ} {E : ℕ} (h : |x| ≤ largest p E) : place p q x ≤ E := by
  refine max_le ?_ (by omega)
  by_cases hx : x = 0
  · rw [hx, abs_zero, Int.log_zero_right]; omega
  have h1 : |x| < 2 ^ ((p : ℤ) + 1 + E) := by
    refine lt_of_le_of_lt h ?_
    unfold largest
    rw [zpow_add₀ (by norm_num), zpow_add₀ (by norm_num), zpow_natCast, zpow_natCast, zpow_one,
      pow_succ]
    exact mul_lt_mul_of_pos_right (by linarith) (by positivity)
  have := (Int.lt_zpow_iff_log_lt (b := 2) (by norm_num) (abs_pos.2 hx)).1 (by simpa using h1)
  omega

/-- Numbers up to the largest one do not overflow. -/
theorem fround_le {x : ℝ} {E : ℕ} (h : |x| ≤ largest p E) : |fround p q x| ≤ largest p E := by
  obtain ⟨d, hd⟩ : ∃ d : ℕ, (E : ℤ) = place p q x + d :=
    ⟨(E - place p q x).toNat, by have := place_le (q := q) h; omega⟩
  have hU : (0 : ℝ) < 2 ^ place p q x := by positivity
  have e : largest p E = ((2 ^ (p + 1) - 1) * 2 ^ d : ℤ) * 2 ^ place p q x := by
    unfold largest
    rw [← zpow_natCast (2 : ℝ) E, hd, zpow_add₀ (by norm_num), zpow_natCast]
    push_cast; ring
  unfold fround
  rw [abs_mul, abs_of_pos hU, e]
  refine mul_le_mul_of_nonneg_right ?_ hU.le
  rw [← Int.cast_abs, Int.cast_le]
  refine roundEven_le ?_
  rw [abs_div, abs_of_pos hU, div_le_iff₀ hU, ← e]
  exact h

/-- A rounded number is not changed by rounding. -/
theorem fround_idem (x : ℝ) : fround p q (fround p q x) = fround p q x := by
  set y := fround p q x with hy
  set e := place p q x with he
  set m := roundEven (x / 2 ^ e) with hm
  have hU : (0 : ℝ) < 2 ^ e := by positivity
  have hye : y = m * 2 ^ e := rfl
  have hmle : |m| ≤ 2 ^ (p + 1) := roundEven_le (by
    rw [abs_div, abs_of_pos hU, div_le_iff₀ hU]
    push_cast
    exact (lt_place x).le)
  have hqe : -(q : ℤ) ≤ e := le_max_right _ _
  by_cases hm0 : m = 0
  · rw [hye, hm0]; simp [fround_zero]
  rcases lt_or_eq_of_le hmle with hlt | heq
  · -- the last place does not move up
    have hpl : place p q y ≤ e := by
      refine max_le ?_ hqe
      have hy0 : y ≠ 0 := by rw [hye]; positivity
      have h1 : |y| < 2 ^ ((p : ℤ) + 1 + e) := by
        rw [hye, abs_mul, abs_of_pos hU, zpow_add₀ (by norm_num),
          show ((p : ℤ) + 1) = ((p + 1 : ℕ) : ℤ) by push_cast; rfl, zpow_natCast]
        refine mul_lt_mul_of_pos_right ?_ hU
        rw [← Int.cast_abs]
        exact_mod_cast hlt
      have := (Int.lt_zpow_iff_log_lt (b := 2) (by norm_num) (abs_pos.2 hy0)).1 (by exact_mod_cast h1)
      omega
    obtain ⟨d, hd⟩ : ∃ d : ℕ, e = place p q y + d := ⟨(e - place p q y).toNat, by omega⟩
    refine fround_of_mul (m := m * 2 ^ d) ?_
    conv_lhs => rw [hye, hd, zpow_add₀ (by norm_num), zpow_natCast]
    push_cast; ring
  · -- a power of two
    have hy2 : |y| = 2 ^ ((p : ℤ) + 1 + e) := by
      rw [hye, abs_mul, abs_of_pos hU, zpow_add₀ (by norm_num),
        show ((p : ℤ) + 1) = ((p + 1 : ℕ) : ℤ) by push_cast; rfl, zpow_natCast, ← Int.cast_abs, heq]
      push_cast; rfl
    have hpl : place p q y = e + 1 := by
      unfold place
      rw [hy2, show (2 : ℝ) = ((2 : ℕ) : ℝ) by norm_num, Int.log_zpow (by norm_num)]
      rw [max_eq_left (by omega)]; omega
    refine fround_of_mul (m := m.sign * 2 ^ p) ?_
    rw [hpl, hye, zpow_add₀ (by norm_num), zpow_one]
    have : (m : ℝ) = m.sign * 2 ^ (p + 1) := by
      have := Int.sign_mul_abs m
      rw [heq] at this
      exact_mod_cast this.symm
    rw [this]
    push_cast; ring

/-- Whole numbers of at most `p + 1` bits are not changed. -/
theorem fround_small {m : ℤ} (h : |m| < 2 ^ (p + 1)) : fround p q m = m := by
  have hpl : place p q (m : ℝ) ≤ 0 := by
    refine max_le ?_ (by omega)
    by_cases hm : m = 0
    · rw [hm]; simp
    have h1 : |(m : ℝ)| < 2 ^ ((p : ℤ) + 1) := by
      rw [show ((p : ℤ) + 1) = ((p + 1 : ℕ) : ℤ) by push_cast; rfl, zpow_natCast, ← Int.cast_abs]
      exact_mod_cast h
    have hm' : (0 : ℝ) < |(m : ℝ)| := abs_pos.2 (Int.cast_ne_zero.2 hm)
    have := (Int.lt_zpow_iff_log_lt (b := 2) (by norm_num) hm').1 (by push_cast; exact h1)
    omega
  obtain ⟨d, hd⟩ : ∃ d : ℕ, (0 : ℤ) = place p q (m : ℝ) + d := ⟨(-place p q (m : ℝ)).toNat, by omega⟩
  refine fround_of_mul (m := m * 2 ^ d) ?_
  push_cast
  rw [mul_assoc, ← zpow_natCast (2 : ℝ) d, ← zpow_add₀ (by norm_num), add_comm, ← hd, zpow_zero, mul_one]

end

/-- A finite number of the format. -/
def Represents (p q E : ℕ) (x : ℝ) : Prop := fround p q x = x ∧ |x| ≤ largest p E

/-- A floating-point number. -/
inductive Fp (p q E : ℕ) where
  /-- a finite number -/
  | num (x : ℝ) (h : Represents p q E x)
  /-- an infinity -/
  | inf (negative : Bool)
  | nan

/-- Double precision, `f64`. -/
abbrev Double := Fp 52 1074 971

/-- Single precision, `f32`. -/
abbrev Single := Fp 23 149 104

namespace Fp
variable {p q E : ℕ}

/-- The number it stands for. -/
def val : Fp p q E → ℝ
  | num x _ => x
  | _ => 0

/-- Neither infinite nor NaN. -/
def Finite : Fp p q E → Prop
  | num _ _ => True
  | _ => False

open Classical in
/-- A real number rounded: an infinity if the result is larger than the largest number. -/
noncomputable def round (x : ℝ) : Fp p q E :=
  if h : |fround p q x| ≤ largest p E then num (fround p q x) ⟨fround_idem x, h⟩
  else inf (decide (x < 0))

theorem one_le_largest : 1 ≤ largest p E := by
  unfold largest
  have h1 : (1 : ℝ) ≤ 2 ^ p := one_le_pow₀ (by norm_num)
  have h2 : (1 : ℝ) ≤ 2 ^ E := one_le_pow₀ (by norm_num)
  have h3 : (1 : ℝ) ≤ 2 ^ (p + 1) - 1 := by rw [pow_succ]; linarith
  nlinarith

theorem represents_zero : Represents p q E 0 :=
  ⟨fround_zero, by rw [abs_zero]; linarith [one_le_largest (p := p) (E := E)]⟩

theorem represents_one : Represents p q E 1 :=
  ⟨by
    have := fround_small (p := p) (q := q) (m := 1) (by
      rw [abs_one]; exact one_lt_pow₀ (by norm_num) (by omega))
    simpa using this, by rw [abs_one]; exact one_le_largest⟩

theorem fround_neg_of {x : ℝ} (h : fround p q x = x) : fround p q (-x) = -x := by
  have e : place p q (-x) = place p q x := by unfold place; rw [abs_neg]
  refine fround_of_mul (m := -roundEven (x / 2 ^ place p q x)) ?_
  rw [e]
  push_cast
  rw [neg_mul, neg_inj]
  exact h.symm

noncomputable instance : Zero (Fp p q E) := ⟨num 0 represents_zero⟩
noncomputable instance : One (Fp p q E) := ⟨num 1 represents_one⟩

noncomputable instance : Neg (Fp p q E) := ⟨fun
  | num x h => num (-x) ⟨fround_neg_of h.1, by rw [abs_neg]; exact h.2⟩
  | inf s => inf (!s)
  | nan => nan⟩

noncomputable instance : Add (Fp p q E) := ⟨fun
  | num x _, num y _ => round (x + y)
  | num _ _, inf s => inf s
  | inf s, num _ _ => inf s
  | inf s, inf t => if s = t then inf s else nan
  | _, _ => nan⟩

noncomputable instance : Sub (Fp p q E) := ⟨fun
  | num x _, num y _ => round (x - y)
  | num _ _, inf s => inf (!s)
  | inf s, num _ _ => inf s
  | inf s, inf t => if s = t then nan else inf s
  | _, _ => nan⟩

open Classical in
noncomputable instance : Mul (Fp p q E) := ⟨fun
  | num x _, num y _ => round (x * y)
  | num x _, inf s => if x = 0 then nan else inf (s ^^ decide (x < 0))
  | inf s, num y _ => if y = 0 then nan else inf (s ^^ decide (y < 0))
  | inf s, inf t => inf (s ^^ t)
  | _, _ => nan⟩

open Classical in
noncomputable instance : Div (Fp p q E) := ⟨fun
  | num x _, num y _ =>
      if y = 0 then (if x = 0 then nan else inf (decide (x < 0))) else round (x / y)
  | num _ _, inf _ => 0
  | inf s, num y _ => inf (s ^^ decide (y < 0))
  | _, _ => nan⟩

/-- A function of the reals, rounded, with its values at the infinities. -/
noncomputable def lift (f : ℝ → ℝ) (atInf : Bool → Fp p q E) : Fp p q E → Fp p q E
  | num x _ => round (f x)
  | inf s => atInf s
  | nan => nan

open Classical in
/-- A function that is defined on part of the reals only, rounded: elsewhere it gives NaN. -/
noncomputable def liftOn (D : ℝ → Prop) (f : ℝ → ℝ) (atInf : Bool → Fp p q E) : Fp p q E → Fp p q E
  | num x _ => if D x then round (f x) else nan
  | inf s => atInf s
  | nan => nan

/-- Neither zero nor a negative integer: where the gamma function is defined. -/
def NoPole (x : ℝ) : Prop := ∀ n : ℕ, x ≠ -n

open Classical in
noncomputable instance : ScalarFns (Fp p q E) where
  isZero
    | num x _ => decide (x = 0)
    | _ => false
  eqb
    | num x _, num y _ => decide (x = y)
    | inf s, inf t => s == t
    | _, _ => false
  leb
    | num x _, num y _ => decide (x ≤ y)
    | inf s, num _ _ => s
    | num _ _, inf s => !s
    | inf s, inf t => s || !t
    | _, _ => false
  fromUsize n := if |fround p q n| ≤ largest p E then some (round n) else none
  infinity := inf false
  pow
    | num x _, num y _ =>
        if x < 0 ∧ Int.fract y ≠ 0 then nan else if x = 0 ∧ y < 0 then inf false else round (x ^ y)
    | inf s, num y _ =>
        if y = 0 then 1 else if y < 0 then 0 else inf (s && decide (∃ k : ℤ, y = 2 * k + 1))
    | num x _, inf t => if |x| = 1 then 1 else if decide (|x| < 1) = t then inf false else 0
    | inf _, inf t => if t then 0 else inf false
    | nan, num y _ => if y = 0 then 1 else nan
    | num x _, nan => if x = 1 then 1 else nan
    | _, _ => nan
  abs
    | num x h => num |x| (by
        rcases abs_choice x with e | e <;> rw [e]
        · exact h
        · exact ⟨fround_neg_of h.1, by rw [abs_neg]; exact h.2⟩)
    | inf _ => inf false
    | nan => nan
  signum
    | num x _ => if x < 0 then -1 else 1
    | inf s => if s then -1 else 1
    | nan => nan
  ln
    | num x _ => if x < 0 then nan else if x = 0 then inf true else round (ScalarFns.ln x)
    | inf s => if s then nan else inf false
    | nan => nan
  exp
    | num x _ => round (ScalarFns.exp x)
    | inf s => if s then 0 else inf false
    | nan => nan
  cos := lift ScalarFns.cos fun _ => nan
  cosh := lift ScalarFns.cosh fun _ => inf false
  acos := liftOn (fun x => |x| ≤ 1) ScalarFns.acos fun _ => nan
  acosh := liftOn (fun x => 1 ≤ x) ScalarFns.acosh fun s => if s then nan else inf false
  sin := lift ScalarFns.sin fun _ => nan
  sinh := lift ScalarFns.sinh inf
  asin := liftOn (fun x => |x| ≤ 1) ScalarFns.asin fun _ => nan
  asinh := lift ScalarFns.asinh inf
  tan := lift ScalarFns.tan fun _ => nan
  tanh := lift ScalarFns.tanh fun s => if s then -1 else 1
  atan := lift ScalarFns.atan fun s => round (if s then -(Real.pi / 2) else Real.pi / 2)
  atanh
    | num x _ => if |x| = 1 then inf (decide (x < 0)) else if |x| < 1 then round (ScalarFns.atanh x) else nan
    | _ => nan
  gamma := liftOn NoPole ScalarFns.gamma fun s => if s then nan else inf false
  digamma := liftOn NoPole ScalarFns.digamma fun s => if s then nan else inf false
  loggamma := liftOn NoPole ScalarFns.loggamma fun _ => inf false
  erf := lift ScalarFns.erf fun s => if s then -1 else 1

theorem finite_round {x : ℝ} :
    (round x : Fp p q E).Finite ↔ |fround p q x| ≤ largest p E := by
  unfold round
  split <;> simp [Finite, *]

theorem val_round {x : ℝ} (h : (round x : Fp p q E).Finite) : (round x : Fp p q E).val = fround p q x := by
  have h' := finite_round.1 h
  simp [round, h', val]

theorem round_fin {x : ℝ} (h : |x| ≤ largest p E) : (round x : Fp p q E).Finite :=
  finite_round.2 (fround_le h)

theorem grid_of {x : ℝ} (h : fround p q x = x) : OnGrid q x := h ▸ fround_grid x

theorem two_eq (hp : 1 ≤ p) : ∃ h, (1 + 1 : Fp p q E) = num 2 h := by
  have h2 : fround p q 2 = 2 := by
    have := fround_small (p := p) (q := q) (m := 2) (by
      calc |(2 : ℤ)| = 2 ^ 1 := by norm_num
        _ < 2 ^ (p + 1) := pow_lt_pow_right₀ (by norm_num) (by omega))
    simpa using this
  have h3 : (2 : ℝ) ≤ largest p E := by
    unfold largest
    have h1 : (2 : ℝ) ^ 1 ≤ 2 ^ p := pow_le_pow_right₀ (by norm_num) hp
    have h2 : (1 : ℝ) ≤ 2 ^ E := one_le_pow₀ (by norm_num)
    have h3 : (3 : ℝ) ≤ 2 ^ (p + 1) - 1 := by rw [pow_succ]; linarith
    nlinarith
  have h4 : Represents p q E 2 := ⟨h2, by rw [abs_of_pos (by norm_num)]; exact h3⟩
  refine ⟨h4, ?_⟩
  show round ((1 : ℝ) + 1) = _
  have e : (1 : ℝ) + 1 = 2 := by norm_num
  rw [e]
  unfold round
  rw [dif_pos (by rw [h2]; exact h4.2)]
  congr

theorem pow_two_eq {x : ℝ} (hx : Represents p q E x) (h2 : Represents p q E 2) :
    (ScalarFns.pow (num x hx) (num 2 h2) : Fp p q E) = round (x ^ 2) := by
  have h : Int.fract (2 : ℝ) = 0 := by
    rw [show (2 : ℝ) = ((2 : ℤ) : ℝ) by norm_num, Int.fract_intCast]
  simp only [ScalarFns.pow]
  rw [if_neg (fun hc => hc.2 h), if_neg (fun hc => absurd hc.2 (by norm_num)),
    show (2 : ℝ) = ((2 : ℕ) : ℝ) by norm_num, Real.rpow_natCast]

/-- Powers of two are numbers of the format. -/
theorem represents_two_pow {k : ℤ} (h1 : -(q : ℤ) ≤ k) (h2 : k ≤ E) :
    Represents p q E ((2 : ℝ) ^ k) := by
  have hpos : (0 : ℝ) < 2 ^ k := by positivity
  have hpl : place p q ((2 : ℝ) ^ k) ≤ k := by
    unfold place
    rw [abs_of_pos hpos, show (2 : ℝ) = ((2 : ℕ) : ℝ) by norm_num, Int.log_zpow (by norm_num)]
    exact max_le (by omega) h1
  obtain ⟨d, hd⟩ : ∃ d : ℕ, k = place p q ((2 : ℝ) ^ k) + d :=
    ⟨(k - place p q ((2 : ℝ) ^ k)).toNat, by omega⟩
  refine ⟨fround_of_mul (m := 2 ^ d) ?_, ?_⟩
  · conv_lhs => rw [hd, zpow_add₀ (by norm_num), zpow_natCast]
    push_cast; ring
  · rw [abs_of_pos hpos]
    refine (zpow_le_zpow_right₀ (by norm_num) h2).trans ?_
    rw [zpow_natCast]
    unfold largest
    have h1 : (1 : ℝ) ≤ 2 ^ p := one_le_pow₀ (by norm_num)
    have h3 : (1 : ℝ) ≤ 2 ^ (p + 1) - 1 := by rw [pow_succ]; linarith
    exact le_mul_of_one_le_left (by positivity) h3

/-- Less than half the smallest positive number is rounded to zero. -/
theorem fround_tiny {x : ℝ} (h : |x| < 1 / 2 * 2 ^ (-(q : ℤ))) : fround p q x = 0 := by
  have hg : (0 : ℝ) < 2 ^ (-(q : ℤ)) := by positivity
  by_cases hx : x = 0
  · rw [hx, fround_zero]
  have hpl : place p q x = -(q : ℤ) := by
    refine max_eq_right ?_
    have h1 : |x| < 2 ^ (-(q : ℤ)) := by linarith
    have := (Int.lt_zpow_iff_log_lt (b := 2) (by norm_num) (abs_pos.2 hx)).1 (by exact_mod_cast h1)
    omega
  have h1 := abs_sub_roundEven (x / 2 ^ (-(q : ℤ)))
  have h2 : |x / 2 ^ (-(q : ℤ))| < 1 / 2 := by
    rw [abs_div, abs_of_pos hg, div_lt_iff₀ hg]; exact h
  have h3 : |(roundEven (x / 2 ^ (-(q : ℤ))) : ℝ)| < 1 := by
    have := abs_sub_abs_le_abs_sub (roundEven (x / 2 ^ (-(q : ℤ))) : ℝ) (x / 2 ^ (-(q : ℤ)))
    rw [abs_sub_comm] at this
    linarith
  have h4 : roundEven (x / 2 ^ (-(q : ℤ))) = 0 := by
    rw [← Int.cast_abs] at h3
    have : |roundEven (x / 2 ^ (-(q : ℤ)))| < 1 := by exact_mod_cast h3
    exact Int.abs_lt_one_iff.1 this
  unfold fround
  rw [hpl, h4]; simp

/-- More than twice the largest number overflows. -/
theorem round_large {x : ℝ} (h : 2 * largest p E < x) (hl : 2 ^ (p - q : ℤ) ≤ x) :
    (round x : Fp p q E) = inf false := by
  have h1 := one_le_largest (p := p) (E := E)
  have hx : 0 < x := by linarith
  have h2 := fround_abs (p := p) (q := q) x
  rw [abs_of_pos hx, max_eq_left hl] at h2
  have h3 : (1 : ℝ) / 2 ^ (p + 1) ≤ 1 / 2 := by
    refine one_div_le_one_div_of_le (by norm_num) ?_
    calc (2 : ℝ) = 2 ^ 1 := by norm_num
      _ ≤ 2 ^ (p + 1) := pow_le_pow_right₀ (by norm_num) (by omega)
  have h4 : |fround p q x - x| ≤ 1 / 2 * x := h2.trans (mul_le_mul_of_nonneg_right h3 hx.le)
  have h5 : ¬ |fround p q x| ≤ largest p E := by
    have := (abs_le.1 h4).1
    have := le_abs_self (fround p q x)
    intro hc
    linarith
  unfold round
  rw [dif_neg h5]
  simp [hx.le]

/-- IEEE arithmetic satisfies the model. -/
theorem ranged (hp : 1 ≤ p) : Ranged (F := Fp p q E) val Finite (1 / 2 ^ (p + 1)) (2 ^ (p - q : ℤ))
    (largest p E) where
  nonneg := by positivity
  two_le := by
    obtain ⟨h, _⟩ := two_eq (p := p) (q := q) (E := E) hp
    have := h.2
    rwa [abs_of_pos (by norm_num)] at this
  zero := ⟨trivial, rfl⟩
  one := ⟨trivial, rfl⟩
  isZero x h := by
    cases x with
    | num x _ => exact ⟨trivial, by simpa [ScalarFns.isZero, val] using h⟩
    | inf s => simp [ScalarFns.isZero] at h
    | nan => simp [ScalarFns.isZero] at h
  neg x := by
    cases x with
    | num x _ => exact ⟨Iff.rfl, fun _ => rfl⟩
    | inf s => exact ⟨Iff.rfl, fun h => h.elim⟩
    | nan => exact ⟨Iff.rfl, fun h => h.elim⟩
  add x y h := by
    match x, y, h with
    | num x hx, num y hy, h =>
      refine ⟨trivial, trivial, ?_⟩
      have e := val_round (p := p) (q := q) (E := E) (x := x + y) h
      change |val (round (x + y) : Fp p q E) - (x + y)| ≤ _ * |x + y|
      rw [e]
      obtain ⟨a, ha⟩ := grid_of hx.1
      obtain ⟨b, hb⟩ := grid_of hy.1
      exact fround_relative ⟨a + b, by push_cast; rw [ha, hb]; ring⟩
    | num _ _, inf _, h => exact h.elim
    | num _ _, nan, h => exact h.elim
    | inf _, num _ _, h => exact h.elim
    | inf s, inf t, h =>
      have h' : (if s = t then inf s else nan : Fp p q E).Finite := h
      split at h' <;> exact h'.elim
    | inf _, nan, h => exact h.elim
    | nan, _, h => exact h.elim
  add_fin x y hx hy h := by
    match x, y, hx, hy, h with
    | num x _, num y _, _, _, h => exact round_fin (p := p) (q := q) h
  sub x y h := by
    match x, y, h with
    | num x hx, num y hy, h =>
      refine ⟨trivial, trivial, ?_⟩
      have e := val_round (p := p) (q := q) (E := E) (x := x - y) h
      change |val (round (x - y) : Fp p q E) - (x - y)| ≤ _ * |x - y|
      rw [e]
      obtain ⟨a, ha⟩ := grid_of hx.1
      obtain ⟨b, hb⟩ := grid_of hy.1
      exact fround_relative ⟨a - b, by push_cast; rw [ha, hb]; ring⟩
    | num _ _, inf _, h => exact h.elim
    | num _ _, nan, h => exact h.elim
    | inf _, num _ _, h => exact h.elim
    | inf s, inf t, h =>
      have h' : (if s = t then nan else inf s : Fp p q E).Finite := h
      split at h' <;> exact h'.elim
    | inf _, nan, h => exact h.elim
    | nan, _, h => exact h.elim
  sub_fin x y hx hy h := by
    match x, y, hx, hy, h with
    | num x _, num y _, _, _, h => exact round_fin (p := p) (q := q) h
  mul x y h := by
    match x, y, h with
    | num x hx, num y hy, h =>
      refine ⟨trivial, trivial, ?_⟩
      have e := val_round (p := p) (q := q) (E := E) (x := x * y) h
      change |val (round (x * y) : Fp p q E) - x * y| ≤ _ * max |x * y| _ ∧
        (x * y = 0 → val (round (x * y) : Fp p q E) = 0)
      rw [e]
      exact ⟨fround_abs _, fun h0 => by rw [h0, fround_zero]⟩
    | num x _, inf s, h =>
      have h' : (if x = 0 then nan else inf (s ^^ decide (x < 0)) : Fp p q E).Finite := h
      split at h' <;> exact h'.elim
    | num _ _, nan, h => exact h.elim
    | inf s, num x _, h =>
      have h' : (if x = 0 then nan else inf (s ^^ decide (x < 0)) : Fp p q E).Finite := h
      split at h' <;> exact h'.elim
    | inf _, inf _, h => exact h.elim
    | inf _, nan, h => exact h.elim
    | nan, _, h => exact h.elim
  mul_fin x y hx hy h := by
    match x, y, hx, hy, h with
    | num x _, num y _, _, _, h => exact round_fin (p := p) (q := q) h
  square x h := by
    obtain ⟨h2, e2⟩ := two_eq (p := p) (q := q) (E := E) hp
    rw [e2] at h ⊢
    cases x with
    | num x hx =>
      have e : (ScalarFns.pow (num x hx) (num 2 h2) : Fp p q E) = round (x ^ 2) := pow_two_eq hx h2
      rw [e] at h ⊢
      rw [val_round h]
      refine ⟨trivial, ?_, fun h0 => ?_⟩
      · have := fround_abs (p := p) (q := q) (x ^ 2)
        rwa [abs_of_nonneg (sq_nonneg x)] at this
      · have h0' : x = 0 := h0
        rw [h0', zero_pow (by norm_num), fround_zero]
    | inf s =>
      obtain ⟨t, e⟩ : ∃ t, (ScalarFns.pow (inf s) (num 2 h2) : Fp p q E) = inf t := by
        simp only [ScalarFns.pow]
        rw [if_neg (by norm_num), if_neg (by norm_num)]
        exact ⟨_, rfl⟩
      rw [e] at h
      exact h.elim
    | nan =>
      have e : (ScalarFns.pow nan (num 2 h2) : Fp p q E) = nan := if_neg (by norm_num)
      rw [e] at h
      exact h.elim
  square_fin x hx h := by
    obtain ⟨h2, e2⟩ := two_eq (p := p) (q := q) (E := E) hp
    rw [e2]
    match x, hx, h with
    | num x hx, _, h =>
      rw [pow_two_eq hx h2]
      exact round_fin (by rw [abs_of_nonneg (sq_nonneg x)]; exact h)
  fromUsize n k h := by
    have h' : (if |fround p q n| ≤ largest p E then some (round n) else none) = some k := h
    split at h'
    · next hn =>
      cases h'
      have hf : (round (n : ℝ) : Fp p q E).Finite := finite_round.2 hn
      refine ⟨hf, ?_⟩
      rw [val_round hf]
      have hg : OnGrid q (n : ℝ) := ⟨n * 2 ^ q, by push_cast; rw [zpow_neg, zpow_natCast]; field_simp⟩
      have := fround_relative (p := p) hg
      by_cases h0 : (n : ℝ) = 0
      · exact ⟨0, by simp, by rw [h0, fround_zero]; simp⟩
      · refine ⟨(fround p q n - n) / n, ?_, by field_simp; ring⟩
        rwa [abs_div, div_le_iff₀ (abs_pos.2 h0)]
    · cases h'

end Fp

end Aegir.Spec
