import Verif.Lemmas.IeeeExp
import Verif.Lemmas.Calculus
/-!
# NaN and exact results in floating-point arithmetic
-/

namespace Aegir.Spec

theorem fract_half {x : ℝ} : Int.fract x = 1 / 2 ↔ ∃ k : ℤ, x = k + 1 / 2 := by
  constructor
  · intro h
    exact ⟨⌊x⌋, by have := Int.floor_add_fract x; linarith⟩
  · rintro ⟨k, rfl⟩
    rw [Int.fract_intCast_add, Int.fract_eq_self]
    norm_num

/-- Rounding is odd, except for ties. -/
theorem round_neg_of {x : ℝ} (h : Int.fract x ≠ 1 / 2) : round (-x) = -round x := by
  have h1 := abs_le.1 (abs_sub_round x)
  rw [round_eq (-x), Int.floor_eq_iff]
  push_cast
  refine ⟨by linarith, lt_of_le_of_ne (by linarith) fun hc => h (fract_half.2 ⟨round x - 1, ?_⟩)⟩
  push_cast
  linarith

theorem roundEven_neg (x : ℝ) : roundEven (-x) = -roundEven x := by
  unfold roundEven
  by_cases h : Int.fract x = 1 / 2
  · obtain ⟨k, hk⟩ := fract_half.1 h
    have h1 : Int.fract (-x) = 1 / 2 := fract_half.2 ⟨-k - 1, by push_cast; linarith⟩
    rw [if_pos h, if_pos h1, neg_div, round_neg_of, mul_neg]
    intro h2
    obtain ⟨m, hm⟩ := fract_half.1 h2
    have h3 : (2 * m + 1 : ℤ) = (k : ℝ) + 1 / 2 := by push_cast; linarith
    have h4 : ((2 * (2 * m + 1) : ℤ) : ℝ) = ((2 * k + 1 : ℤ) : ℝ) := by push_cast at h3 ⊢; linarith
    have := Int.cast_injective h4
    omega
  · have h1 : Int.fract (-x) ≠ 1 / 2 := fun h1 => by
      obtain ⟨k, hk⟩ := fract_half.1 h1
      exact h (fract_half.2 ⟨-k - 1, by push_cast; linarith⟩)
    rw [if_neg h, if_neg h1, round_neg_of h]

theorem fround_neg {p q : ℕ} (x : ℝ) : fround p q (-x) = -fround p q x := by
  unfold fround place
  rw [abs_neg, neg_div, roundEven_neg]
  push_cast
  ring

/-- Doubling is exact. -/
theorem fround_double {p q : ℕ} {x : ℝ} (h : fround p q x = x) : fround p q (2 * x) = 2 * x := by
  by_cases h0 : x = 0
  · rw [h0, mul_zero, fround_zero]
  obtain ⟨m, hm⟩ : ∃ m : ℤ, x = m * 2 ^ place p q x := ⟨_, h.symm⟩
  have hl : Int.log 2 |2 * x| = Int.log 2 |x| + 1 := by
    have hx : 0 < |x| := abs_pos.2 h0
    have h2 : 0 < |2 * x| := abs_pos.2 (mul_ne_zero two_ne_zero h0)
    have l1 := Int.zpow_log_le_self (b := 2) (by norm_num) hx
    have l2 := Int.lt_zpow_succ_log_self (b := 2) (by norm_num) (|x|)
    have e : |2 * x| = 2 * |x| := by rw [abs_mul, abs_of_pos (by norm_num : (0 : ℝ) < 2)]
    push_cast at l1 l2
    apply le_antisymm
    · have : Int.log 2 |2 * x| < Int.log 2 |x| + 2 := by
        rw [← Int.lt_zpow_iff_log_lt (by norm_num) h2, e]
        push_cast
        rw [zpow_add₀ (by norm_num)] at l2 ⊢
        norm_num at l2 ⊢
        linarith
      omega
    · rw [← Int.zpow_le_iff_le_log (by norm_num) h2, e]
      push_cast
      rw [zpow_add₀ (by norm_num)]
      norm_num
      linarith
  have hp : place p q (2 * x) = place p q x + 1 ∨ place p q (2 * x) = place p q x := by
    unfold place
    rw [hl]
    omega
  rcases hp with hp | hp
  · refine fround_of_mul (m := m) ?_
    rw [hp, zpow_add₀ (by norm_num), zpow_one]
    linear_combination 2 * hm
  · refine fround_of_mul (m := 2 * m) ?_
    rw [hp]
    push_cast
    linear_combination 2 * hm

namespace Fp
variable {p q E : ℕ}

theorem round_ne_nan (x : ℝ) : (round x : Fp p q E) ≠ nan := by
  unfold round
  split <;> simp

theorem round_cases (x : ℝ) : (∃ h : Represents p q E (fround p q x), (round x : Fp p q E) = num (fround p q x) h) ∨
    (round x : Fp p q E) = inf (decide (x < 0)) ∧ largest p E < |fround p q x| := by
  by_cases h : |fround p q x| ≤ largest p E
  · exact .inl ⟨⟨fround_idem x, h⟩, dif_pos h⟩
  · exact .inr ⟨dif_neg h, not_le.1 h⟩

theorem round_rep {x : ℝ} (h : Represents p q E x) : (round x : Fp p q E) = num x h := by
  have h1 : |fround p q x| ≤ largest p E := by rw [h.1]; exact h.2
  unfold round
  rw [dif_pos h1]
  simp only [h.1]

theorem neg_round (x : ℝ) : -(round x : Fp p q E) = round (-x) := by
  by_cases h : |fround p q x| ≤ largest p E
  · have h' : |fround p q (-x)| ≤ largest p E := by rwa [fround_neg, abs_neg]
    unfold round
    rw [dif_pos h, dif_pos h']
    simp only [fround_neg]
    rfl
  · have h' : ¬ |fround p q (-x)| ≤ largest p E := by rwa [fround_neg, abs_neg]
    have h0 : x ≠ 0 := fun h0 => h (by rw [h0, fround_zero, abs_zero]; linarith [one_le_largest (p := p) (E := E)])
    unfold round
    rw [dif_neg h, dif_neg h']
    show inf (!decide (x < 0)) = _
    congr 1
    rcases lt_or_gt_of_ne h0 with hl | hl
    · simp [hl, hl.le]
    · simp [hl, hl.le]

theorem mul_one' (x : Fp p q E) : x * 1 = x := by
  cases x with
  | num x h =>
    show round (x * 1) = _
    rw [mul_one, round_rep h]
  | inf s =>
    show (if (1 : ℝ) = 0 then nan else inf (s ^^ decide ((1 : ℝ) < 0))) = _
    rw [if_neg one_ne_zero, decide_eq_false (by norm_num), Bool.xor_false]
  | nan => rfl

theorem one_mul' (x : Fp p q E) : 1 * x = x := by
  cases x with
  | num x h =>
    show round (1 * x) = _
    rw [one_mul, round_rep h]
  | inf s =>
    show (if (1 : ℝ) = 0 then nan else inf (s ^^ decide ((1 : ℝ) < 0))) = _
    rw [if_neg one_ne_zero, decide_eq_false (by norm_num), Bool.xor_false]
  | nan => rfl

theorem isZero_zero : ScalarFns.isZero (0 : Fp p q E) = true := decide_eq_true rfl

theorem neg_ne_nan {x : Fp p q E} : -x = nan ↔ x = nan := by
  cases x <;> simp [Neg.neg]

theorem add_one_nan {x : Fp p q E} : x + 1 = nan ↔ x = nan := by
  cases x with
  | num x h => exact ⟨fun h => absurd h (round_ne_nan _), fun h => by cases h⟩
  | inf s => exact ⟨(by intro h; cases h), (by intro h; cases h)⟩
  | nan => exact ⟨fun _ => rfl, fun _ => rfl⟩

/-- The square of everything but NaN. -/
theorem square_nan (hp : 1 ≤ p) {x : Fp p q E} : ScalarFns.pow x (1 + 1) = nan ↔ x = nan := by
  obtain ⟨h2, e2⟩ := two_eq (p := p) (q := q) (E := E) hp
  rw [e2]
  cases x with
  | num x h =>
    rw [pow_two_eq h h2]
    exact ⟨fun h => absurd h (round_ne_nan _), fun h => by cases h⟩
  | inf s =>
    simp only [ScalarFns.pow]
    rw [if_neg (by norm_num), if_neg (by norm_num)]
    exact ⟨(by intro h; cases h), (by intro h; cases h)⟩
  | nan => exact ⟨fun _ => rfl, fun _ => if_neg (by norm_num)⟩

theorem double_nan (hp : 1 ≤ p) {x : Fp p q E} : (1 + 1) * x = nan ↔ x = nan := by
  obtain ⟨h2, e2⟩ := two_eq (p := p) (q := q) (E := E) hp
  rw [e2]
  cases x with
  | num x h => exact ⟨fun h => absurd h (round_ne_nan _), fun h => by cases h⟩
  | inf s =>
    show (if (2 : ℝ) = 0 then nan else inf (s ^^ decide ((2 : ℝ) < 0))) = nan ↔ _
    rw [if_neg two_ne_zero]
    exact ⟨(by intro h; cases h), (by intro h; cases h)⟩
  | nan => exact ⟨fun _ => rfl, fun _ => rfl⟩

theorem round_zero : (round 0 : Fp p q E) = 0 := round_rep represents_zero
theorem round_one : (round 1 : Fp p q E) = 1 := round_rep represents_one

theorem rabbit_nan {x : Fp p q E} : x * (1 - x) = nan ↔ x = nan := by
  cases x with
  | num x h =>
    refine ⟨fun hn => ?_, fun h => by cases h⟩
    exfalso
    by_cases h0 : x = 0
    · subst h0
      have e : (1 - num 0 h : Fp p q E) = 1 := by
        show round (1 - 0) = _
        rw [sub_zero, round_one]
      rw [e, mul_one'] at hn
      cases hn
    · have e : (1 - num x h : Fp p q E) = round (1 - x) := rfl
      rw [e] at hn
      unfold round at hn
      split at hn
      · exact round_ne_nan _ hn
      · have hn' : (if x = 0 then nan else inf (decide (1 - x < 0) ^^ decide (x < 0)) : Fp p q E) = nan := hn
        rw [if_neg h0] at hn'
        cases hn'
  | inf s => cases s <;> exact ⟨(by intro h; cases h), (by intro h; cases h)⟩
  | nan => exact ⟨fun _ => rfl, fun _ => rfl⟩

theorem xlnx_nan {x : Fp p q E} : UnOp.apply .xlnx x = nan ↔ x = nan := by
  cases x with
  | num x h =>
    refine ⟨fun hn => ?_, fun h => by cases h⟩
    exfalso
    have e : UnOp.apply .xlnx (num x h : Fp p q E) = if x ≤ 0 then 0 else num x h * ScalarFns.ln (num x h) := by
      by_cases h0 : x ≤ 0
      · rw [if_pos h0]
        exact if_pos (decide_eq_true h0)
      · rw [if_neg h0]
        exact if_neg fun hc => h0 (of_decide_eq_true hc)
    rw [e] at hn
    split at hn
    · cases hn
    · next h0 =>
      have e2 : (ScalarFns.ln (num x h) : Fp p q E) = round (ScalarFns.ln x) := by
        simp only [ScalarFns.ln]
        rw [if_neg (by linarith), if_neg (by linarith)]
      rw [e2] at hn
      unfold round at hn
      split at hn
      · exact round_ne_nan _ hn
      · have hn' : (if x = 0 then nan else inf (decide (ScalarFns.ln x < 0) ^^ decide (x < 0)) : Fp p q E) = nan := hn
        rw [if_neg (by linarith)] at hn'
        cases hn'
  | inf s =>
    refine ⟨fun hn => ?_, fun h => by cases h⟩
    cases s <;> simp [UnOp.apply, ScalarFns.leb, ScalarFns.ln] at hn
  | nan => exact ⟨fun _ => rfl, fun _ => rfl⟩

/-- The exponential of a number: at least zero. -/
theorem exp_num {x : ℝ} {h : Represents p q E x} :
    (∃ e he, (ScalarFns.exp (num x h) : Fp p q E) = num e he ∧ 0 ≤ e) ∨
      (ScalarFns.exp (num x h) : Fp p q E) = inf false ∧ 0 < x := by
  have e : (ScalarFns.exp (num x h) : Fp p q E) = round (Real.exp x) := rfl
  have h0 : 0 ≤ fround p q (Real.exp x) := fround_ge fround_zero (Real.exp_pos x).le
  have h1 : x ≤ 0 → fround p q (Real.exp x) ≤ 1 := fun hx =>
    fround_le' (represents_one (E := E)).1 (Real.exp_le_one_iff.2 hx)
  rw [e]
  rcases round_cases (p := p) (q := q) (E := E) (Real.exp x) with ⟨hr, er⟩ | ⟨er, hl⟩
  · exact .inl ⟨_, hr, er, h0⟩
  · refine .inr ⟨by rw [er, decide_eq_false (by have := Real.exp_pos x; linarith)], ?_⟩
    by_contra hc
    have := h1 (not_lt.1 hc)
    rw [abs_of_nonneg h0] at hl
    exact absurd (this.trans one_le_largest) (not_le.2 hl)

/-- `1 / (1 + e)` and `e / (1 + e)` for `e ≥ 0` are in the unit interval. -/
theorem unit_quot {a e : ℝ} (ha : Represents p q E a) (he : Represents p q E e) (h0 : 0 ≤ e) (ha0 : 0 ≤ a)
    (hr : a ≤ fround p q (1 + e)) :
    ∃ s hs, (num a ha / (1 + num e he) : Fp p q E) = num s hs ∧ 0 ≤ s ∧ s ≤ 1 := by
  have e1 : (1 + num e he : Fp p q E) = round (1 + e) := rfl
  have hge : 1 ≤ fround p q (1 + e) := fround_ge (represents_one (E := E)).1 (by linarith)
  rw [e1]
  rcases round_cases (p := p) (q := q) (E := E) (1 + e) with ⟨hy, er⟩ | ⟨er, hl⟩
  · have e2 : (num a ha / num (fround p q (1 + e)) hy : Fp p q E) = round (a / fround p q (1 + e)) := by
      show (if fround p q (1 + e) = 0 then _ else _) = _
      rw [if_neg (by linarith)]
    rw [er, e2]
    have h1 : 0 ≤ a / fround p q (1 + e) := div_nonneg ha0 (by linarith)
    have h2 : a / fround p q (1 + e) ≤ 1 := (div_le_one (by linarith)).2 hr
    have h3 := fround_ge (p := p) (q := q) fround_zero h1
    have h4 := fround_le' (p := p) (q := q) (represents_one (E := E)).1 h2
    refine ⟨_, ⟨fround_idem _, ?_⟩, dif_pos ?_, h3, h4⟩ <;>
      (rw [abs_of_nonneg h3]; exact h4.trans one_le_largest)
  · rw [er]
    exact ⟨0, represents_zero, rfl, le_refl _, zero_le_one⟩

/-- The sigmoid of everything but NaN is a number in the unit interval. -/
theorem sigmoid_unit {x : Fp p q E} (hx : x ≠ nan) : ∃ s hs, sigmoid x = num s hs ∧ 0 ≤ s ∧ s ≤ 1 := by
  have one : (1 : Fp p q E) = num 1 represents_one := rfl
  cases x with
  | num x h =>
    by_cases h0 : 0 ≤ x
    · have e : sigmoid (num x h : Fp p q E) = 1 / (1 + ScalarFns.exp (-num x h)) := if_pos (decide_eq_true h0)
      rw [e]
      rcases exp_num (x := -x) (h := ⟨fround_neg_of h.1, by rw [abs_neg]; exact h.2⟩) with ⟨e, he, h1, h2⟩ | ⟨h1, h2⟩
      · rw [show (-num x h : Fp p q E) = num (-x) _ from rfl, h1]
        exact unit_quot represents_one he h2 zero_le_one (fround_ge (represents_one (E := E)).1 (by linarith))
      · linarith
    · have e : sigmoid (num x h : Fp p q E) = ScalarFns.exp (num x h) / (1 + ScalarFns.exp (num x h)) :=
        if_neg (fun hc => h0 (of_decide_eq_true hc))
      rw [e]
      rcases exp_num (x := x) (h := h) with ⟨e, he, h1, h2⟩ | ⟨h1, h2⟩
      · rw [h1]
        exact unit_quot he he h2 h2 (fround_ge he.1 (by linarith))
      · linarith
  | inf s =>
    cases s
    · have e : sigmoid (inf false : Fp p q E) = 1 / (1 + 0) := rfl
      rw [e]
      exact unit_quot represents_one represents_zero le_rfl zero_le_one (fround_ge (represents_one (E := E)).1 (by linarith))
    · have e : sigmoid (inf true : Fp p q E) = 0 / (1 + 0) := rfl
      rw [e]
      exact unit_quot represents_zero represents_zero le_rfl le_rfl (fround_ge fround_zero (by linarith))
  | nan => exact absurd rfl hx

end Fp

end Aegir.Spec
