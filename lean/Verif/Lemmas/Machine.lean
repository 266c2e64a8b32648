import Verif.Spec.Machine
import Verif.Lemmas.RoundingExpr
import Mathlib.Algebra.Order.BigOperators.Group.Finset
import Mathlib.Tactic.NormNum
/-!
# Machine integers, numbers with NaN and intervals stand soundly for numbers
-/

namespace Aegir

open Spec

namespace Spec.Checked
variable {lo hi : ℤ}

theorem fit_val {m n : ℤ} (h : (fit m : Checked lo hi).val = some n) : m = n := by
  unfold fit at h
  simp only at h
  split at h
  · exact Option.some.inj h
  · cases h

theorem lift_val {f : ℤ → ℤ → ℤ} {x y : Checked lo hi} {n : ℤ} (h : (lift f x y).val = some n) :
    ∃ a b, x.val = some a ∧ y.val = some b ∧ f a b = n := by
  unfold lift at h
  split at h
  · next a b ha hb => exact ⟨a, b, ha, hb, fit_val h⟩
  · cases h

theorem sound {G : Type} [CommRing G] : Sound (Is : Checked lo hi → G → Prop) where
  zero n h := by cases h; simp
  one n h := by cases h; simp
  add hx hy n h := by
    obtain ⟨a, b, ha, hb, rfl⟩ := lift_val h
    rw [hx a ha, hy b hb]; push_cast; rfl
  sub hx hy n h := by
    obtain ⟨a, b, ha, hb, rfl⟩ := lift_val h
    rw [hx a ha, hy b hb]; push_cast; rfl
  mul hx hy n h := by
    obtain ⟨a, b, ha, hb, rfl⟩ := lift_val h
    rw [hx a ha, hy b hb]; push_cast; rfl
  isZero_zero := rfl
  zero_add h0 hx hy n h := by
    rw [hx 0 (by simpa [ScalarFns.isZero] using h0), hy n h]; simp
  sub_zero h0 hx hy n h := by
    rw [hy 0 (by simpa [ScalarFns.isZero] using h0), hx n h]; simp
  zero_mul h0 hx hy n h := by
    cases h
    rw [hx 0 (by simpa [ScalarFns.isZero] using h0)]; simp
  times {m k x a} hk hx n h := by
    simp only [ScalarFns.fromUsize] at hk
    split at hk
    · cases hk
      obtain ⟨p, q, hp, hq, rfl⟩ := lift_val h
      cases hp
      rw [Finset.sum_congr rfl fun i hi => hx i (Finset.mem_range.1 hi) q hq]
      simp
    · cases hk
  times_mul {m k x y a b} hk hx hy n h := by
    simp only [ScalarFns.fromUsize] at hk
    split at hk
    · cases hk
      obtain ⟨p, q, hp, hq, rfl⟩ := lift_val h
      obtain ⟨p', r, hp', hr, rfl⟩ := lift_val hp
      cases hp'
      rw [Finset.sum_congr rfl fun i hi => by
        rw [hx i (Finset.mem_range.1 hi) r hr, hy i (Finset.mem_range.1 hi) q hq]]
      simp [mul_assoc]
    · cases hk

theorem neg {G : Type} [CommRing G] {x : Checked lo hi} {a : G} (hx : x.Is a) : (-x).Is (-a) := by
  intro n h
  obtain ⟨_, b, _, hb, rfl⟩ := lift_val h
  rw [hx b hb]; push_cast; rfl

theorem square_int {x : Checked lo hi} {a : ℤ} (hx : x.Is a) :
    (ScalarFns.pow x (1 + 1)).Is (ScalarFns.pow a (1 + 1)) := by
  intro n h
  obtain ⟨p, q, hp, hq, rfl⟩ := lift_val h
  have hq' : q = 1 + 1 := by
    obtain ⟨_, _, h1, h2, rfl⟩ := lift_val hq
    cases h1; cases h2; rfl
  rw [hx p hp, hq']; rfl

theorem square_real {x : Checked lo hi} {a : ℝ} (hx : x.Is a) :
    (ScalarFns.pow x (1 + 1)).Is (ScalarFns.pow a (1 + 1)) := by
  intro n h
  obtain ⟨p, q, hp, hq, rfl⟩ := lift_val h
  have hq' : q = 1 + 1 := by
    obtain ⟨_, _, h1, h2, rfl⟩ := lift_val hq
    cases h1; cases h2; rfl
  rw [hx p hp, hq', rpow_two']
  push_cast
  rfl

end Spec.Checked

namespace Spec.NanInt

theorem lift2_val {f : ℤ → ℤ → ℤ} {x y : NanInt} {n : ℤ} (h : (lift2 f x y).val = some n) :
    ∃ a b, x.val = some a ∧ y.val = some b ∧ f a b = n := by
  simp only [lift2, Option.bind_eq_some_iff, Option.map_eq_some_iff] at h
  obtain ⟨a, ha, b, hb, rfl⟩ := h
  exact ⟨a, b, ha, hb, rfl⟩

theorem val_of_isZero {x : NanInt} (h : ScalarFns.isZero x = true) : x.val = some 0 := by
  have : x = 0 := by simpa [ScalarFns.isZero] using h
  rw [this]; rfl

theorem sound : Sound NanInt.Is where
  zero n h := by cases h; rfl
  one n h := by cases h; rfl
  add hx hy n h := by
    obtain ⟨a, b, ha, hb, rfl⟩ := lift2_val h
    rw [hx a ha, hy b hb]
  sub hx hy n h := by
    obtain ⟨a, b, ha, hb, rfl⟩ := lift2_val h
    rw [hx a ha, hy b hb]
  mul hx hy n h := by
    obtain ⟨a, b, ha, hb, rfl⟩ := lift2_val h
    rw [hx a ha, hy b hb]
  isZero_zero := rfl
  zero_add h0 hx hy n h := by rw [hx 0 (val_of_isZero h0), hy n h]; simp
  sub_zero h0 hx hy n h := by rw [hy 0 (val_of_isZero h0), hx n h]; simp
  zero_mul h0 hx hy n h := by
    cases h
    rw [hx 0 (val_of_isZero h0)]; simp
  times {m k x a} hk hx n h := by
    cases hk
    obtain ⟨p, q, hp, hq, rfl⟩ := lift2_val h
    cases hp
    rw [Finset.sum_congr rfl fun i hi => hx i (Finset.mem_range.1 hi) q hq]
    simp
  times_mul {m k x y a b} hk hx hy n h := by
    cases hk
    obtain ⟨p, q, hp, hq, rfl⟩ := lift2_val h
    obtain ⟨p', r, hp', hr, rfl⟩ := lift2_val hp
    cases hp'
    rw [Finset.sum_congr rfl fun i hi => by
      rw [hx i (Finset.mem_range.1 hi) r hr, hy i (Finset.mem_range.1 hi) q hq]]
    simp [mul_assoc]

theorem neg {x : NanInt} {a : ℤ} (hx : x.Is a) : (-x).Is (-a) := by
  intro n h
  obtain ⟨p, hp, rfl⟩ := Option.map_eq_some_iff.1 h
  rw [hx p hp]

theorem square {x : NanInt} {a : ℤ} (hx : x.Is a) :
    (ScalarFns.pow x (1 + 1)).Is (ScalarFns.pow a (1 + 1)) := by
  intro n h
  obtain ⟨p, q, hp, hq, rfl⟩ := lift2_val h
  have hq' : q = 1 + 1 := by
    obtain ⟨_, _, h1, h2, rfl⟩ := lift2_val hq
    cases h1; cases h2; rfl
  rw [hx p hp, hq']; rfl

end Spec.NanInt

namespace Spec.Interval

theorem between {a l h c : ℝ} (hl : l ≤ a) (hh : a ≤ h) :
    min (l * c) (h * c) ≤ a * c ∧ a * c ≤ max (l * c) (h * c) := by
  rcases le_total 0 c with hc | hc
  · exact ⟨(min_le_left _ _).trans (mul_le_mul_of_nonneg_right hl hc),
      (mul_le_mul_of_nonneg_right hh hc).trans (le_max_right _ _)⟩
  · exact ⟨(min_le_right _ _).trans (mul_le_mul_of_nonpos_right hh hc),
      (mul_le_mul_of_nonpos_right hl hc).trans (le_max_left _ _)⟩

theorem mul_has {x y : Interval} {a b : ℝ} (hx : x.Has a) (hy : y.Has b) : (x * y).Has (a * b) := by
  have h1 := between (c := b) hx.1 hx.2
  have h2 := between (c := x.lo) hy.1 hy.2
  have h3 := between (c := x.hi) hy.1 hy.2
  rw [mul_comm y.lo, mul_comm b, mul_comm y.hi] at h2 h3
  constructor
  · show min (min _ _) (min _ _) ≤ _
    refine le_trans ?_ h1.1
    exact min_le_min h2.1 h3.1
  · show _ ≤ max (max _ _) (max _ _)
    refine le_trans h1.2 ?_
    exact max_le_max h2.2 h3.2

theorem eq_of_isZero {x : Interval} {a : ℝ} (h : ScalarFns.isZero x = true) (hx : x.Has a) : a = 0 := by
  have h : x.lo = 0 ∧ x.hi = 0 := by simpa [ScalarFns.isZero] using h
  exact le_antisymm (h.2 ▸ hx.2) (h.1 ▸ hx.1)

/-- A sum of `n` numbers is in every interval containing `n` times each of them. -/
theorem sum_has {I : Interval} {n : ℕ} {c : ℕ → ℝ} (hn : n ≠ 0) (h : ∀ i < n, I.Has (n * c i)) :
    I.Has (∑ i ∈ Finset.range n, c i) := by
  have hn' : (0 : ℝ) < n := Nat.cast_pos.2 (Nat.pos_of_ne_zero hn)
  have h1 : (n : ℝ) * I.lo ≤ n * ∑ i ∈ Finset.range n, c i := by
    rw [Finset.mul_sum]
    have := Finset.card_nsmul_le_sum (Finset.range n) (fun i => (n : ℝ) * c i) I.lo
      fun i hi => (h i (Finset.mem_range.1 hi)).1
    simpa using this
  have h2 : (n : ℝ) * ∑ i ∈ Finset.range n, c i ≤ n * I.hi := by
    rw [Finset.mul_sum]
    have := Finset.sum_le_card_nsmul (Finset.range n) (fun i => (n : ℝ) * c i) I.hi
      fun i hi => (h i (Finset.mem_range.1 hi)).2
    simpa using this
  exact ⟨le_of_mul_le_mul_left h1 hn', le_of_mul_le_mul_left h2 hn'⟩

theorem sound : Sound Interval.Has where
  zero := ⟨le_rfl, le_rfl⟩
  one := ⟨le_rfl, le_rfl⟩
  add hx hy := ⟨add_le_add hx.1 hy.1, add_le_add hx.2 hy.2⟩
  sub hx hy := ⟨sub_le_sub hx.1 hy.2, sub_le_sub hx.2 hy.1⟩
  mul := mul_has
  isZero_zero := by
    have : (0 : Interval).lo = 0 ∧ (0 : Interval).hi = 0 := ⟨rfl, rfl⟩
    simpa [ScalarFns.isZero] using this
  zero_add h0 hx hy := by rw [eq_of_isZero h0 hx, _root_.zero_add]; exact hy
  sub_zero h0 hx hy := by rw [eq_of_isZero h0 hy, _root_.sub_zero]; exact hx
  zero_mul h0 hx hy := by rw [eq_of_isZero h0 hx, MulZeroClass.zero_mul]; exact ⟨le_rfl, le_rfl⟩
  times {n k x a} hk hx := by
    cases hk
    by_cases hn : n = 0
    · subst hn
      have e : ((⟨(0 : ℕ), (0 : ℕ)⟩ : Interval) * x) = 0 := by
        show hull _ _ _ _ = _
        simp [hull]; rfl
      rw [e]; simp only [Finset.range_zero, Finset.sum_empty]; exact ⟨le_rfl, le_rfl⟩
    · exact sum_has hn fun i hi => mul_has ⟨le_rfl, le_rfl⟩ (hx i hi)
  times_mul {n k x y a b} hk hx hy := by
    cases hk
    by_cases hn : n = 0
    · subst hn
      have e : ((⟨(0 : ℕ), (0 : ℕ)⟩ : Interval) * x) = 0 := by
        show hull _ _ _ _ = _
        simp [hull]; rfl
      have e' : (0 : Interval) * y = 0 := by
        show hull (0 * _) (0 * _) (0 * _) (0 * _) = _
        simp [hull]; rfl
      rw [e, e']; simp only [Finset.range_zero, Finset.sum_empty]; exact ⟨le_rfl, le_rfl⟩
    · refine sum_has hn fun i hi => ?_
      rw [← mul_assoc]
      exact mul_has (mul_has ⟨le_rfl, le_rfl⟩ (hx i hi)) (hy i hi)

theorem neg {x : Interval} {a : ℝ} (hx : x.Has a) : (-x).Has (-a) :=
  ⟨neg_le_neg hx.2, neg_le_neg hx.1⟩

theorem square {x : Interval} {a : ℝ} (hx : x.Has a) :
    (ScalarFns.pow x (1 + 1)).Has (ScalarFns.pow a (1 + 1)) := by
  have e : ScalarFns.pow x (1 + 1) = x * x := if_pos rfl
  rw [e, rpow_two', pow_two]
  exact mul_has hx hx

theorem exp {x : Interval} {a : ℝ} (hx : x.Has a) :
    (UnOp.exp.apply x).Has (UnOp.exp.apply a) :=
  ⟨Real.exp_le_exp.2 hx.1, Real.exp_le_exp.2 hx.2⟩

end Spec.Interval

end Aegir
