import Verif.Spec.SignedZero
import Verif.Spec.Convert
/-!
# Forgetting the sign of zero

Every operation but division and powers commutes with forgetting the sign of zeros (C86).
-/

namespace Aegir.Spec.Sp
variable {p q E : ℕ}

theorem forget_round (s : Bool) (x : ℝ) : (round s x : Sp p q E).forget = Fp.round x := by
  unfold round Fp.round
  split <;> rfl

theorem forget_zero' (s : Bool) : (zero s : Sp p q E).forget = 0 := rfl
theorem forget_zero : (0 : Sp p q E).forget = 0 := rfl
theorem forget_one : (1 : Sp p q E).forget = 1 := rfl

theorem forget_neg (x : Sp p q E) : (-x).forget = -x.forget := by
  cases x <;> rfl

theorem forget_add (x y : Sp p q E) : (x + y).forget = x.forget + y.forget := by
  cases x with
  | fin s x hx hs => cases y with
    | fin t y hy ht => exact forget_round _ _
    | inf t => rfl
    | nan => rfl
  | inf s => cases y with
    | fin t y hy ht => rfl
    | inf t =>
      show forget (if s = t then inf s else nan) = if s = t then .inf s else .nan
      split <;> rfl
    | nan => rfl
  | nan => cases y <;> rfl

theorem forget_sub (x y : Sp p q E) : (x - y).forget = x.forget - y.forget := by
  cases x with
  | fin s x hx hs => cases y with
    | fin t y hy ht => exact forget_round _ _
    | inf t => rfl
    | nan => rfl
  | inf s => cases y with
    | fin t y hy ht => rfl
    | inf t =>
      show forget (if s = t then nan else inf s) = if s = t then .nan else .inf s
      split <;> rfl
    | nan => rfl
  | nan => cases y <;> rfl

open Classical in
theorem forget_mul (x y : Sp p q E) : (x * y).forget = x.forget * y.forget := by
  cases x with
  | fin s x hx hs => cases y with
    | fin t y hy ht => exact forget_round _ _
    | inf t =>
      show forget (if x = 0 then nan else inf (s ^^ t)) = if x = 0 then .nan else .inf (t ^^ decide (x < 0))
      split
      · rfl
      · next h => rw [hs h, Bool.xor_comm]; rfl
    | nan => rfl
  | inf s => cases y with
    | fin t y hy ht =>
      show forget (if y = 0 then nan else inf (s ^^ t)) = if y = 0 then .nan else .inf (s ^^ decide (y < 0))
      split
      · rfl
      · next h => rw [ht h]; rfl
    | inf t => rfl
    | nan => rfl
  | nan => cases y <;> rfl

open Classical in
/-- Division: where the divisor is not zero, or positive. -/
theorem forget_div (x y : Sp p q E) (h : y ≠ zero true) : (x / y).forget = x.forget / y.forget := by
  cases x with
  | fin s x hx hs => cases y with
    | fin t y hy ht =>
      show forget (if y = 0 then (if x = 0 then nan else inf (s ^^ t)) else round (s ^^ t) (x / y)) =
        if y = 0 then (if x = 0 then .nan else .inf (decide (x < 0))) else .round (x / y)
      split
      · next h0 =>
        split
        · rfl
        · next hx0 =>
          subst h0
          have : t = false := by
            cases t
            · rfl
            · exact absurd rfl h
          rw [this, Bool.xor_false, hs hx0]
          rfl
      · exact forget_round _ _
    | inf t => rfl
    | nan => rfl
  | inf s => cases y with
    | fin t y hy ht =>
      show forget (inf (s ^^ t)) = .inf (s ^^ decide (y < 0))
      by_cases h0 : y = 0
      · subst h0
        have : t = false := by
          cases t
          · rfl
          · exact absurd rfl h
        rw [this, decide_eq_false (lt_irrefl _)]
        rfl
      · rw [ht h0]; rfl
    | inf t => rfl
    | nan => rfl
  | nan => cases y <;> rfl

theorem isZero_forget (x : Sp p q E) : ScalarFns.isZero x.forget = ScalarFns.isZero x := by
  cases x <;> rfl

theorem eqb_forget (x y : Sp p q E) : ScalarFns.eqb x.forget y.forget = ScalarFns.eqb x y := by
  cases x <;> cases y <;> rfl

theorem leb_forget (x y : Sp p q E) : ScalarFns.leb x.forget y.forget = ScalarFns.leb x y := by
  cases x <;> cases y <;> rfl

theorem fromUsize_forget (n : ℕ) :
    (ScalarFns.fromUsize n : Option (Fp p q E)) = (ScalarFns.fromUsize n : Option (Sp p q E)).map forget := by
  simp only [ScalarFns.fromUsize]
  split
  · exact congrArg some (forget_round false (n : ℝ)).symm
  · rfl

/-- Forgetting the sign of zero is a conversion of scalars. -/
theorem scalarMap : ScalarMap (forget (p := p) (q := q) (E := E)) :=
  ⟨forget_zero, forget_one, forget_add, forget_sub, forget_mul, isZero_forget, fromUsize_forget⟩

section
variable {f : ℝ → ℝ} {D : ℝ → Prop} {g : Bool → Sp p q E} {k : Bool → Fp p q E}

theorem forget_lift (h : ∀ s, (g s).forget = k s) (x : Sp p q E) :
    (lift f g x).forget = Fp.lift f k x.forget := by
  cases x with
  | fin => exact forget_round _ _
  | inf s => exact h s
  | nan => rfl

theorem forget_liftOdd (h : ∀ s, (g s).forget = k s) (x : Sp p q E) :
    (liftOdd f g x).forget = Fp.lift f k x.forget := by
  cases x with
  | fin => exact forget_round _ _
  | inf s => exact h s
  | nan => rfl

theorem forget_liftOn (h : ∀ s, (g s).forget = k s) (x : Sp p q E) :
    (liftOn D f g x).forget = Fp.liftOn D f k x.forget := by
  cases x with
  | fin s x h hs =>
    simp only [liftOn, Fp.liftOn, forget]
    split_ifs
    · exact forget_round _ _
    · rfl
  | inf s => exact h s
  | nan => rfl

theorem forget_liftOddOn (h : ∀ s, (g s).forget = k s) (x : Sp p q E) :
    (liftOddOn D f g x).forget = Fp.liftOn D f k x.forget := by
  cases x with
  | fin s x h hs =>
    simp only [liftOddOn, Fp.liftOn, forget]
    split_ifs
    · exact forget_round _ _
    · rfl
  | inf s => exact h s
  | nan => rfl

end

/-- The values at the infinities that depend on the sign. -/
theorem forget_cond (x y : Sp p q E) (s : Bool) :
    (if s then x else y : Sp p q E).forget = if s then x.forget else y.forget := by
  cases s <;> rfl

theorem forget_atanh (x : Sp p q E) : (ScalarFns.atanh x).forget = ScalarFns.atanh x.forget := by
  cases x with
  | fin s x h hs =>
    simp only [ScalarFns.atanh, forget]
    split_ifs
    · rfl
    · exact forget_round _ _
    · rfl
  | inf => rfl
  | nan => rfl

theorem forget_abs (x : Sp p q E) : (ScalarFns.abs x).forget = ScalarFns.abs x.forget := by
  cases x <;> rfl

theorem forget_exp (x : Sp p q E) : (ScalarFns.exp x).forget = ScalarFns.exp x.forget := by
  cases x with
  | fin => exact forget_round _ _
  | inf s => cases s <;> rfl
  | nan => rfl

theorem forget_ln (x : Sp p q E) : (ScalarFns.ln x).forget = ScalarFns.ln x.forget := by
  cases x with
  | fin s x h hs =>
    simp only [ScalarFns.ln, forget]
    split_ifs
    · rfl
    · rfl
    · exact forget_round _ _
  | inf s => cases s <;> rfl
  | nan => rfl

/-- The sign of a number that is not zero. -/
theorem forget_signum (x : Sp p q E) (h : ScalarFns.isZero x = false) :
    (ScalarFns.signum x).forget = ScalarFns.signum x.forget := by
  cases x with
  | fin s x hx hs =>
    have h0 : x ≠ 0 := by simpa [ScalarFns.isZero] using h
    simp only [ScalarFns.signum, forget]
    rw [hs h0]
    by_cases hl : x < 0
    · simp only [hl, decide_true, if_true]; rfl
    · simp only [hl, decide_false, if_false]; rfl
  | inf s => cases s <;> rfl
  | nan => rfl

/-- Powers: unless the base is the negative zero and the exponent a negative odd integer. -/
theorem forget_pow (x y : Sp p q E) (h : ¬ (x = zero true ∧ y.val < 0 ∧ OddInt y.val)) :
    (ScalarFns.pow x y).forget = ScalarFns.pow x.forget y.forget := by
  cases x with
  | fin s x hx hs => cases y with
    | fin t y hy ht =>
      simp only [ScalarFns.pow, forget]
      split_ifs with h1 h2
      · rfl
      · obtain ⟨rfl, h3⟩ := h2
        have : (s && @decide (OddInt y) (Classical.propDecidable _)) = false := by
          cases s
          · rfl
          · have : ¬ OddInt y := fun ho => h ⟨rfl, h3, ho⟩
            simp [this]
        rw [this]
      · exact forget_round _ _
    | inf t =>
      simp only [ScalarFns.pow, forget]
      split_ifs <;> rfl
    | nan =>
      simp only [ScalarFns.pow, forget]
      split_ifs <;> rfl
  | inf s => cases y with
    | fin t y hy ht =>
      simp only [ScalarFns.pow, forget]
      split_ifs
      · rfl
      · rfl
      · rfl
    | inf t => cases t <;> rfl
    | nan => rfl
  | nan => cases y with
    | fin t y hy ht =>
      simp only [ScalarFns.pow, forget]
      split_ifs <;> rfl
    | inf t => rfl
    | nan => rfl

/-! ### Signs -/

/-- The sign bit is not set. -/
def Plus : Sp p q E → Prop
  | fin s _ _ _ => s = false
  | inf s => s = false
  | nan => True

theorem Plus.nonneg {s : Bool} {x : ℝ} {h : Represents p q E x} {hs : x ≠ 0 → s = decide (x < 0)}
    (hp : Plus (fin s x h hs)) : 0 ≤ x := by
  by_contra hc
  have hx := not_le.1 hc
  have := hs hx.ne
  rw [show s = false from hp] at this
  simp [hx] at this

theorem plus_round {x : ℝ} (h : 0 ≤ x) : Plus (round false x : Sp p q E) := by
  unfold round
  split
  · show (if x = 0 then false else decide (x < 0)) = false
    split
    · rfl
    · exact decide_eq_false (not_lt.2 h)
  · exact decide_eq_false (not_lt.2 h)

theorem plus_one : Plus (1 : Sp p q E) := rfl

theorem plus_exp (x : Sp p q E) : Plus (ScalarFns.exp x) := by
  cases x with
  | fin s x h hs => exact plus_round (Real.exp_pos x).le
  | inf s => cases s <;> rfl
  | nan => trivial

theorem Plus.add {x y : Sp p q E} (hx : Plus x) (hy : Plus y) : Plus (x + y) := by
  cases x with
  | fin s x h hs => cases y with
    | fin t y h' ht =>
      show Plus (round (s && t) (x + y))
      rw [show s = false from hx]
      exact plus_round (add_nonneg hx.nonneg hy.nonneg)
    | inf t => exact hy
    | nan => trivial
  | inf s => cases y with
    | fin t y h' ht => exact hx
    | inf t =>
      show Plus (if s = t then inf s else nan)
      split
      · exact hx
      · trivial
    | nan => trivial
  | nan => cases y <;> trivial

theorem Plus.div {x y : Sp p q E} (hx : Plus x) (hy : Plus y) : Plus (x / y) := by
  cases x with
  | fin s x h hs => cases y with
    | fin t y h' ht =>
      have e1 : s = false := hx
      have e2 : t = false := hy
      subst e1 e2
      show Plus (if y = 0 then (if x = 0 then nan else inf _) else round _ (x / y))
      split_ifs
      · trivial
      · rfl
      · exact plus_round (div_nonneg hx.nonneg hy.nonneg)
    | inf t =>
      have e1 : s = false := hx
      have e2 : t = false := hy
      subst e1 e2
      rfl
    | nan => trivial
  | inf s => cases y with
    | fin t y h' ht =>
      have e1 : s = false := hx
      have e2 : t = false := hy
      subst e1 e2
      rfl
    | inf t => trivial
    | nan => trivial
  | nan => cases y <;> trivial

theorem Plus.mul {x y : Sp p q E} (hx : Plus x) (hy : Plus y) : Plus (x * y) := by
  cases x with
  | fin s x h hs => cases y with
    | fin t y h' ht =>
      have e1 : s = false := hx
      have e2 : t = false := hy
      subst e1 e2
      exact plus_round (mul_nonneg hx.nonneg hy.nonneg)
    | inf t =>
      have e1 : s = false := hx
      have e2 : t = false := hy
      subst e1 e2
      show Plus (if x = 0 then nan else inf _)
      split <;> trivial
    | nan => trivial
  | inf s => cases y with
    | fin t y h' ht =>
      have e1 : s = false := hx
      have e2 : t = false := hy
      subst e1 e2
      show Plus (if y = 0 then nan else inf _)
      split <;> trivial
    | inf t =>
      have e1 : s = false := hx
      have e2 : t = false := hy
      subst e1 e2
      rfl
    | nan => trivial
  | nan => cases y <;> trivial

theorem Plus.ne_zero {x : Sp p q E} (hx : Plus x) : x ≠ zero true := by
  rintro rfl
  exact absurd (show true = false from hx) (by decide)

theorem plus_sigmoid (x : Sp p q E) : Plus (sigmoid x) := by
  unfold sigmoid
  split
  · exact plus_one.div (plus_one.add (plus_exp _))
  · exact (plus_exp _).div (plus_one.add (plus_exp _))

theorem forget_sigmoid (x : Sp p q E) : (sigmoid x).forget = sigmoid x.forget := by
  unfold sigmoid
  rw [show ScalarFns.leb (0 : Fp p q E) x.forget = ScalarFns.leb (0 : Sp p q E) x from leb_forget 0 x]
  split
  · rw [forget_div _ _ (plus_one.add (plus_exp _)).ne_zero, forget_add, forget_exp, forget_neg]
    rfl
  · rw [forget_div _ _ (plus_one.add (plus_exp _)).ne_zero, forget_add, forget_exp]
    rfl

/-- The sum of two numbers is the negative zero only if both are. -/
theorem add_eq_zero {x y : Sp p q E} (h : x + y = zero true) : x = zero true ∧ y = zero true := by
  cases x with
  | fin s x hx hs => cases y with
    | fin t y hy ht =>
      have h1 : round (s && t) (x + y) = (zero true : Sp p q E) := h
      unfold round at h1
      split at h1
      · injection h1 with e1 e2
        have hg : OnGrid q (x + y) := by
          obtain ⟨m, hm⟩ := Fp.grid_of hx.1
          obtain ⟨n, hn⟩ := Fp.grid_of hy.1
          exact ⟨m + n, by rw [hm, hn]; push_cast; ring⟩
        have h2 := fround_relative (p := p) hg
        rw [e2, zero_sub, abs_neg] at h2
        have h3 : (1 : ℝ) / 2 ^ (p + 1) ≤ 1 / 2 := by
          refine one_div_le_one_div_of_le (by norm_num) ?_
          calc (2 : ℝ) = 2 ^ 1 := by norm_num
            _ ≤ 2 ^ (p + 1) := pow_le_pow_right₀ (by norm_num) (by omega)
        have h4 : |x + y| ≤ 1 / 2 * |x + y| := h2.trans (mul_le_mul_of_nonneg_right h3 (abs_nonneg _))
        have h5 : x + y = 0 := by
          have := abs_nonneg (x + y)
          exact abs_eq_zero.1 (by linarith)
        rw [if_pos h5, Bool.and_eq_true] at e1
        obtain ⟨rfl, rfl⟩ := e1
        have hx0 : x = 0 := by
          by_contra hc
          have h6 : x < 0 := by simpa using (hs hc).symm
          have h7 : y = -x := by linarith
          have h8 : y ≠ 0 := by rw [h7]; exact neg_ne_zero.2 hc
          have h9 : y < 0 := by simpa using (ht h8).symm
          linarith
        have hy0 : y = 0 := by rw [hx0, zero_add] at h5; exact h5
        subst hx0 hy0
        exact ⟨rfl, rfl⟩
      · cases h1
    | inf t => cases h
    | nan => cases h
  | inf s => cases y with
    | fin t y hy ht => cases h
    | inf t =>
      have h1 : (if s = t then inf s else nan) = (zero true : Sp p q E) := h
      split at h1 <;> cases h1
    | nan => cases h
  | nan => cases y <;> cases h

end Aegir.Spec.Sp
