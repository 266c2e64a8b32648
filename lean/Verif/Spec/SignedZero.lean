import Verif.Spec.Ieee
/-!
# IEEE binary floating point with signed zeros

The formats of `Spec/Ieee` with the sign bit of every number, as IEEE 754 defines it (for rounding to
nearest): the two zeros compare equal, a sum that is exactly zero is positive unless both terms are
negative, products and quotients have the exclusive or of the signs, results that underflow keep their
sign, and division by a zero gives an infinity whose sign depends on that of the zero. Functions follow the
C standard, which is what `std` relies on; odd functions keep the sign of a zero.
-/

namespace Aegir.Spec

/-- A floating-point number with its sign bit. -/
inductive Sp (p q E : ℕ) where
  /-- a finite number; the sign bit is free only for zero -/
  | fin (negative : Bool) (x : ℝ) (h : Represents p q E x) (hs : x ≠ 0 → negative = decide (x < 0))
  /-- an infinity -/
  | inf (negative : Bool)
  | nan

/-- `f64` -/
abbrev SDouble := Sp 52 1074 971

section
variable {p q : ℕ}

/-- Rounding does not change the sign. -/
theorem fround_nonneg {x : ℝ} (h : 0 ≤ x) : 0 ≤ fround p q x := by
  have hU : (0 : ℝ) < 2 ^ place p q x := by positivity
  have h1 := abs_sub_roundEven (x / 2 ^ place p q x)
  have h2 : 0 ≤ x / 2 ^ place p q x := by positivity
  have h3 : (-1 : ℝ) < roundEven (x / 2 ^ place p q x) := by
    have := (abs_le.1 h1).2
    linarith
  have h4 : (0 : ℝ) ≤ roundEven (x / 2 ^ place p q x) := by
    have : (-1 : ℤ) < roundEven (x / 2 ^ place p q x) := by exact_mod_cast h3
    exact_mod_cast (by omega : (0 : ℤ) ≤ roundEven (x / 2 ^ place p q x))
  exact mul_nonneg h4 hU.le

theorem fround_nonpos {x : ℝ} (h : x ≤ 0) : fround p q x ≤ 0 := by
  have hU : (0 : ℝ) < 2 ^ place p q x := by positivity
  have h1 := abs_sub_roundEven (x / 2 ^ place p q x)
  have h2 : x / 2 ^ place p q x ≤ 0 := div_nonpos_of_nonpos_of_nonneg h hU.le
  have h3 : (roundEven (x / 2 ^ place p q x) : ℝ) < 1 := by
    have := (abs_le.1 h1).1
    linarith
  have h4 : (roundEven (x / 2 ^ place p q x) : ℝ) ≤ 0 := by
    have : roundEven (x / 2 ^ place p q x) < 1 := by exact_mod_cast h3
    exact_mod_cast (by omega : roundEven (x / 2 ^ place p q x) ≤ 0)
  exact mul_nonpos_of_nonpos_of_nonneg h4 hU.le

end

namespace Sp
variable {p q E : ℕ}

open Classical in
/-- A real number rounded; `s` is the sign of the result if that is exactly zero. -/
noncomputable def round (s : Bool) (x : ℝ) : Sp p q E :=
  if h : |fround p q x| ≤ largest p E then
    fin (if x = 0 then s else decide (x < 0)) (fround p q x) ⟨fround_idem x, h⟩ (fun h0 => by
      have hx : x ≠ 0 := fun hx => h0 (by rw [hx, fround_zero])
      rw [if_neg hx, decide_eq_decide]
      constructor
      · intro hn
        exact lt_of_le_of_ne (fround_nonpos hn.le) h0
      · intro hn
        by_contra hc
        exact absurd (fround_nonneg (p := p) (q := q) (not_lt.1 hc)) (not_le.2 hn))
  else inf (decide (x < 0))

/-- The zeros. -/
noncomputable def zero (s : Bool) : Sp p q E := fin s 0 Fp.represents_zero (fun h => absurd rfl h)

noncomputable instance : Zero (Sp p q E) := ⟨zero false⟩
noncomputable instance : One (Sp p q E) :=
  ⟨fin false 1 Fp.represents_one (fun _ => by simp)⟩

theorem neg_sign {s : Bool} {x : ℝ} (hs : x ≠ 0 → s = decide (x < 0)) (h : -x ≠ 0) :
    (!s) = decide (-x < 0) := by
  have hx : x ≠ 0 := fun hx => h (by rw [hx, neg_zero])
  rw [hs hx]
  rcases lt_or_gt_of_ne hx with hl | hl
  · simp [hl, hl.le]
  · simp [hl, hl.le]

noncomputable instance : Neg (Sp p q E) := ⟨fun
  | fin s x h hs => fin (!s) (-x) ⟨Fp.fround_neg_of h.1, by rw [abs_neg]; exact h.2⟩ (neg_sign hs)
  | inf s => inf (!s)
  | nan => nan⟩

noncomputable instance : Add (Sp p q E) := ⟨fun
  | fin s x _ _, fin t y _ _ => round (s && t) (x + y)
  | fin _ _ _ _, inf s => inf s
  | inf s, fin _ _ _ _ => inf s
  | inf s, inf t => if s = t then inf s else nan
  | _, _ => nan⟩

noncomputable instance : Sub (Sp p q E) := ⟨fun
  | fin s x _ _, fin t y _ _ => round (s && !t) (x - y)
  | fin _ _ _ _, inf s => inf (!s)
  | inf s, fin _ _ _ _ => inf s
  | inf s, inf t => if s = t then nan else inf s
  | _, _ => nan⟩

open Classical in
noncomputable instance : Mul (Sp p q E) := ⟨fun
  | fin s x _ _, fin t y _ _ => round (s ^^ t) (x * y)
  | fin s x _ _, inf t => if x = 0 then nan else inf (s ^^ t)
  | inf s, fin t y _ _ => if y = 0 then nan else inf (s ^^ t)
  | inf s, inf t => inf (s ^^ t)
  | _, _ => nan⟩

open Classical in
noncomputable instance : Div (Sp p q E) := ⟨fun
  | fin s x _ _, fin t y _ _ =>
      if y = 0 then (if x = 0 then nan else inf (s ^^ t)) else round (s ^^ t) (x / y)
  | fin s _ _ _, inf t => zero (s ^^ t)
  | inf s, fin t _ _ _ => inf (s ^^ t)
  | _, _ => nan⟩

/-- A function of the reals, rounded, with its values at the infinities. -/
noncomputable def lift (f : ℝ → ℝ) (atInf : Bool → Sp p q E) : Sp p q E → Sp p q E
  | fin _ x _ _ => round false (f x)
  | inf s => atInf s
  | nan => nan

/-- An odd function: zeros keep their sign. -/
noncomputable def liftOdd (f : ℝ → ℝ) (atInf : Bool → Sp p q E) : Sp p q E → Sp p q E
  | fin s x _ _ => round s (f x)
  | inf s => atInf s
  | nan => nan

open Classical in
/-- A function that is defined on part of the reals only, rounded: elsewhere it gives NaN. -/
noncomputable def liftOn (D : ℝ → Prop) (f : ℝ → ℝ) (atInf : Bool → Sp p q E) : Sp p q E → Sp p q E
  | fin _ x _ _ => if D x then round false (f x) else nan
  | inf s => atInf s
  | nan => nan

open Classical in
/-- An odd such function. -/
noncomputable def liftOddOn (D : ℝ → Prop) (f : ℝ → ℝ) (atInf : Bool → Sp p q E) : Sp p q E → Sp p q E
  | fin s x _ _ => if D x then round s (f x) else nan
  | inf s => atInf s
  | nan => nan

/-- Odd integers. -/
def OddInt (y : ℝ) : Prop := ∃ k : ℤ, y = 2 * k + 1

open Classical in
noncomputable instance : ScalarFns (Sp p q E) where
  isZero
    | fin _ x _ _ => decide (x = 0)
    | _ => false
  eqb
    | fin _ x _ _, fin _ y _ _ => decide (x = y)
    | inf s, inf t => s == t
    | _, _ => false
  leb
    | fin _ x _ _, fin _ y _ _ => decide (x ≤ y)
    | inf s, fin _ _ _ _ => s
    | fin _ _ _ _, inf s => !s
    | inf s, inf t => s || !t
    | _, _ => false
  fromUsize n := if |fround p q n| ≤ largest p E then some (round false n) else none
  infinity := inf false
  pow
    | fin s x _ _, fin _ y _ _ =>
        if x < 0 ∧ Int.fract y ≠ 0 then nan
        else if x = 0 ∧ y < 0 then inf (s && decide (OddInt y)) else round (s && decide (OddInt y)) (x ^ y)
    | inf s, fin _ y _ _ =>
        if y = 0 then 1 else if y < 0 then zero (s && decide (OddInt y)) else inf (s && decide (OddInt y))
    | fin _ x _ _, inf t => if |x| = 1 then 1 else if decide (|x| < 1) = t then inf false else 0
    | inf _, inf t => if t then 0 else inf false
    | nan, fin _ y _ _ => if y = 0 then 1 else nan
    | fin _ x _ _, nan => if x = 1 then 1 else nan
    | _, _ => nan
  abs
    | fin _ x h _ => fin false |x| (by
        rcases abs_choice x with e | e <;> rw [e]
        · exact h
        · exact ⟨Fp.fround_neg_of h.1, by rw [abs_neg]; exact h.2⟩) (fun _ => by simp)
    | inf _ => inf false
    | nan => nan
  signum
    | fin s _ _ _ => if s then -1 else 1
    | inf s => if s then -1 else 1
    | nan => nan
  ln
    | fin _ x _ _ => if x < 0 then nan else if x = 0 then inf true else round false (ScalarFns.ln x)
    | inf s => if s then nan else inf false
    | nan => nan
  exp
    | fin _ x _ _ => round false (ScalarFns.exp x)
    | inf s => if s then 0 else inf false
    | nan => nan
  cos := lift ScalarFns.cos fun _ => nan
  cosh := lift ScalarFns.cosh fun _ => inf false
  acos := liftOn (fun x => |x| ≤ 1) ScalarFns.acos fun _ => nan
  acosh := liftOn (fun x => 1 ≤ x) ScalarFns.acosh fun s => if s then nan else inf false
  sin := liftOdd ScalarFns.sin fun _ => nan
  sinh := liftOdd ScalarFns.sinh inf
  asin := liftOddOn (fun x => |x| ≤ 1) ScalarFns.asin fun _ => nan
  asinh := liftOdd ScalarFns.asinh inf
  tan := liftOdd ScalarFns.tan fun _ => nan
  tanh := liftOdd ScalarFns.tanh fun s => if s then -1 else 1
  atan := liftOdd ScalarFns.atan fun s => round s (if s then -(Real.pi / 2) else Real.pi / 2)
  atanh
    | fin s x _ _ =>
        if |x| = 1 then inf (decide (x < 0)) else if |x| < 1 then round s (ScalarFns.atanh x) else nan
    | _ => nan
  gamma := liftOn Fp.NoPole ScalarFns.gamma fun s => if s then nan else inf false
  digamma := liftOn Fp.NoPole ScalarFns.digamma fun s => if s then nan else inf false
  loggamma := liftOn Fp.NoPole ScalarFns.loggamma fun _ => inf false
  erf := liftOdd ScalarFns.erf fun s => if s then -1 else 1

/-- The number without the sign of its zero. -/
def forget : Sp p q E → Fp p q E
  | fin _ x h _ => .num x h
  | inf s => .inf s
  | nan => .nan

/-- The number it stands for. -/
def val (x : Sp p q E) : ℝ := x.forget.val

/-- Neither infinite nor NaN. -/
def Finite (x : Sp p q E) : Prop := x.forget.Finite

end Sp

end Aegir.Spec
