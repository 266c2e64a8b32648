import Verif.Spec.Defined
import Verif.Lemmas.Nan
import Verif.Lemmas.AdjointAt
/-!
# C90: NaN, and exact derivatives, in IEEE arithmetic

The operators give NaN exactly where they are not defined. Their derivatives are, for most operators, the
exact ones correctly rounded; derivatives of quotients and powers are NaN at points where the function is
differentiable.
-/

namespace Aegir.Props
open Aegir Aegir.Spec Aegir.Spec.Fp

variable {p q E : ℕ}

/-- An operator gives NaN exactly where it has no value and no limit, for all arguments, infinities and NaN
included. -/
theorem C90_unary (hp : 1 ≤ p) (op : UnOp) (x : Fp p q E) : op.apply x = nan ↔ ¬ Defined op x := by
  have never : ∀ {P : Prop}, ¬ P → (P ↔ ¬ True) := fun h => ⟨fun hc => absurd hc h, fun hc => absurd trivial hc⟩
  have always : ∀ {P : Prop}, P → (P ↔ ¬ False) := fun h => ⟨fun _ => id, fun _ => h⟩
  have neverS : ∀ {P : Prop}, ¬ P → (P ↔ ¬ (false = false)) := fun h => ⟨fun hc => absurd hc h, fun hc => absurd rfl hc⟩
  have alwaysS : ∀ {P : Prop}, P → (P ↔ ¬ (true = false)) := fun h => ⟨fun _ => (nomatch ·), fun _ => h⟩
  cases x with
  | num x h =>
    have part : ∀ {D : ℝ → Prop} {f : ℝ → ℝ} {g : Bool → Fp p q E}, (liftOn D f g (num x h) = nan ↔ ¬ D x) := by
      intro D f g
      simp only [liftOn]
      split
      · next hd => exact ⟨fun hc => absurd hc (round_ne_nan _), fun hc => absurd hd hc⟩
      · next hd => exact ⟨fun _ => hd, fun _ => rfl⟩
    cases op with
    | subOne | oneSub | addOne => exact never (round_ne_nan _)
    | square => exact never fun hc => nomatch (square_nan hp).1 hc
    | double => exact never fun hc => nomatch (double_nan hp).1 hc
    | negate => exact never fun hc => nomatch neg_ne_nan.1 hc
    | dirac =>
      refine never ?_
      simp only [UnOp.apply]
      split <;> exact fun hc => nomatch hc
    | sign =>
      refine never ?_
      simp only [UnOp.apply, ScalarFns.signum]
      split
      · exact fun hc => nomatch hc
      · split <;> exact fun hc => nomatch hc
    | abs => exact never fun hc => nomatch hc
    | ln =>
      simp only [UnOp.apply, ScalarFns.ln]
      show _ ↔ ¬ 0 ≤ x
      split
      · next h0 => exact ⟨fun _ => not_le.2 h0, fun _ => rfl⟩
      · next h0 =>
        split
        · exact ⟨fun hc => (nomatch hc), fun hc => absurd (not_lt.1 h0) hc⟩
        · exact ⟨fun hc => absurd hc (round_ne_nan _), fun hc => absurd (not_lt.1 h0) hc⟩
    | xlnx => exact never fun hc => nomatch xlnx_nan.1 hc
    | rabbit => exact never fun hc => nomatch rabbit_nan.1 hc
    | sigmoid =>
      obtain ⟨s, hs, e, -⟩ := sigmoid_unit (x := num x h) (by simp)
      exact never fun hc => nomatch e.symm.trans hc
    | exp | erf | cos | cosh | sin | sinh | asinh | tan | tanh | atan => exact never (round_ne_nan _)
    | gamma => exact part (f := ScalarFns.gamma) (g := fun s => if s then nan else inf false)
    | digamma => exact part (f := ScalarFns.digamma) (g := fun s => if s then nan else inf false)
    | acosh => exact part (f := ScalarFns.acosh) (g := fun s => if s then nan else inf false)
    | logGamma => exact part (f := ScalarFns.loggamma) (g := fun _ => inf false)
    | acos => exact part (D := fun x => |x| ≤ 1) (f := ScalarFns.acos) (g := fun _ => nan)
    | asin => exact part (D := fun x => |x| ≤ 1) (f := ScalarFns.asin) (g := fun _ => nan)
    | atanh =>
      simp only [UnOp.apply, ScalarFns.atanh]
      show _ ↔ ¬ |x| ≤ 1
      split
      · next h0 => exact ⟨fun hc => (nomatch hc), fun hc => absurd h0.le hc⟩
      · next h0 =>
        split
        · next h1 => exact ⟨fun hc => absurd hc (round_ne_nan _), fun hc => absurd h1.le hc⟩
        · next h1 => exact ⟨fun _ hc => h1 (lt_of_le_of_ne hc h0), fun _ => rfl⟩
  | inf s =>
    cases op with
    | subOne | oneSub | addOne | abs | sinh | asinh | cosh | logGamma | negate =>
      cases s <;> exact never fun hc => nomatch hc
    | square => exact never fun hc => nomatch (square_nan hp).1 hc
    | double => exact never fun hc => nomatch (double_nan hp).1 hc
    | dirac => cases s <;> exact never fun hc => nomatch hc
    | sign | exp | erf | tanh => cases s <;> exact never fun hc => nomatch hc
    | xlnx => exact never fun hc => nomatch xlnx_nan.1 hc
    | rabbit => exact never fun hc => nomatch rabbit_nan.1 hc
    | sigmoid =>
      obtain ⟨t, ht, e, -⟩ := sigmoid_unit (x := (inf s : Fp p q E)) (by simp)
      exact never fun hc => nomatch e.symm.trans hc
    | atan => exact never (round_ne_nan _)
    | cos | sin | tan | acos | asin | atanh => exact always rfl
    | ln | acosh | gamma | digamma =>
      cases s
      · exact neverS fun hc => nomatch hc
      · exact alwaysS rfl
  | nan =>
    cases op with
    | dirac => exact ⟨fun hc => (nomatch hc), fun hc => absurd rfl hc⟩
    | square => exact ⟨fun _ hc => (nomatch hc), fun _ => (square_nan hp).2 rfl⟩
    | double => exact ⟨fun _ hc => (nomatch hc), fun _ => (double_nan hp).2 rfl⟩
    | sigmoid => exact ⟨fun _ hc => (nomatch hc), fun _ => rfl⟩
    | _ => exact ⟨fun _ hc => (nomatch hc), fun _ => rfl⟩

/-- The values of the operators with a bounded range or a sign stay in it, and are numbers in the former
case, for all arguments but NaN and (of `sin` and `cos`) infinities. -/
theorem C90_range (hp : 1 ≤ p) (x : Fp p q E) (hx : x ≠ nan) :
    (∃ s hs, UnOp.apply .sigmoid x = num s hs ∧ 0 ≤ s ∧ s ≤ 1) ∧
      (∃ s hs, UnOp.apply .tanh x = num s hs ∧ |s| ≤ 1) ∧
      (∃ s hs, UnOp.apply .sign x = num s hs ∧ (s = -1 ∨ s = 0 ∨ s = 1)) ∧
      (x.Finite → ∀ op ∈ [UnOp.sin, .cos], ∃ s hs, op.apply x = num s hs ∧ |s| ≤ 1) ∧
      ∀ op ∈ [UnOp.exp, .abs, .square, .cosh, .dirac],
        UnOp.apply op x = inf false ∨ ∃ s hs, UnOp.apply op x = num s hs ∧ 0 ≤ s := by
  have unit : ∀ {y : ℝ}, |y| ≤ 1 → ∃ s hs, (round y : Fp p q E) = num s hs ∧ |s| ≤ 1 := by
    intro y hy
    have h1 := fround_ge (p := p) (q := q) (fround_neg_of (represents_one (E := E)).1) (abs_le.1 hy).1
    have h2 := fround_le' (p := p) (q := q) (represents_one (E := E)).1 (abs_le.1 hy).2
    have h3 : |fround p q y| ≤ 1 := abs_le.2 ⟨h1, h2⟩
    exact ⟨_, ⟨fround_idem y, h3.trans one_le_largest⟩, dif_pos (h3.trans one_le_largest), h3⟩
  have pos : ∀ {y : ℝ}, 0 ≤ y → (round y : Fp p q E) = inf false ∨ ∃ s hs, (round y : Fp p q E) = num s hs ∧ 0 ≤ s := by
    intro y hy
    rcases round_cases (p := p) (q := q) (E := E) y with ⟨h, e⟩ | ⟨e, -⟩
    · exact .inr ⟨_, h, e, fround_ge fround_zero hy⟩
    · exact .inl (by rw [e, decide_eq_false (not_lt.2 hy)])
  have m1 : Represents p q E (-1) := ⟨fround_neg_of (represents_one (E := E)).1, by
    rw [abs_neg]; exact (represents_one (q := q)).2⟩
  refine ⟨sigmoid_unit hx, ?_, ?_, ?_, ?_⟩
  · cases x with
    | num x h => exact unit (abs_le.2 ⟨(Real.neg_one_lt_tanh x).le, (Real.tanh_lt_one x).le⟩)
    | inf s =>
      cases s
      · exact ⟨1, represents_one, rfl, by norm_num⟩
      · exact ⟨-1, _, rfl, by norm_num⟩
    | nan => exact absurd rfl hx
  · cases x with
    | num x h =>
      have e : UnOp.apply .sign (num x h : Fp p q E) = if decide (x = 0) then num x h else if x < 0 then -1 else 1 := rfl
      rw [e]
      by_cases h0 : x = 0
      · rw [if_pos (decide_eq_true h0)]
        exact ⟨x, h, rfl, .inr (.inl h0)⟩
      · rw [if_neg (by simpa using h0)]
        split
        · exact ⟨-1, m1, rfl, .inl rfl⟩
        · exact ⟨1, represents_one, rfl, .inr (.inr rfl)⟩
    | inf s =>
      cases s
      · exact ⟨1, represents_one, rfl, .inr (.inr rfl)⟩
      · exact ⟨-1, _, rfl, .inl rfl⟩
    | nan => exact absurd rfl hx
  · intro hf op hop
    cases x with
    | num x h =>
      simp only [List.mem_cons, List.not_mem_nil, or_false] at hop
      rcases hop with rfl | rfl
      · exact unit (Real.abs_sin_le_one x)
      · exact unit (Real.abs_cos_le_one x)
    | inf s => exact hf.elim
    | nan => exact hf.elim
  · intro op hop
    simp only [List.mem_cons, List.not_mem_nil, or_false] at hop
    obtain ⟨h2, e2⟩ := two_eq (p := p) (q := q) (E := E) hp
    cases x with
    | num x h =>
      rcases hop with rfl | rfl | rfl | rfl | rfl
      · exact pos (Real.exp_pos x).le
      · exact .inr ⟨|x|, _, rfl, abs_nonneg x⟩
      · simp only [UnOp.apply]
        rw [e2, pow_two_eq h h2]
        exact pos (sq_nonneg x)
      · exact pos (Real.cosh_pos x).le
      · simp only [UnOp.apply]
        split
        · exact .inl rfl
        · exact .inr ⟨0, represents_zero, rfl, le_rfl⟩
    | inf s =>
      rcases hop with rfl | rfl | rfl | rfl | rfl
      · cases s
        · exact .inl rfl
        · exact .inr ⟨0, represents_zero, rfl, le_rfl⟩
      · exact .inl rfl
      · refine .inl ?_
        simp only [UnOp.apply]
        rw [e2]
        simp only [ScalarFns.pow]
        rw [if_neg (by norm_num), if_neg (by norm_num), inf.injEq, Bool.and_eq_false_iff, decide_eq_false_iff_not]
        refine .inr ?_
        rintro ⟨k, hk⟩
        have : (2 : ℤ) = 2 * k + 1 := by exact_mod_cast hk
        omega
      · exact .inl rfl
      · exact .inr ⟨0, represents_zero, rfl, le_rfl⟩
    | nan => exact absurd rfl hx

/-- The derivatives of the operators at numbers where these are differentiable, as computed by
`evaluate_adjoint`, are the exact derivatives correctly rounded. (In `x(1 - x)` the intermediate result `2x` can
overflow.) Missing: `xlnx`, `sigmoid` and `gamma`, the adjoints of which round more than once. -/
theorem C90_rounded_partial (hp : 1 ≤ p) (op : UnOp) (hop : op ∈ [.subOne, .oneSub, .addOne, .square, .double, .negate,
    .sign, .abs, .ln, .exp, .rabbit, .logGamma, .cos, .sin]) (x : ℝ) (h : Represents p q E x) (y : Fp p q E)
    (hs : UnOp.SmoothAt op x) (hr : op = .rabbit → |2 * x| ≤ largest p E) :
    ∃ D, HasDerivAt (op.apply : ℝ → ℝ) D x ∧ adjointAt (.un op (.var 0)) 0 (num x h) y = some (Fp.round D) := by
  have hd : op.diffable = true := by
    clear hs hr
    revert op
    decide
  refine ⟨_, hasDerivAt_un op hd x hs, ?_⟩
  rw [adjointAt_un op hd]
  obtain ⟨h2, e2⟩ := two_eq (p := p) (q := q) (E := E) hp
  have two : (1 + 1 : ℝ) = 2 := by norm_num
  have dbl : ((1 + 1) * num x h : Fp p q E) = Fp.round (2 * x) := by rw [e2]; rfl
  have m1 : (-1 : Fp p q E) = Fp.round (-1) := by rw [← neg_round, round_one]
  congr 1
  cases op <;> simp only [List.mem_cons, List.not_mem_nil, reduceCtorEq, or_false] at hop
  case subOne | addOne => exact round_one.symm
  case oneSub | negate => exact m1
  case square =>
    show (1 + 1) * num x h * 1 = Fp.round ((1 + 1) * x)
    rw [mul_one', dbl, two]
  case double => exact mul_one' _
  case sign =>
    have hx : x ≠ 0 := hs
    refine Eq.trans (mul_one' _) (Eq.trans (if_neg fun hc => hx (of_decide_eq_true hc)) round_zero.symm)
  case abs =>
    have hx : x ≠ 0 := hs
    have e1 : UnOp.apply .sign (num x h : Fp p q E) = if x < 0 then -1 else 1 :=
      if_neg fun hc => hx (of_decide_eq_true hc)
    have e3 : UnOp.d .abs x = if x < 0 then -1 else 1 := if_neg fun hc => hx (of_decide_eq_true hc)
    rw [e3]
    refine Eq.trans (mul_one' _) (e1.trans ?_)
    split
    · exact m1
    · exact round_one.symm
  case ln =>
    have hx : 0 < x := hs
    exact if_neg hx.ne'
  case exp => exact mul_one' _
  case rabbit =>
    show (1 - (1 + 1) * num x h) * 1 = Fp.round (1 - (1 + 1) * x)
    rw [mul_one', dbl, round_rep ⟨fround_double h.1, hr rfl⟩, two]
    rfl
  case logGamma => exact (one_mul' _).trans (if_pos hs)
  case cos =>
    show -(1 * ScalarFns.sin (num x h)) = Fp.round (-Real.sin x)
    rw [one_mul', ← neg_round]
    rfl
  case sin => exact one_mul' _

/-- Where the derivative of an operator is NaN, at numbers: nowhere but at the poles of `logGamma`, and for
`x ln x` at negative numbers, see `C90_violation_xlnx`. Missing: `gamma`. -/
theorem C90_derivative_partial (hp : 1 ≤ p) (op : UnOp) (hd : op.diffable = true) (hg : op ≠ .gamma) (x : ℝ)
    (h : Represents p q E x) (y : Fp p q E) : ∃ g, adjointAt (.un op (.var 0)) 0 (num x h) y = some g ∧
      (g = nan ↔ op = .xlnx ∧ x < 0 ∨ op = .logGamma ∧ ∃ n : ℕ, x = -n) := by
  refine ⟨_, adjointAt_un op hd _ y, ?_⟩
  have never : ∀ {P Q : Prop}, ¬ P → ¬ Q → (P ↔ Q) := fun h h' => ⟨fun hc => absurd hc h, fun hc => absurd hc h'⟩
  obtain ⟨h2, e2⟩ := two_eq (p := p) (q := q) (E := E) hp
  have defined : ∀ {o : UnOp}, Defined o (num x h : Fp p q E) → o.apply (num x h : Fp p q E) ≠ nan := fun ho hc =>
    (C90_unary hp _ _).1 hc ho
  cases op with
  | gamma => exact absurd rfl hg
  | dirac | digamma | erf | cosh | acos | acosh | sinh | asin | asinh | tan | tanh | atan | atanh => cases hd
  | xlnx =>
    have e : (slope .xlnx (num x h) : Fp p q E) = ScalarFns.ln (num x h) + 1 := one_mul' _
    rw [e, add_one_nan]
    have := C90_unary hp .ln (num x h)
    refine this.trans ⟨fun hc => .inl ⟨rfl, not_le.1 hc⟩, ?_⟩
    rintro (⟨-, hc⟩ | ⟨hc, -⟩)
    · exact not_le.2 hc
    · cases hc
  | logGamma =>
    have e : (slope .logGamma (num x h) : Fp p q E) = ScalarFns.digamma (num x h) := one_mul' _
    rw [e]
    refine (C90_unary hp .digamma (num x h)).trans ⟨fun hc => .inr ⟨rfl, ?_⟩, ?_⟩
    · by_contra hn
      exact hc fun n hx => hn ⟨n, hx⟩
    · rintro (⟨hc, -⟩ | ⟨-, n, hc⟩) hn
      · cases hc
      · exact hn n hc
  | subOne | addOne | oneSub | negate => exact never (fun hc => nomatch hc) (by simp)
  | square => exact never (fun hc => nomatch (double_nan hp).1 ((mul_one' _).symm.trans hc)) (by simp)
  | double => exact never (fun hc => nomatch (double_nan hp).1 hc) (by simp)
  | sign => exact never (fun hc => defined (o := .dirac) trivial ((mul_one' _).symm.trans hc)) (by simp)
  | abs => exact never (fun hc => defined (o := .sign) trivial ((mul_one' _).symm.trans hc)) (by simp)
  | exp => exact never (fun hc => defined (o := .exp) trivial ((mul_one' _).symm.trans hc)) (by simp)
  | ln =>
    refine never (fun hc => ?_) (by simp)
    have hc' : (if x = 0 then (if (1 : ℝ) = 0 then nan else inf (decide ((1 : ℝ) < 0))) else Fp.round (1 / x) :
      Fp p q E) = nan := hc
    rw [if_neg one_ne_zero] at hc'
    split at hc'
    · cases hc'
    · exact round_ne_nan _ hc'
  | rabbit =>
    refine never (fun hc => ?_) (by simp)
    have hc' : (1 - (1 + 1) * num x h : Fp p q E) = nan := (mul_one' _).symm.trans hc
    rw [e2, show (num 2 h2 * num x h : Fp p q E) = Fp.round (2 * x) from rfl] at hc'
    rcases round_cases (p := p) (q := q) (E := E) (2 * x) with ⟨h', e⟩ | ⟨e, -⟩
    · rw [e] at hc'
      exact round_ne_nan _ hc'
    · rw [e] at hc'
      cases hc'
  | sigmoid =>
    refine never (fun hc => ?_) (by simp)
    obtain ⟨s, hs, e, -⟩ := sigmoid_unit (x := (num x h : Fp p q E)) (by simp)
    have hc' := (one_mul' _).symm.trans hc
    rw [rabbit_nan, e] at hc'
    cases hc'
  | cos => exact never (fun hc => defined (o := .sin) trivial ((one_mul' _).symm.trans (neg_ne_nan.1 hc))) (by simp)
  | sin => exact never (fun hc => defined (o := .cos) trivial ((one_mul' _).symm.trans hc)) (by simp)

/-! ## Sums, products, quotients and powers -/

/-- The derivatives of sums, differences and products are what they should be, for all arguments, infinities and
NaN included. -/
theorem C90_sums (x y : Fp p q E) :
    adjointAt (.add (.var 0) (.var 1)) 0 x y = some 1 ∧ adjointAt (.add (.var 0) (.var 1)) 1 x y = some 1 ∧
    adjointAt (.sub (.var 0) (.var 1)) 0 x y = some 1 ∧ adjointAt (.sub (.var 0) (.var 1)) 1 x y = some (-1) ∧
    adjointAt (.mul (.var 0) (.var 1)) 0 x y = some y ∧ adjointAt (.mul (.var 0) (.var 1)) 1 x y = some x := by
  refine ⟨adjointAt_add0 isZero_zero x y, adjointAt_add1 isZero_zero x y, adjointAt_sub0 isZero_zero x y, ?_, ?_, ?_⟩
  · rw [adjointAt_sub1, show (0 - 1 : Fp p q E) = Fp.round (0 - 1) from rfl, zero_sub, ← neg_round, round_one]
  · rw [adjointAt_mul0 isZero_zero, one_mul']
  · rw [adjointAt_mul1 isZero_zero, one_mul']

private theorem neg_eq {x : ℝ} (h : Represents p q E x) : (0 - num x h : Fp p q E) = -num x h := by
  rw [show (0 - num x h : Fp p q E) = Fp.round (0 - x) from rfl, zero_sub, ← neg_round, round_rep h]

private theorem square_eq (hp : 1 ≤ p) {y : ℝ} (h : Represents p q E y) :
    (ScalarFns.pow (num y h) (1 + 1) : Fp p q E) = Fp.round (y ^ 2) := by
  obtain ⟨h2, e2⟩ := two_eq (p := p) (q := q) (E := E) hp
  rw [e2, pow_two_eq]

private theorem quot_nan {a z : ℝ} (h : Represents p q E a) :
    (num a h / Fp.round z : Fp p q E) = nan ↔ a = 0 ∧ fround p q z = 0 := by
  rcases round_cases (p := p) (q := q) (E := E) z with ⟨hz, e⟩ | ⟨e, hz⟩
  · rw [e, show (num a h / num (fround p q z) hz : Fp p q E) = if fround p q z = 0 then
      (if a = 0 then nan else inf (decide (a < 0))) else Fp.round (a / fround p q z) from rfl]
    split
    · next h0 =>
      split
      · next h1 => exact ⟨fun _ => ⟨h1, h0⟩, fun _ => rfl⟩
      · next h1 => exact ⟨fun hc => (by cases hc), fun hc => absurd hc.1 h1⟩
    · next h0 => exact ⟨fun hc => absurd hc (round_ne_nan _), fun hc => absurd hc.2 h0⟩
  · rw [e]
    refine ⟨fun hc => (by cases hc), fun hc => ?_⟩
    rw [hc.2, abs_zero] at hz
    linarith [one_le_largest (p := p) (E := E)]

/-- The derivatives of a quotient of numbers: with respect to the numerator NaN exactly if the denominator is
zero; with respect to the denominator NaN exactly if the numerator is zero and the square of the denominator is
rounded to zero. The latter happens where the quotient is differentiable, see `C90_violation_quotient`. -/
theorem C90_quotient_partial (hp : 1 ≤ p) (x y : ℝ) (hx : Represents p q E x) (hy : Represents p q E y) :
    ∃ g g', adjointAt (.div (.var 0) (.var 1)) 0 (num x hx) (num y hy) = some g ∧
      adjointAt (.div (.var 0) (.var 1)) 1 (num x hx) (num y hy) = some g' ∧
      (g = nan ↔ y = 0) ∧ (g' = nan ↔ x = 0 ∧ fround p q (y ^ 2) = 0) := by
  refine ⟨_, _, adjointAt_div0 isZero_zero _ _, adjointAt_div1 isZero_zero _ _, ?_, ?_⟩
  · rw [mul_one', square_eq hp, quot_nan]
    refine ⟨fun h => h.1, fun h => ⟨h, ?_⟩⟩
    rw [h, zero_pow two_ne_zero, fround_zero]
  · have hn : Represents p q E (-x) := ⟨fround_neg_of hx.1, by rw [abs_neg]; exact hx.2⟩
    rw [mul_one', square_eq hp, neg_eq, show (-num x hx : Fp p q E) = num (-x) hn from rfl, quot_nan, neg_eq_zero]

private theorem pow_cases {x : ℝ} (hx : Represents p q E x) (h0 : 0 ≤ x) (z : Fp p q E) (hz : z ≠ nan) :
    ScalarFns.pow (num x hx) z ≠ nan := by
  cases z with
  | num y hy =>
    simp only [ScalarFns.pow]
    rw [if_neg fun hc => absurd hc.1 (not_lt.2 h0)]
    split
    · exact fun hc => (by cases hc)
    · exact round_ne_nan _
  | inf s =>
    simp only [ScalarFns.pow]
    split
    · exact fun hc => (by cases hc)
    · split <;> exact fun hc => (by cases hc)
  | nan => exact absurd rfl hz

private theorem mul_num {z : Fp p q E} (hz : z ≠ nan) {y : ℝ} (hy : Represents p q E y) (h0 : y ≠ 0) :
    z * num y hy ≠ nan := by
  cases z with
  | num x hx => exact round_ne_nan _
  | inf s =>
    rw [show (inf s * num y hy : Fp p q E) = if y = 0 then nan else inf (s ^^ decide (y < 0)) from rfl, if_neg h0]
    exact fun hc => (by cases hc)
  | nan => exact absurd rfl hz

/-- The derivatives of a power of a number that is not negative: the one with respect to the base is not NaN if
the exponent is not zero, the one with respect to the exponent is not NaN if `x ln x` is computed as a number
other than zero, or if `x = 1`. Missing: the other cases, see `C90_violation_power`. -/
theorem C90_power_partial (x y : ℝ) (hx : Represents p q E x) (hy : Represents p q E y) (h0 : 0 ≤ x) :
    ∃ g g', adjointAt (.power (.var 0) (.var 1)) 0 (num x hx) (num y hy) = some g ∧
      adjointAt (.power (.var 0) (.var 1)) 1 (num x hx) (num y hy) = some g' ∧
      (y ≠ 0 → g ≠ nan) ∧
      ((∃ l hl, UnOp.apply .xlnx (num x hx) = (num l hl : Fp p q E) ∧ l ≠ 0) ∨ x = 1 → g' ≠ nan) := by
  have hs : (num y hy - 1 : Fp p q E) ≠ nan := round_ne_nan _
  have hpow := pow_cases hx h0 _ hs
  refine ⟨_, _, adjointAt_power0 isZero_zero _ _, adjointAt_power1 isZero_zero _ _, fun hy0 => ?_, ?_⟩
  · rw [mul_one']
    exact mul_num hpow hy hy0
  · rw [mul_one']
    rintro (⟨l, hl, e, hl0⟩ | h1)
    · rw [e]
      exact mul_num hpow hl hl0
    · subst h1
      have e : ∀ z : Fp p q E, z ≠ nan → ScalarFns.pow (num 1 hx) z = 1 := by
        intro z hz
        cases z with
        | num z hz =>
          simp only [ScalarFns.pow]
          rw [if_neg (by norm_num), if_neg (by norm_num), Real.one_rpow, round_one]
        | inf s =>
          simp only [ScalarFns.pow]
          rw [if_pos (by norm_num)]
        | nan => exact absurd rfl hz
      rw [e _ hs, one_mul']
      exact fun hc => nomatch xlnx_nan.1 hc

/-! ## Where the code gives NaN, or the wrong number, for a derivative that exists -/

/-- For `x < 0` the operator `x ln x` is constantly zero (C15), its derivative is computed as NaN. -/
theorem C90_violation_xlnx (x : ℝ) (hx : Represents p q E x) (h : x < 0) (y : Fp p q E) :
    HasDerivAt (UnOp.apply .xlnx : ℝ → ℝ) 0 x ∧
      adjointAt (.un .xlnx (.var 0)) 0 (num x hx : Fp p q E) y = some nan := by
  constructor
  · refine (hasDerivAt_const x (0 : ℝ)).congr_of_eventuallyEq ?_
    filter_upwards [Iio_mem_nhds h] with s hs
    exact if_pos (decide_eq_true (le_of_lt hs))
  · rw [adjointAt_un _ rfl, show (slope .xlnx (num x hx) : Fp p q E) = ScalarFns.ln (num x hx) + 1 from one_mul' _,
      show (ScalarFns.ln (num x hx) : Fp p q E) = nan from if_pos h]
    rfl

private theorem rep (k : ℤ) (h1 : -1074 ≤ k) (h2 : k ≤ 971) : Represents 52 1074 971 ((2 : ℝ) ^ k) :=
  represents_two_pow (by exact_mod_cast h1) (by exact_mod_cast h2)

private theorem tiny_square : fround 52 1074 (((2 : ℝ) ^ (-600 : ℤ)) ^ 2) = 0 := by
  refine fround_tiny ?_
  rw [← zpow_natCast, ← zpow_mul, abs_of_pos (by positivity)]
  calc (2 : ℝ) ^ (-600 * ((2 : ℕ) : ℤ)) < 2 ^ (-1075 : ℤ) := zpow_lt_zpow_right₀ (by norm_num) (by norm_num)
    _ = 1 / 2 * 2 ^ (-((1074 : ℕ) : ℤ)) := by
      rw [show (-1075 : ℤ) = -1 + -((1074 : ℕ) : ℤ) by norm_num, zpow_add₀ (by norm_num)]; norm_num

private theorem large_square : (Fp.round (((2 : ℝ) ^ (600 : ℤ)) ^ 2) : Double) = inf false := by
  have e : ((2 : ℝ) ^ (600 : ℤ)) ^ 2 = 2 ^ (1200 : ℤ) := by
    rw [← zpow_natCast, ← zpow_mul]; norm_num
  rw [e]
  refine round_large ?_ (zpow_le_zpow_right₀ (by norm_num) (by norm_num))
  unfold largest
  have h1 : (2 : ℝ) * ((2 ^ (52 + 1) - 1) * 2 ^ 971) ≤ 2 * (2 ^ (53 : ℤ) * 2 ^ (971 : ℤ)) := by
    rw [← zpow_natCast (2 : ℝ) (52 + 1), ← zpow_natCast (2 : ℝ) 971]
    have : (0 : ℝ) < 2 ^ ((971 : ℕ) : ℤ) := by positivity
    refine mul_le_mul_of_nonneg_left (mul_le_mul_of_nonneg_right ?_ this.le) (by norm_num)
    exact (sub_le_self _ zero_le_one).trans_eq (by norm_num)
  refine h1.trans_lt ?_
  rw [← zpow_add₀ (by norm_num)]
  have h2 : (2 : ℝ) * 2 ^ (53 + 971 : ℤ) = 2 ^ (1025 : ℤ) := by
    rw [show (1025 : ℤ) = 1 + (53 + 971) by norm_num, zpow_add₀ (by norm_num : (2 : ℝ) ≠ 0) 1, zpow_one]
  rw [h2]
  exact zpow_lt_zpow_right₀ (by norm_num) (by norm_num)

/-- In double precision: the derivative of `0/y` with respect to `y` is zero; at `y = 2⁻⁶⁰⁰` it is computed as
NaN, because `y²` is rounded to zero. -/
theorem C90_violation_quotient : HasDerivAt (fun s : ℝ => 0 / s) 0 ((2 : ℝ) ^ (-600 : ℤ)) ∧
    adjointAt (.div (.var 0) (.var 1)) 1 (0 : Double) (num ((2 : ℝ) ^ (-600 : ℤ)) (rep _ (by norm_num) (by norm_num))) =
      some nan := by
  constructor
  · simp only [zero_div]
    exact hasDerivAt_const _ _
  · obtain ⟨g, g', -, h, -, h'⟩ := C90_quotient_partial (p := 52) (q := 1074) (E := 971) (by norm_num) 0 _ represents_zero
      (rep (-600) (by norm_num) (by norm_num))
    rw [h'.2 ⟨rfl, tiny_square⟩] at h
    exact h

/-- The derivative of `x/y` with respect to `x` is `1/y`; for `y = 2⁶⁰⁰` it is computed as zero, for
`y = 2⁻⁶⁰⁰` as infinity, although `1/y` is a number of the format. -/
theorem C90_violation_reciprocal (x : Double) : ∃ hb hs,
    HasDerivAt (fun s : ℝ => s / 2 ^ (600 : ℤ)) (2 ^ (-600 : ℤ)) x.val ∧
    adjointAt (.div (.var 0) (.var 1)) 0 x (num (2 ^ (600 : ℤ)) hb) = some 0 ∧
    HasDerivAt (fun s : ℝ => s / 2 ^ (-600 : ℤ)) (2 ^ (600 : ℤ)) x.val ∧
    adjointAt (.div (.var 0) (.var 1)) 0 x (num (2 ^ (-600 : ℤ)) hs) = some (inf false) := by
  refine ⟨rep _ (by norm_num) (by norm_num), rep _ (by norm_num) (by norm_num), ?_, ?_, ?_, ?_⟩
  · have := (hasDerivAt_id x.val).div_const ((2 : ℝ) ^ (600 : ℤ))
    rwa [one_div, ← zpow_neg] at this
  · rw [adjointAt_div0 isZero_zero, mul_one', square_eq (by norm_num), large_square]
    rfl
  · have := (hasDerivAt_id x.val).div_const ((2 : ℝ) ^ (-600 : ℤ))
    rwa [one_div, ← zpow_neg, neg_neg] at this
  · rw [adjointAt_div0 isZero_zero, mul_one', square_eq (by norm_num)]
    rcases round_cases (p := 52) (q := 1074) (E := 971) (((2 : ℝ) ^ (-600 : ℤ)) ^ 2) with ⟨hz, e⟩ | ⟨e, hz⟩
    · rw [e]
      have hd : ∀ (a z : ℝ) (ha : Represents 52 1074 971 a) (hz : Represents 52 1074 971 z), 0 < a → z = 0 →
          (num a ha / num z hz : Double) = inf false := by
        intro a z ha hz h0 h1
        rw [show (num a ha / num z hz : Double) = if z = 0 then (if a = 0 then nan else inf (decide (a < 0)))
          else Fp.round (a / z) from rfl, if_pos h1, if_neg h0.ne', decide_eq_false (not_lt.2 h0.le)]
      rw [hd _ _ _ _ (by positivity) tiny_square]
    · rw [tiny_square, abs_zero] at hz
      linarith [one_le_largest (p := 52) (E := 971)]

/-- The derivatives of `s⁰` at zero, and of `0ˢ` at `1/2`, are zero; both are computed as NaN. -/
theorem C90_violation_power : ∃ hh : Represents 52 1074 971 (1 / 2),
    HasDerivAt (fun s : ℝ => s ^ (0 : ℝ)) 0 0 ∧ adjointAt (.power (.var 0) (.var 1)) 0 (0 : Double) 0 = some nan ∧
    HasDerivAt (fun s : ℝ => (0 : ℝ) ^ s) 0 (1 / 2) ∧
    adjointAt (.power (.var 0) (.var 1)) 1 (0 : Double) (num (1 / 2) hh) = some nan := by
  have hh : Represents 52 1074 971 (1 / 2) := by
    have := rep (-1) (by norm_num) (by norm_num)
    rwa [zpow_neg_one, ← one_div] at this
  have pole : ∀ z : ℝ, z < 0 → ∀ hz, (ScalarFns.pow 0 (num z hz) : Double) = inf false := by
    intro z hz hr
    show ScalarFns.pow (num 0 represents_zero) (num z hr) = _
    simp only [ScalarFns.pow]
    rw [if_neg (fun hc => lt_irrefl _ hc.1)]
    exact if_pos ⟨trivial, hz⟩
  have infz : ∀ hz, (inf false * num 0 hz : Double) = nan := fun hz => if_pos rfl
  refine ⟨hh, ?_, ?_, ?_, ?_⟩
  · simp only [Real.rpow_zero]
    exact hasDerivAt_const _ _
  · have hn : Represents 52 1074 971 (-1) :=
      ⟨fround_neg_of (represents_one (p := 52) (q := 1074) (E := 971)).1, by rw [abs_neg, abs_one]; exact one_le_largest⟩
    have e : (0 - 1 : Double) = num (-1) hn := by
      rw [show (0 - 1 : Double) = Fp.round (0 - 1) from rfl, zero_sub]; exact round_rep _
    rw [adjointAt_power0 isZero_zero, mul_one', e, pole _ (by norm_num)]
    exact congrArg some (infz _)
  · refine (hasDerivAt_const _ (0 : ℝ)).congr_of_eventuallyEq ?_
    filter_upwards [Ioi_mem_nhds (show (0 : ℝ) < 1 / 2 by norm_num)] with s hs
    exact Real.zero_rpow (ne_of_gt hs)
  · have e : ∃ hz, (num (1 / 2) hh - 1 : Double) = num (-(1 / 2)) hz := by
      refine ⟨⟨fround_neg_of hh.1, by rw [abs_neg]; exact hh.2⟩, ?_⟩
      rw [show (num (1 / 2) hh - 1 : Double) = Fp.round (1 / 2 - 1) from rfl, show (1 / 2 - 1 : ℝ) = -(1 / 2) by norm_num]
      exact round_rep _
    obtain ⟨hz, e⟩ := e
    rw [adjointAt_power1 isZero_zero, mul_one', e, pole _ (by norm_num),
      show (UnOp.apply .xlnx 0 : Double) = 0 from if_pos (decide_eq_true le_rfl)]
    exact congrArg some (infz _)

/-! ## Examples -/

private theorem rep3 : Represents 52 1074 971 3 :=
  ⟨by exact_mod_cast fround_small (p := 52) (q := 1074) (m := 3) (by norm_num), by
    rw [abs_of_pos (by norm_num)]
    unfold largest
    have h : (1 : ℝ) ≤ 2 ^ 971 := one_le_pow₀ (by norm_num)
    exact (show (3 : ℝ) ≤ 2 ^ (52 + 1) - 1 by norm_num).trans (le_mul_of_one_le_right (by norm_num) h)⟩

/-- The logarithm of minus infinity is NaN, that of plus infinity is not. -/
example : (UnOp.apply .ln (inf true) : Double) = nan ∧ (UnOp.apply .ln (inf false) : Double) ≠ nan :=
  ⟨(C90_unary (by norm_num) .ln (inf true)).2 (fun h => nomatch h),
    fun h => (C90_unary (by norm_num) .ln (inf false)).1 h rfl⟩

/-- The sigmoid function of an infinity. -/
example : ∃ s hs, (UnOp.apply .sigmoid (inf true) : Double) = num s hs ∧ 0 ≤ s ∧ s ≤ 1 :=
  (C90_range (p := 52) (by norm_num) (inf true) (fun h => nomatch h)).1

/-- The exponential function at 3. -/
example : ∃ D, HasDerivAt (UnOp.apply .exp : ℝ → ℝ) D 3 ∧
    adjointAt (.un .exp (.var 0)) 0 (num 3 rep3 : Double) 0 = some (Fp.round D) :=
  C90_rounded_partial (by norm_num) .exp (by simp) 3 rep3 0 trivial (fun h => nomatch h)

/-- The sigmoid function at 3. -/
example : ∃ g, adjointAt (.un .sigmoid (.var 0)) 0 (num 3 rep3 : Double) 0 = some g ∧ g ≠ nan := by
  obtain ⟨g, h, hg⟩ := C90_derivative_partial (p := 52) (by norm_num) .sigmoid rfl (by simp) 3 rep3 0
  exact ⟨g, h, fun hc => by simpa using hg.1 hc⟩

/-- A product of zero and infinity. -/
example : adjointAt (.mul (.var 0) (.var 1)) 0 (0 : Double) (inf false) = some (inf false) :=
  (C90_sums _ _).2.2.2.2.1

/-- `3/3`. -/
example : ∃ g, adjointAt (.div (.var 0) (.var 1)) 0 (num 3 rep3 : Double) (num 3 rep3) = some g ∧ g ≠ nan := by
  obtain ⟨g, -, h, -, hg, -⟩ := C90_quotient_partial (p := 52) (by norm_num) 3 3 rep3 rep3
  exact ⟨g, h, fun hc => absurd (hg.1 hc) (by norm_num)⟩

/-- `3³` and `1³`. -/
example : (∃ g, adjointAt (.power (.var 0) (.var 1)) 0 (num 3 rep3 : Double) (num 3 rep3) = some g ∧ g ≠ nan) ∧
    ∃ g, adjointAt (.power (.var 0) (.var 1)) 1 (1 : Double) (num 3 rep3) = some g ∧ g ≠ nan := by
  obtain ⟨g, -, h, -, hg, -⟩ := C90_power_partial 3 3 rep3 rep3 (by norm_num)
  obtain ⟨-, g', -, h', -, hg'⟩ := C90_power_partial 1 3 (represents_one (p := 52) (q := 1074) (E := 971)) rep3 (by norm_num)
  exact ⟨⟨g, h, hg (by norm_num)⟩, g', h', hg' (.inr rfl)⟩

/-- `x ln x` at `-1`. -/
example : ∃ h, adjointAt (.un .xlnx (.var 0)) 0 (num (-1) h : Double) 0 = some nan :=
  ⟨⟨fround_neg_of (represents_one (p := 52) (q := 1074) (E := 971)).1, by rw [abs_neg, abs_one]; exact one_le_largest⟩,
    (C90_violation_xlnx (-1) _ (by norm_num) 0).2⟩

end Aegir.Props
