import Verif.Spec.Notation
import Verif.Lemmas.Tensor
import Verif.Lemmas.Types
/-!
# Rendered texts mean what the expressions denote
-/

namespace Aegir
open Spec

variable {nm : String → ℝ → Prop}

/-- The rendering `E` stands for `x`: a symbolic zero or one, or a text with that meaning whose level
shows in the way the code flags it. -/
def Says (nm : String → ℝ → Prop) (E : Expr) (x : ℝ) : Prop :=
  match E with
  | .zero => x = 0
  | .one => x = 1
  | .text p => ∃ k, Means nm k p.text x ∧
      (p.needsWrap = false → k ≤ 3 ∧ (k ≤ 2 ∨ Loose p) ∧ (k = 0 ∨ LooseBase p))

theorem Says.any {p : PreWrap} {x : ℝ} (h : Says nm (.text p) x) : ∃ k, Means nm k p.text x :=
  let ⟨k, h, _⟩ := h; ⟨k, h⟩

/-- Inside another expression. -/
theorem Says.safe {p : PreWrap} {x : ℝ} (h : Says nm (.text p) x) :
    ∃ k, Means nm k p.safe x ∧ k ≤ 3 ∧ (k ≤ 2 ∨ Loose p) ∧ (k = 0 ∨ LooseBase p) := by
  obtain ⟨k, h, hk⟩ := h
  obtain ⟨t, w⟩ := p
  cases w with
  | true => exact ⟨0, .bracket h, by omega, .inl (by omega), .inl rfl⟩
  | false => exact ⟨k, h, hk rfl⟩

theorem says_wrapped {s : String} {k : Nat} {x : ℝ} (h : Means nm k s x) : Says nm (.wrapped s) x :=
  ⟨k, h, fun h => by simp at h⟩

theorem says_atom {s : String} {x : ℝ} (h : Means nm 0 s x) : Says nm (.plain s) x :=
  ⟨0, h, fun _ => ⟨by omega, .inl (by omega), .inl rfl⟩⟩

theorem says_power {s t : String} {m : Nat} {x y : ℝ} (h : Means nm 0 s x) (h' : Means nm m t y)
    (hm : m ≤ 2) : Says nm (.plain (s ++ "^" ++ t)) (x ^ y) :=
  ⟨1, .pow h h' hm, fun _ => ⟨by omega, .inl (by omega), .inr (.inr ⟨rfl, .inl (by simp)⟩)⟩⟩

theorem says_neg {p : PreWrap} {x : ℝ} (h : Says nm (.text p) x) : Says nm (.plain ("-" ++ p.safe)) (-x) := by
  obtain ⟨k, h, h3, h2, -⟩ := h.safe
  refine ⟨_, .neg h h3, fun _ => ⟨by omega, ?_, .inr (.inr ⟨rfl, .inr ?_⟩)⟩⟩
  · rcases h2 with h2 | ⟨hw, n, t, ht, hp⟩
    · exact .inl (by omega)
    · refine .inr ⟨rfl, n + 1, t, ?_, hp⟩
      have : p.safe = p.text := by simp [PreWrap.safe, PreWrap.toSafeString, hw]
      simp [this, ht, List.replicate_succ]
  · simp

theorem says_neg_one : Says nm (.plain "-1") (-1) :=
  ⟨2, .neg .one (by omega), fun _ => ⟨by omega, .inl (by omega), .inr (.inr ⟨rfl, .inr (by decide)⟩)⟩⟩

theorem says_double {p : PreWrap} {x : ℝ} (h : Says nm (.text p) x) :
    Says nm (.plain ("2 ∘ " ++ p.safe)) (2 * x) := by
  obtain ⟨k, h, h3, -⟩ := h.safe
  have hl : Loose ⟨"2 ∘ " ++ p.safe, false⟩ := ⟨rfl, 0, ['2', ' ', '∘', ' '] ++ p.safe.toList,
    by rw [String.toList_append]; rfl, .inl (by simp)⟩
  exact ⟨3, .mul (o := " ∘ ") (by simp) .two (by omega) h h3,
    fun _ => ⟨le_rfl, .inr hl, .inr (.inl hl)⟩⟩

theorem says_pi2 : Says nm (.plain "π/2") (Real.pi / 2) :=
  have hl : Loose ⟨"π/2", false⟩ := ⟨rfl, 0, _, rfl, .inr (by decide)⟩
  ⟨3, .pi2, fun _ => ⟨le_rfl, .inr hl, .inr (.inl hl)⟩⟩

theorem says_pi4 : Says nm (.plain "π/4") (Real.pi / 4) :=
  have hl : Loose ⟨"π/4", false⟩ := ⟨rfl, 0, _, rfl, .inr (by decide)⟩
  ⟨3, .pi4, fun _ => ⟨le_rfl, .inr hl, .inr (.inl hl)⟩⟩

theorem says_call {f : String} {g : ℝ → ℝ} {p : PreWrap} {x : ℝ} (hf : namedFn f = some g)
    (h : Says nm (.text p) x) : Says nm (call f p) (g x) := by
  obtain ⟨k, h⟩ := h.any
  exact says_atom (.call hf h)

theorem says_call_one {f : String} {g : ℝ → ℝ} (hf : namedFn f = some g) :
    Says nm (.plain (f ++ "(1)")) (g 1) := by
  have := says_atom (Means.call hf (.one (nm := nm)))
  rwa [show f ++ "(" ++ "1" ++ ")" = f ++ "(1)" by simp [String.append_assoc]] at this

theorem says_add {E E' : Expr} {x y : ℝ} (h : Says nm E x) (h' : Says nm E' y) :
    Says nm (addExpr E E') (x + y) := by
  cases E <;> cases E'
  · simp_all [Says, addExpr]
  · simp_all [Says, addExpr]
  · simp only [Says] at h; subst h; rw [zero_add]; exact h'
  · simp_all [Says, addExpr]
  · simp only [Says] at h h'; subst h h'; rw [one_add_one_eq_two]; exact says_atom .two
  · simp only [Says] at h; subst h
    obtain ⟨k, h', h3, -⟩ := h'.safe
    exact says_wrapped (.add (s := "1") .one (by omega) h' h3)
  · simp only [Says] at h'; subst h'; rw [add_zero]; exact h
  · simp only [Says] at h'; subst h'
    obtain ⟨k, h, h3, -⟩ := h.safe
    have := says_wrapped (Means.add h (by omega) .one (by omega))
    rwa [String.append_assoc] at this
  · obtain ⟨k, h, h3, -⟩ := h.safe
    obtain ⟨k', h', h3', -⟩ := h'.safe
    exact says_wrapped (.add h (by omega) h' h3')

theorem says_sub {E E' : Expr} {x y : ℝ} (h : Says nm E x) (h' : Says nm E' y) :
    Says nm (subExpr E E') (x - y) := by
  cases E <;> cases E'
  · simp_all [Says, subExpr]
  · simp only [Says] at h h'; subst h h'; rw [zero_sub]; exact says_neg_one
  · simp only [Says] at h; subst h; rw [zero_sub]; exact says_neg h'
  · simp_all [Says, subExpr]
  · simp_all [Says, subExpr]
  · simp only [Says] at h; subst h
    obtain ⟨k, h', h3, -⟩ := h'.safe
    exact says_wrapped (.sub (s := "1") .one (by omega) h' h3)
  · simp only [Says] at h'; subst h'; rw [sub_zero]; exact h
  · simp only [Says] at h'; subst h'
    obtain ⟨k, h, h3, -⟩ := h.safe
    have := says_wrapped (Means.sub h (by omega) .one (by omega))
    rwa [String.append_assoc] at this
  · obtain ⟨k, h, h3, -⟩ := h.safe
    obtain ⟨k', h', h3', -⟩ := h'.safe
    exact says_wrapped (.sub h (by omega) h' h3')

theorem says_prod {f : PreWrap → PreWrap → Expr} {E E' : Expr} {x y : ℝ} (h : Says nm E x)
    (h' : Says nm E' y) (hf : ∀ p q, Says nm (.text p) x → Says nm (.text q) y → Says nm (f p q) (x * y)) :
    Says nm (prodExpr f E E') (x * y) := by
  cases E <;> cases E'
  · simp_all [Says, prodExpr]
  · simp_all [Says, prodExpr]
  · simp only [Says] at h; subst h; rw [zero_mul]; rfl
  · simp_all [Says, prodExpr]
  · simp_all [Says, prodExpr]
  · simp only [Says] at h; subst h; rw [one_mul]; exact h'
  · simp only [Says] at h'; subst h'; rw [mul_zero]; rfl
  · simp only [Says] at h'; subst h'; rw [mul_one]; exact h
  · exact hf _ _ h h'

theorem says_mulText {o : String} (ho : o ∈ [" ∘ ", " ⊗ ", " : "]) {x y : ℝ} (p q : PreWrap)
    (h : Says nm (.text p) x) (h' : Says nm (.text q) y) :
    Says nm (.wrapped (p.safe ++ o ++ q.safe)) (x * y) := by
  obtain ⟨k, h, h3, -⟩ := h.safe
  obtain ⟨k', h', h3', -⟩ := h'.safe
  exact says_wrapped (.mul ho h h3 h' h3')

theorem says_div {E E' : Expr} {x y : ℝ} (h : Says nm E x) (h' : Says nm E' y) (hy : E' ≠ .zero)
    (hl : ∀ p, E' = .text p → ¬ Loose p) : Says nm (divExpr E E') (x / y) := by
  cases E' with
  | zero => exact absurd rfl hy
  | one =>
    simp only [Says] at h'; subst h'; rw [div_one]
    cases E <;> exact h
  | text q =>
    obtain ⟨k', h', h3', h2', -⟩ := h'.safe
    have h2' : k' ≤ 2 := h2'.resolve_right (hl q rfl)
    cases E with
    | zero => simp only [Says] at h; subst h; rw [zero_div]; rfl
    | one =>
      simp only [Says] at h; subst h
      exact says_wrapped (.div (s := "1") .one (by omega) h' h2')
    | text p =>
      obtain ⟨k, h, h3, -⟩ := h.safe
      exact says_wrapped (.div h h3 h' h2')

theorem says_pow {E E' : Expr} {x y : ℝ} (h : Says nm E x) (h' : Says nm E' y)
    (h0 : E = .zero → y ≠ 0) (hb : ∀ p, E = .text p → ¬ LooseBase p)
    (hl : ∀ p, E' = .text p → ¬ Loose p) : Says nm (powerExpr E E') (x ^ y) := by
  cases E with
  | zero =>
    simp only [Says] at h; subst h
    rw [Real.zero_rpow (h0 rfl)]
    cases E' <;> rfl
  | one =>
    simp only [Says] at h; subst h
    rw [Real.one_rpow]
    cases E' <;> rfl
  | text p =>
    cases E' with
    | zero => simp only [Says] at h'; subst h'; rw [Real.rpow_zero]; rfl
    | one => simp only [Says] at h'; subst h'; rw [Real.rpow_one]; exact h
    | text q =>
      obtain ⟨k, h, h3, -, hk⟩ := h.safe
      obtain rfl := hk.resolve_right (hb p rfl)
      obtain ⟨k', h', h3', h2', -⟩ := h'.safe
      exact says_power h h' (h2'.resolve_right (hl q rfl))

theorem sigmoid_real (z : ℝ) : sigmoid z = 1 / (1 + Real.exp (-z)) := by
  simp only [sigmoid, ScalarFns.leb, ScalarFns.exp]
  split_ifs with h
  · rfl
  · have := Real.exp_pos z
    rw [Real.exp_neg]
    field_simp
    ring

theorem sign_real (x : ℝ) : UnOp.sign.apply x = (SignType.sign x : ℝ) := by
  simp only [UnOp.apply, ScalarFns.isZero]
  split_ifs with h
  · simp only [decide_eq_true_eq] at h; simp [h]
  · exact signum_of_ne (by simpa using h)

theorem square_real (x : ℝ) : UnOp.square.apply x = x ^ (2 : ℝ) := by
  simp only [UnOp.apply, ScalarFns.pow, one_add_one_eq_two]

theorem zero_values : Real.arccos 0 = Real.pi / 2 ∧ Real.arctan 1 = Real.pi / 4 ∧
    Real.arcsin 1 = Real.pi / 2 := ⟨Real.arccos_zero, Real.arctan_one, Real.arcsin_one⟩

theorem says_un_text (op : UnOp) {p : PreWrap} {x : ℝ} (h : Says nm (.text p) x)
    (hc : UnOp.Clear op (.text p) x) : Says nm (op.expr (.text p)) (op.apply x) := by
  have hs := h.safe
  obtain ⟨k, hs, h3, h2, -⟩ := hs
  cases op with
    | addOne | asin | dirac => exact hc.elim
    | subOne =>
      have := says_wrapped (Means.sub hs (by omega) .one (by omega))
      rwa [String.append_assoc] at this
    | oneSub => exact says_wrapped (.sub (s := "1") .one (by omega) hs h3)
    | square =>
      rw [square_real]
      have := says_power (.bracket hs) .two (by omega)
      rwa [show "(" ++ p.safe ++ ")" ++ "^" ++ "2" = "(" ++ p.safe ++ ")^2" by
        simp [String.append_assoc]] at this
    | double => rw [show UnOp.double.apply x = 2 * x by simp [UnOp.apply, one_add_one_eq_two]]
                exact says_double h
    | negate => exact says_neg h
    | sign =>
      rw [sign_real]
      exact says_call (f := "sgn") (g := fun x => SignType.sign x) (by simp [namedFn]) h
    | abs =>
      obtain ⟨k, h⟩ := h.any
      exact says_atom (.bars h)
    | xlnx =>
      have hx : UnOp.xlnx.apply x = x * Real.log x := by
        have hc : 0 ≤ x := hc
        simp only [UnOp.apply, ScalarFns.leb, ScalarFns.ln]
        split_ifs with hx
        · rw [le_antisymm (by simpa using hx) hc]; simp
        · rfl
      rw [hx]
      obtain ⟨m, h⟩ := h.any
      have := says_wrapped (Means.mul (o := " ∘ ") (by simp) hs h3
        (.call (f := "ln") (g := Real.log) (by simp [namedFn]) h) (by omega))
      rwa [show p.safe ++ " ∘ " ++ ("ln" ++ "(" ++ p.text ++ ")") = p.safe ++ " ∘ ln(" ++ p.text ++ ")" from
        String.toList_inj.1 (by simp)] at this
    | exp =>
      have := says_power .euler hs (h2.resolve_right hc)
      rwa [Real.exp_one_rpow] at this
    | rabbit =>
      have := says_wrapped (Means.mul (o := " ∘ ") (by simp) hs h3
        (.bracket (.sub (s := "1") .one (by omega) hs h3)) (by omega))
      rwa [show p.safe ++ " ∘ " ++ ("(" ++ ("1" ++ " - " ++ p.safe) ++ ")") =
        p.safe ++ " ∘ (1 - " ++ p.safe ++ ")" from String.toList_inj.1 (by simp)] at this
    | sigmoid =>
      rw [show UnOp.sigmoid.apply x = _ from sigmoid_real x]
      exact says_call (f := "σ") (g := fun x => 1 / (1 + Real.exp (-x))) (by simp [namedFn]) h
    | ln => exact says_call (f := "ln") (g := Real.log) (by simp [namedFn]) h
    | gamma => exact says_call (f := "Γ") (g := Real.Gamma) (by simp [namedFn]) h
    | digamma => exact says_call (f := "ψ") (g := (logDeriv Real.Gamma)) (by simp [namedFn]) h
    | logGamma => exact says_call (f := "lnΓ") (g := (fun x => Real.log (Real.Gamma x))) (by simp [namedFn]) h
    | erf => exact says_call (f := "erf") (g := (fun x => 2 / Real.sqrt Real.pi * ∫ t in (0 : ℝ)..x, Real.exp (-t ^ 2))) (by simp [namedFn]) h
    | cos => exact says_call (f := "cos") (g := Real.cos) (by simp [namedFn]) h
    | cosh => exact says_call (f := "cosh") (g := Real.cosh) (by simp [namedFn]) h
    | acos => exact says_call (f := "acos") (g := Real.arccos) (by simp [namedFn]) h
    | acosh => exact says_call (f := "acosh") (g := Real.arcosh) (by simp [namedFn]) h
    | sin => exact says_call (f := "sin") (g := Real.sin) (by simp [namedFn]) h
    | sinh => exact says_call (f := "sinh") (g := Real.sinh) (by simp [namedFn]) h
    | asinh => exact says_call (f := "asinh") (g := Real.arsinh) (by simp [namedFn]) h
    | tan => exact says_call (f := "tan") (g := Real.tan) (by simp [namedFn]) h
    | tanh => exact says_call (f := "tanh") (g := Real.tanh) (by simp [namedFn]) h
    | atan => exact says_call (f := "atan") (g := Real.arctan) (by simp [namedFn]) h
    | atanh => exact says_call (f := "atanh") (g := Real.artanh) (by simp [namedFn]) h

theorem says_un_one (op : UnOp) (hc : UnOp.Clear op .one 1) :
    Says nm (op.expr .one) (op.apply 1) := by
  cases op with
    | sinh | erf | digamma | dirac | atanh => exact hc.elim
    | subOne | oneSub | square | abs | ln | xlnx | rabbit | gamma | logGamma | acos | acosh =>
      simp [Says, UnOp.expr, Expr.arms, UnOp.apply, ScalarFns.pow, ScalarFns.abs, ScalarFns.ln,
        ScalarFns.gamma, ScalarFns.loggamma, ScalarFns.acos, ScalarFns.acosh, Real.arcosh]
    | addOne => rw [show UnOp.addOne.apply (1 : ℝ) = 2 from one_add_one_eq_two]; exact says_wrapped .two
    | double =>
      rw [show UnOp.double.apply (1 : ℝ) = 2 by simp [UnOp.apply, one_add_one_eq_two]]
      exact says_atom .two
    | negate => exact says_neg_one
    | sign =>
      rw [sign_real]
      exact says_call_one (f := "sgn") (g := fun x => SignType.sign x) (by simp [namedFn])
    | exp => exact says_atom .euler
    | sigmoid =>
      rw [show UnOp.sigmoid.apply (1 : ℝ) = _ from sigmoid_real 1]
      exact says_call_one (f := "σ") (g := fun x => 1 / (1 + Real.exp (-x))) (by simp [namedFn])
    | asin => rw [show UnOp.asin.apply (1 : ℝ) = _ from zero_values.2.2]; exact says_pi2
    | atan => rw [show UnOp.atan.apply (1 : ℝ) = _ from zero_values.2.1]; exact says_pi4
    | cos => exact says_call_one (f := "cos") (g := Real.cos) (by simp [namedFn])
    | cosh => exact says_call_one (f := "cosh") (g := Real.cosh) (by simp [namedFn])
    | sin => exact says_call_one (f := "sin") (g := Real.sin) (by simp [namedFn])
    | asinh => exact says_call_one (f := "asinh") (g := Real.arsinh) (by simp [namedFn])
    | tan => exact says_call_one (f := "tan") (g := Real.tan) (by simp [namedFn])
    | tanh => exact says_call_one (f := "tanh") (g := Real.tanh) (by simp [namedFn])

theorem says_un_zero (op : UnOp) (hc : UnOp.Clear op .zero 0) :
    Says nm (op.expr .zero) (op.apply 0) := by
  cases op with
    | erf | digamma | dirac | sign | ln | gamma | logGamma | acosh => exact hc.elim
    | subOne => rw [show UnOp.subOne.apply (0 : ℝ) = -1 from zero_sub 1]; exact says_neg_one
    | sigmoid =>
      rw [show UnOp.sigmoid.apply (0 : ℝ) = 1 / 2 by
        rw [show UnOp.sigmoid.apply (0 : ℝ) = _ from sigmoid_real 0]; norm_num]
      exact says_atom .half
    | acos => rw [show UnOp.acos.apply (0 : ℝ) = _ from zero_values.1]; exact says_pi2
    | oneSub | addOne | square | double | negate | abs | xlnx | exp | rabbit | cos | cosh | sin | sinh
    | asin | asinh | tan | tanh | atan | atanh =>
      simp [Says, UnOp.expr, Expr.arms, UnOp.apply, ScalarFns.pow, ScalarFns.abs, ScalarFns.exp,
        ScalarFns.leb, ScalarFns.cos, ScalarFns.cosh, ScalarFns.sin, ScalarFns.sinh, ScalarFns.asin,
        ScalarFns.asinh, ScalarFns.tan, ScalarFns.tanh, ScalarFns.atan, ScalarFns.atanh,
        one_add_one_eq_two]

theorem says_un (op : UnOp) {E : Expr} {x : ℝ} (h : Says nm E x) (hc : UnOp.Clear op E x) :
    Says nm (op.expr E) (op.apply x) := by
  cases E with
  | zero => simp only [Says] at h; subst h; exact says_un_zero op hc
  | one => simp only [Says] at h; subst h; exact says_un_one op hc
  | text p => exact says_un_text op h hc

section
variable {idText : Id → String} {numText : ℝ → String} {ρ : Id → Tensor ℝ}

theorem clear_dims (hρ : ∀ i, (ρ i).dims = []) {e : Node ℝ} (h : Clear idText numText ρ e) :
    (den ρ e).dims = [] := by
  induction e with
  | var i => exact hρ i
  | varAdj i t => simp [den, Tensor.delta, hρ]
  | const τ b => cases τ <;> first | rfl | exact h.elim
  | constSpec => exact h.elim
  | constAdj n t ih => simp [den, Tensor.const, ih h, hρ]
  | cached => exact h.elim
  | add l r ihl ihr => simp [den, Tensor.zip, ihl h.1, ihr h.2]
  | sub l r ihl ihr => simp [den, Tensor.zip, ihl h.1, ihr h.2]
  | mul l r ihl ihr => simp [den, Tensor.zip, ihl h.1, ihr h.2]
  | div l r ihl ihr => simp [den, Tensor.zip, ihl h.1, ihr h.2.1]
  | power l r => rfl
  | contract k l r ihl ihr => simp [den, Tensor.contract, ihl h.2.1, ihr h.2.2]
  | sum => exact h.elim
  | un op n ih => exact ih h.1

/-- The rendering of an expression stands for the number it denotes. -/
theorem says_den (hρ : ∀ i, (ρ i).dims = []) (hi : ∀ i, nm (idText i) ((ρ i).val []))
    (hn : ∀ x, nm (numText x) x) {e : Node ℝ} (h : Clear idText numText ρ e) {E : Expr}
    (hE : e.toExpr idText numText = some E) : Says nm E ((den ρ e).val []) := by
  induction e generalizing E with
  | var i => cases hE; exact says_atom (.name (hi i))
  | varAdj i t =>
    cases hE
    by_cases hit : i = t <;> simp [den, Tensor.delta, hρ, hit, Says]
  | const τ b =>
    cases τ <;> first | exact h.elim | skip
    cases hE
    exact says_atom (.name (hn b))
  | constSpec => exact h.elim
  | constAdj n t ih => cases hE; rfl
  | cached => exact h.elim
  | add l r ihl ihr =>
    simp only [Node.toExpr, Option.bind_eq_some_iff, Option.map_eq_some_iff] at hE
    obtain ⟨x, hx, y, hy, rfl⟩ := hE
    have := says_add (ihl h.1 hx) (ihr h.2 hy)
    simpa [den, Tensor.zip, bIdx, clear_dims hρ h.1, clear_dims hρ h.2] using this
  | sub l r ihl ihr =>
    simp only [Node.toExpr, Option.bind_eq_some_iff, Option.map_eq_some_iff] at hE
    obtain ⟨x, hx, y, hy, rfl⟩ := hE
    have := says_sub (ihl h.1 hx) (ihr h.2 hy)
    simpa [den, Tensor.zip, bIdx, clear_dims hρ h.1, clear_dims hρ h.2] using this
  | mul l r ihl ihr =>
    simp only [Node.toExpr, Option.bind_eq_some_iff, Option.map_eq_some_iff] at hE
    obtain ⟨x, hx, y, hy, rfl⟩ := hE
    have : Says nm (prodExpr mulText x y) _ :=
      says_prod (ihl h.1 hx) (ihr h.2 hy) (says_mulText (o := " ∘ ") (by simp))
    simpa [den, Tensor.zip, bIdx, clear_dims hρ h.1, clear_dims hρ h.2] using this
  | div l r ihl ihr =>
    simp only [Node.toExpr, Option.bind_eq_some_iff, Option.map_eq_some_iff] at hE
    obtain ⟨x, hx, y, hy, rfl⟩ := hE
    obtain ⟨hl, hr, -, h0, h1⟩ := h
    have := says_div (ihl hl hx) (ihr hr hy) (by rintro rfl; exact h0 hy)
      (by rintro p rfl; exact h1 p hy)
    simpa [den, Tensor.zip, bIdx, clear_dims hρ hl, clear_dims hρ hr] using this
  | power l r ihl ihr =>
    simp only [Node.toExpr, Option.bind_eq_some_iff, Option.map_eq_some_iff] at hE
    obtain ⟨x, hx, y, hy, rfl⟩ := hE
    obtain ⟨hl, hr, h0, h1, h2⟩ := h
    exact says_pow (ihl hl hx) (ihr hr hy) (by rintro rfl; exact h0 hx)
      (by rintro p rfl; exact h1 p hx) (by rintro p rfl; exact h2 p hy)
  | contract k l r ihl ihr =>
    simp only [Node.toExpr, Option.bind_eq_some_iff, Option.map_eq_some_iff] at hE
    obtain ⟨f, hf, x, hx, y, hy, rfl⟩ := hE
    obtain ⟨-, hl, hr⟩ := h
    have hv : (den ρ (.contract k l r)).val [] = (den ρ l).val [] * (den ρ r).val [] := by
      simp [den, Tensor.contract, clear_dims hρ hl, clear_dims hρ hr, sumOver]
    rw [hv]
    refine says_prod (ihl hl hx) (ihr hr hy) fun p q hp hq => ?_
    match k, hf with
    | 0, hf => cases hf; exact says_mulText (o := " ⊗ ") (by simp) p q hp hq
    | 1, hf =>
      cases hf
      obtain ⟨_, hp, -⟩ := hp.safe
      obtain ⟨_, hq, -⟩ := hq.safe
      exact says_atom (.inner hp hq)
    | 2, hf => cases hf; exact says_mulText (o := " : ") (by simp) p q hp hq
  | sum => exact h.elim
  | un op n ih =>
    simp only [Node.toExpr, Option.map_eq_some_iff] at hE
    obtain ⟨x, hx, rfl⟩ := hE
    exact says_un op (ih h.1 hx) (h.2 x hx)

theorem says_display (hρ : ∀ i, (ρ i).dims = []) (hi : ∀ i, nm (idText i) ((ρ i).val []))
    (hn : ∀ x, nm (numText x) x) {e : Node ℝ} (h : ClearDisplay idText numText ρ e) {s : String}
    (hs : e.display idText numText = some s) :
    (den ρ e).dims = [] ∧ ∃ k, Means nm k s ((den ρ e).val []) := by
  have simple : ∀ {e : Node ℝ} {s : String}, Clear idText numText ρ e →
      e.toExpr idText numText ≠ some .zero →
      (e.toExpr idText numText).map Expr.display = some s →
      (den ρ e).dims = [] ∧ ∃ k, Means nm k s ((den ρ e).val []) := by
    intro e s hc h0 hs
    refine ⟨clear_dims hρ hc, ?_⟩
    obtain ⟨E, hE, rfl⟩ := Option.map_eq_some_iff.1 hs
    have := says_den (nm := nm) hρ hi hn hc hE
    cases E with
    | zero => exact absurd hE h0
    | one => exact ⟨0, by rw [this]; exact .one⟩
    | text p => exact this.any
  induction e generalizing s with
  | sum n ih =>
    simp only [Node.display, Option.map_eq_some_iff] at hs
    obtain ⟨t, ht, rfl⟩ := hs
    obtain ⟨hd, k, hk⟩ := ih h ht
    refine ⟨rfl, 0, ?_⟩
    have hv : (den ρ (.sum n)).val [] = (den ρ n).val [] := by
      simp [den, hd, sumOver]
    rw [hv]
    exact .sigma hk
  | constAdj n t =>
    cases hs
    exact ⟨clear_dims hρ (e := .constAdj n t) h, 0, .zero⟩
  | contract k l r ihl ihr =>
    by_cases hk : k = 2
    · subst hk
      simp only [Node.display, Option.bind_eq_some_iff, Option.map_eq_some_iff] at hs
      obtain ⟨x, hx, y, hy, rfl⟩ := hs
      obtain ⟨hl, k, hkl⟩ := ihl h.1 hx
      obtain ⟨hr, m, hkr⟩ := ihr h.2 hy
      refine ⟨by simp [den, Tensor.contract, hl, hr], 3, ?_⟩
      have hv : (den ρ (.contract 2 l r)).val [] = (den ρ l).val [] * (den ρ r).val [] := by
        simp [den, Tensor.contract, hl, hr, sumOver]
      rw [hv, show "(" ++ x ++ ") : (" ++ y ++ ")" = "(" ++ x ++ ")" ++ " : " ++ ("(" ++ y ++ ")") from
        String.toList_inj.1 (by simp)]
      exact .mul (by simp) (.bracket hkl) (by omega) (.bracket hkr) (by omega)
    · match k, hk with
      | 0, _ => exact simple h.1 h.2 hs
      | 1, _ => exact simple h.1 h.2 hs
      | k + 3, _ => exact simple h.1 h.2 hs
  | _ => exact simple h.1 h.2 hs

theorem reads_id (i : Id) : ReadsAs idText numText ρ (idText i) ((ρ i).val []) := .inl ⟨i, rfl, rfl⟩

theorem reads_num (x : ℝ) : ReadsAs idText numText ρ (numText x) x := .inr rfl

/-- Scalar constants only, and nothing cached. -/
def Plain : Node ℝ → Prop
  | .var _ | .varAdj _ _ | .const .scalar _ => True
  | .const _ _ | .constSpec _ _ | .cached _ _ => False
  | .constAdj n _ | .sum n | .un _ n => Plain n
  | .add l r | .sub l r | .mul l r | .div l r | .power l r | .contract _ l r => Plain l ∧ Plain r

theorem plain_of_clear {e : Node ℝ} (h : Clear idText numText ρ e) : Plain e := by
  induction e with
  | var | varAdj => trivial
  | const τ b => cases τ <;> trivial
  | constSpec | cached | sum => exact h.elim
  | constAdj n t ih => exact ih h
  | add l r ihl ihr | sub l r ihl ihr | mul l r ihl ihr => exact ⟨ihl h.1, ihr h.2⟩
  | div l r ihl ihr | power l r ihl ihr => exact ⟨ihl h.1, ihr h.2.1⟩
  | contract k l r ihl ihr => exact ⟨ihl h.2.1, ihr h.2.2⟩
  | un op n ih => exact ih h.1

theorem plain_of_clearDisplay {e : Node ℝ} (h : ClearDisplay idText numText ρ e) : Plain e := by
  induction e with
  | sum n ih => exact ih h
  | constAdj n t => exact plain_of_clear (e := n) h
  | contract k l r ihl ihr =>
    by_cases hk : k = 2
    · subst hk; exact ⟨ihl h.1, ihr h.2⟩
    · match k, hk with
      | 0, _ => exact plain_of_clear (e := .contract 0 l r) h.1
      | 1, _ => exact plain_of_clear (e := .contract 1 l r) h.1
      | k + 3, _ => exact plain_of_clear (e := .contract (k + 3) l r) h.1
  | var i => exact plain_of_clear (e := .var i) h.1
  | varAdj i t => exact plain_of_clear (e := .varAdj i t) h.1
  | const τ b => exact plain_of_clear h.1
  | constSpec | cached => exact h.1.elim
  | add l r => exact plain_of_clear (e := .add l r) h.1
  | sub l r => exact plain_of_clear (e := .sub l r) h.1
  | mul l r => exact plain_of_clear (e := .mul l r) h.1
  | div l r => exact plain_of_clear (e := .div l r) h.1
  | power l r => exact plain_of_clear (e := .power l r) h.1
  | un op n => exact plain_of_clear (e := .un op n) h.1

theorem Plain.child {e n : Node ℝ} (h : Plain e) (hn : n ∈ children e) : Plain n := by
  cases e <;> simp only [children, List.mem_cons, List.not_mem_nil, or_false] at hn <;>
    first | exact h.elim | (subst hn; exact h) | (rcases hn with rfl | rfl; exacts [h.1, h.2])

theorem Plain.cacheFree {e : Node ℝ} (h : Plain e) : CacheFree e := by
  intro n i hs
  generalize hm : Node.cached n i = m at hs
  induction hs with
  | refl => subst hm; exact h
  | step hc _ ih => exact ih (h.child hc)

theorem Plain.regular {Γ : Id → BTy} (hΓ : ∀ i, Γ i = .scalar) {e : Node ℝ} (h : Plain e) {τ : BTy}
    (d : FnImpl Γ e τ) : τ = .scalar ∧ FnImpl.Regular d := by
  induction d with
  | var i => exact ⟨hΓ i, trivial⟩
  | @varAdj i t c k _ =>
    rw [hΓ i, hΓ t] at k
    exact ⟨by cases k; rfl, trivial⟩
  | const τ b => cases τ <;> first | exact ⟨rfl, trivial⟩ | exact h.elim
  | constSpec | cached => exact h.elim
  | @constAdj n a c d t k ih =>
    obtain ⟨rfl, hr⟩ := ih h
    refine ⟨?_, hr⟩
    rw [hΓ t] at k
    cases k; rfl
  | add dl dr z ihl ihr | mul dl dr z ihl ihr =>
    obtain ⟨rfl, hl⟩ := ihl h.1
    obtain ⟨rfl, hr⟩ := ihr h.2
    exact ⟨z.scalar_in, hl, hr⟩
  | sub dl dr z ihl ihr | div dl dr z ihl ihr =>
    obtain ⟨rfl, hl⟩ := ihl h.1
    obtain ⟨rfl, hr⟩ := ihr h.2
    exact ⟨z.scalar_in, hl, hr, fun ⟨_, ds, hd, _⟩ => by cases hd⟩
  | power dl dr ihl ihr => exact ⟨rfl, (ihl h.1).2, (ihr h.2).2⟩
  | contract dl dr z ihl ihr =>
    obtain ⟨rfl, hl⟩ := ihl h.1
    obtain ⟨rfl, hr⟩ := ihr h.2
    exact ⟨by cases z <;> rfl, hl, hr, ⟨fun _ _ _ hd => (by cases hd), fun _ _ _ hd => (by cases hd)⟩⟩
  | sum d ih => exact ⟨rfl, (ih h).2⟩
  | un op d ih => exact ih h

end

end Aegir
