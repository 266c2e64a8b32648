import Verif.Spec.Calculus
import Verif.Lemmas.Tensor
import Verif.Lemmas.Adjoint
import Mathlib.Analysis.Calculus.Deriv.Abs
import Mathlib.Analysis.SpecialFunctions.Pow.Deriv
import Mathlib.Analysis.SpecialFunctions.Trigonometric.Deriv
import Mathlib.Analysis.SpecialFunctions.Log.Deriv
/-!
# Adjoints denote derivatives
-/

namespace Aegir

open Spec

section
variable {F : Type} [CommRing F] [Div F] [ScalarFns F]

/-- Operand shapes fit. -/
def Compat (ρ : Id → Tensor F) : Node F → Prop
  | .var _ => True
  | .varAdj _ _ => True
  | .const _ _ => True
  | .constSpec _ _ => True
  | .constAdj _ _ => True
  | .cached n _ => Compat ρ n
  | .add l r => Compat ρ l ∧ Compat ρ r ∧
      ((den ρ l).dims = [] ∨ (den ρ r).dims = [] ∨ (den ρ l).dims = (den ρ r).dims)
  | .sub l r => Compat ρ l ∧ Compat ρ r ∧
      ((den ρ l).dims = [] ∨ (den ρ r).dims = [] ∨ (den ρ l).dims = (den ρ r).dims)
  | .mul l r => Compat ρ l ∧ Compat ρ r ∧
      ((den ρ l).dims = [] ∨ (den ρ r).dims = [] ∨ (den ρ l).dims = (den ρ r).dims)
  | .div l r => Compat ρ l ∧ Compat ρ r ∧
      ((den ρ l).dims = [] ∨ (den ρ r).dims = [] ∨ (den ρ l).dims = (den ρ r).dims)
  | .power l r => Compat ρ l ∧ Compat ρ r ∧ (den ρ l).dims = [] ∧ (den ρ r).dims = []
  | .contract k l r => Compat ρ l ∧ Compat ρ r ∧
      ((den ρ l).dims = [] ∧ (den ρ r).dims = [] ∨
        ∃ p q s : Dims, q.length = k ∧ (den ρ l).dims = p ++ q ∧ (den ρ r).dims = q ++ s)
  | .sum n => Compat ρ n
  | .un _ n => Compat ρ n

/-- Extents only depend on extents. -/
theorem den_dims_congr {ρ ρ' : Id → Tensor F} (h : ∀ i, (ρ i).dims = (ρ' i).dims) (e : Node F) :
    (den ρ e).dims = (den ρ' e).dims := by
  induction e with
  | var i => exact h i
  | varAdj i t => simp [den, Tensor.delta, h]
  | const | constSpec | power | sum => rfl
  | constAdj n t ih => simp [den, Tensor.const, h, ih]
  | cached n i ih => exact ih
  | add l r ihl ihr | sub l r ihl ihr | mul l r ihl ihr | div l r ihl ihr =>
    simp [den, Tensor.zip, ihl, ihr]
  | contract k l r ihl ihr => simp [den, Tensor.contract, ihl, ihr]
  | un op n ih => exact ih

omit [CommRing F] [Div F] [ScalarFns F] in
theorem perturb_dims (ρ : Id → Tensor F) (t : Id) (k : Idx) (s : F) (i : Id) :
    (perturb ρ t k s i).dims = (ρ i).dims := by
  unfold perturb
  split
  · next h => rw [h]
  · rfl

theorem den_perturb_dims (ρ : Id → Tensor F) (t : Id) (k : Idx) (s : F) (e : Node F) :
    (den (perturb ρ t k s) e).dims = (den ρ e).dims :=
  den_dims_congr (perturb_dims ρ t k s) e

omit [CommRing F] [Div F] [ScalarFns F] in
theorem perturb_self (ρ : Id → Tensor F) (t : Id) (k : Idx) :
    perturb ρ t k ((ρ t).val k) = ρ := by
  funext i
  unfold perturb
  split
  · next h =>
    subst h
    congr 1
    funext ix
    split
    · next h => rw [h]
    · rfl
  · rfl

/-- A variable that does not occur does not matter. -/
theorem den_congr {ρ ρ' : Id → Tensor F} (e : Node F) (h : ∀ i, Occurs e i → ρ i = ρ' i) :
    den ρ e = den ρ' e := by
  induction e with
  | var i => exact h i (.var i)
  | varAdj i t => simp [den, h i (.varAdjValue i t), h t (.varAdjTarget i t)]
  | const | constSpec => rfl
  | constAdj n t ih =>
    simp [den, h t (.constAdjTarget n t), ih fun i hi => h i (.child (by simp [children]) hi)]
  | cached n i ih => exact ih fun i hi => h i (.child (by simp [children]) hi)
  | add l r ihl ihr | sub l r ihl ihr | mul l r ihl ihr | div l r ihl ihr | power l r ihl ihr
  | contract k l r ihl ihr =>
    simp [den, ihl fun i hi => h i (.child (by simp [children]) hi),
      ihr fun i hi => h i (.child (by simp [children]) hi)]
  | sum n ih => simp [den, ih fun i hi => h i (.child (by simp [children]) hi)]
  | un op n ih => simp [den, ih fun i hi => h i (.child (by simp [children]) hi)]

end

/-! ## Broadcasting -/

theorem bIdx_self {D : Dims} {ix : Idx} (h : InBounds D ix) : bIdx D ix = ix := bIdx_inBounds h

theorem bIdx_append {L T : Dims} {ix k : Idx} (h : T = [] ∨ InBounds L ix) (hk : InBounds T k) :
    bIdx (L ++ T) (ix ++ k) = bIdx L ix ++ k := by
  rcases h with rfl | h
  · cases hk; simp
  · rw [bIdx_self h, bIdx_self (inBounds_append.2 ⟨ix, k, h, hk, rfl⟩)]

/-! ## Sums -/

theorem hasDerivAt_sumOver {K : Dims} {f : Idx → ℝ → ℝ} {f' : Idx → ℝ} {x : ℝ}
    (h : ∀ ix, InBounds K ix → HasDerivAt (f ix) (f' ix) x) :
    HasDerivAt (fun s => sumOver K (fun ix => f ix s)) (sumOver K f') x := by
  induction K generalizing f f' with
  | nil => exact h [] .nil
  | cons d K ih =>
    simp only [sumOver]
    refine HasDerivAt.fun_sum fun i hi => ih fun ix hix => ?_
    exact h (i :: ix) (.cons (Finset.mem_range.1 hi) hix)

theorem sumOver_add {F : Type} [AddCommMonoid F] (K : Dims) (f g : Idx → F) :
    sumOver K (fun ix => f ix + g ix) = sumOver K f + sumOver K g := by
  induction K generalizing f g with
  | nil => rfl
  | cons d K ih => simp only [sumOver, ih, Finset.sum_add_distrib]

/-! ## Unary operators -/

/-- The operator, its derivative. -/
theorem hasDerivAt_abs' {x : ℝ} (h : x ≠ 0) : HasDerivAt (fun y : ℝ => |y|) (UnOp.apply .sign x) x := by
  have : UnOp.apply .sign x = SignType.sign x := by
    simp [UnOp.apply, ScalarFns.isZero, signum_of_ne h, h]
  rw [this]
  exact hasDerivAt_abs h

theorem sigmoid_eq (x : ℝ) : sigmoid x = 1 / (1 + Real.exp (-x)) := by
  unfold sigmoid
  split
  · rfl
  · show Real.exp x / (1 + Real.exp x) = _
    have : Real.exp x ≠ 0 := (Real.exp_pos x).ne'
    rw [Real.exp_neg]
    field_simp
    ring

theorem hasDerivAt_sigmoid (x : ℝ) :
    HasDerivAt (sigmoid : ℝ → ℝ) (sigmoid x * (1 - sigmoid x)) x := by
  have hf : (sigmoid : ℝ → ℝ) = fun x => 1 / (1 + Real.exp (-x)) := funext sigmoid_eq
  have hpos : 1 + Real.exp (-x) ≠ 0 := by positivity
  have h1 : HasDerivAt (fun y : ℝ => 1 + Real.exp (-y)) (Real.exp (-x) * (-1)) x :=
    ((hasDerivAt_neg x).exp).const_add 1
  have h2 := (hasDerivAt_const x (1 : ℝ)).div h1 hpos
  rw [hf]
  refine h2.congr_deriv ?_
  field_simp
  ring

/-- The derivative of a unary operator, as a real function. -/
noncomputable def UnOp.d : UnOp → ℝ → ℝ
  | .subOne, _ => 1
  | .oneSub, _ => -1
  | .addOne, _ => 1
  | .square, x => (1 + 1) * x
  | .double, _ => 1 + 1
  | .negate, _ => -1
  | .abs, x => UnOp.apply .sign x
  | .ln, x => 1 / x
  | .xlnx, x => Real.log x + 1
  | .exp, x => Real.exp x
  | .rabbit, x => 1 - (1 + 1) * x
  | .sigmoid, x => Aegir.sigmoid x * (1 - Aegir.sigmoid x)
  | .gamma, x => logDeriv Real.Gamma x * Real.Gamma x
  | .logGamma, x => logDeriv Real.Gamma x
  | .cos, x => -Real.sin x
  | .sin, x => Real.cos x
  | _, _ => 0

/-- The operators with an adjoint. -/
def UnOp.diffable : UnOp → Bool
  | .subOne | .oneSub | .addOne | .square | .double | .negate | .sign | .abs | .ln | .xlnx | .exp
  | .rabbit | .sigmoid | .gamma | .logGamma | .cos | .sin => true
  | _ => false

theorem hasDerivAt_un (op : UnOp) (hop : op.diffable = true) (x : ℝ) (h : UnOp.SmoothAt op x) :
    HasDerivAt (op.apply : ℝ → ℝ) (op.d x) x := by
  cases op <;> try cases hop
  case subOne => exact (hasDerivAt_id x).sub_const 1
  case oneSub => exact (hasDerivAt_id x).const_sub 1
  case addOne => exact (hasDerivAt_id x).add_const 1
  case square =>
    have h1 : (UnOp.apply .square : ℝ → ℝ) = fun x => x * x := by
      funext y
      show y ^ (1 + 1 : ℝ) = y * y
      rw [one_add_one_eq_two, Real.rpow_two, sq]
    rw [h1]
    refine ((hasDerivAt_id x).mul (hasDerivAt_id x)).congr_deriv ?_
    simp [UnOp.d]; ring
  case double =>
    exact ((hasDerivAt_id x).const_mul (1 + 1)).congr_deriv (mul_one _)
  case negate => exact hasDerivAt_neg x
  case sign =>
    have h0 : x ≠ 0 := h
    have h1 : (UnOp.apply .sign : ℝ → ℝ) = fun y => ((SignType.sign y : SignType) : ℝ) := by
      funext y
      by_cases hy : y = 0
      · simp [UnOp.apply, ScalarFns.isZero, hy]
      · simp [UnOp.apply, ScalarFns.isZero, signum_of_ne hy, hy]
    rw [h1]
    rcases lt_or_gt_of_ne h0 with hn | hp
    · refine (hasDerivAt_const x (-1 : ℝ)).congr_of_eventuallyEq ?_
      filter_upwards [Iio_mem_nhds hn] with y hy
      simp [sign_neg (show y < 0 from hy)]
    · refine (hasDerivAt_const x (1 : ℝ)).congr_of_eventuallyEq ?_
      filter_upwards [Ioi_mem_nhds hp] with y hy
      simp [sign_pos (show 0 < y from hy)]
  case abs => exact hasDerivAt_abs' h
  case ln =>
    have h0 : 0 < x := h
    exact (Real.hasDerivAt_log h0.ne').congr_deriv (one_div x).symm
  case xlnx =>
    have h0 : 0 < x := h
    have h1 : HasDerivAt (fun y : ℝ => y * Real.log y) (Real.log x + 1) x := by
      refine ((hasDerivAt_id x).mul (Real.hasDerivAt_log h0.ne')).congr_deriv ?_
      simp [h0.ne']
    refine h1.congr_of_eventuallyEq ?_
    filter_upwards [Ioi_mem_nhds h0] with y hy
    have : ¬ y ≤ 0 := not_le.2 hy
    simp [UnOp.apply, ScalarFns.leb, ScalarFns.ln, this]
  case exp => exact Real.hasDerivAt_exp x
  case rabbit =>
    refine ((hasDerivAt_id x).mul ((hasDerivAt_id x).const_sub 1)).congr_deriv ?_
    simp [UnOp.d]; ring
  case sigmoid => exact hasDerivAt_sigmoid x
  case gamma =>
    have hd : DifferentiableAt ℝ Real.Gamma x := Real.differentiableAt_Gamma h
    have hne : Real.Gamma x ≠ 0 := Real.Gamma_ne_zero h
    refine hd.hasDerivAt.congr_deriv ?_
    simp [UnOp.d, logDeriv, hne]
  case logGamma =>
    have hd : DifferentiableAt ℝ Real.Gamma x := Real.differentiableAt_Gamma h
    have hne : Real.Gamma x ≠ 0 := Real.Gamma_ne_zero h
    exact hd.hasDerivAt.log hne
  case cos => exact Real.hasDerivAt_cos x
  case sin => exact Real.hasDerivAt_sin x

/-! ## Shapes of adjoints -/

theorem dims_case {D T : Dims} (h : D = [] ∨ D ++ T = [] ∨ D = D ++ T) : D = [] ∨ T = [] := by
  rcases h with h | h | h
  · exact .inl h
  · exact .inl (List.append_eq_nil_iff.1 h).1
  · exact .inr (by simpa using h.symm)

theorem zip_dims_right {F : Type} {A B : Tensor F} {D T : Dims} {f : F → F → F} (hA : A.dims = D)
    (hB : B.dims = D ++ T) (h : D = [] ∨ T = []) : (Tensor.zip f A B).dims = D ++ T := by
  simp only [Tensor.zip, hA, hB]
  rcases h with rfl | rfl <;> simp

theorem zip_val_right {F : Type} {A B : Tensor F} {D T : Dims} {f : F → F → F} (hA : A.dims = D)
    (hB : B.dims = D ++ T) (h : D = [] ∨ T = []) {ix k : Idx} (hix : InBounds D ix)
    (hk : InBounds T k) :
    (Tensor.zip f A B).val (ix ++ k) = f (A.val ix) (B.val (ix ++ k)) := by
  simp only [Tensor.zip, hA, hB]
  rw [bIdx_append (.inr hix) hk, bIdx_self hix]
  rcases h with rfl | rfl
  · cases hix
    simp [bIdx]
  · cases hk
    simp [bIdx_self hix]

theorem zip_dims_left {F : Type} {A B : Tensor F} {D T : Dims} {f : F → F → F} (hA : A.dims = D ++ T)
    (hB : B.dims = D) (h : D = [] ∨ T = []) : (Tensor.zip f A B).dims = D ++ T := by
  simp only [Tensor.zip, hA, hB]
  rcases h with rfl | rfl
  · simp
  · simp

theorem zip_val_left {F : Type} {A B : Tensor F} {D T : Dims} {f : F → F → F} (hA : A.dims = D ++ T)
    (hB : B.dims = D) (h : D = [] ∨ T = []) {ix k : Idx} (hix : InBounds D ix)
    (hk : InBounds T k) :
    (Tensor.zip f A B).val (ix ++ k) = f (A.val (ix ++ k)) (B.val ix) := by
  simp only [Tensor.zip, hA, hB]
  rw [bIdx_append (.inr hix) hk, bIdx_self hix]
  rcases h with rfl | rfl
  · cases hix
    simp [bIdx]
  · cases hk
    simp [bIdx_self hix]

/-- `adjoint` of a unary operator. -/
theorem adjoint_un {F : Type} [CommRing F] {op : UnOp} {n e' : Node F} {t : Id}
    (h : (Node.un op n).adjoint t = some e') : op.diffable = true ∧ ∃ n', n.adjoint t = some n' := by
  cases op <;> simp only [Node.adjoint, Option.map_eq_some_iff, reduceCtorEq] at h
  all_goals first
    | exact ⟨rfl, _, h⟩
    | (obtain ⟨n', hn, _⟩ := h; exact ⟨rfl, n', hn⟩)

theorem compat_un {F : Type} [CommRing F] [Div F] [ScalarFns F] {ρ : Id → Tensor F} {op : UnOp} {n n' e' : Node F} {t : Id}
    (hn : n.adjoint t = some n') (h : (Node.un op n).adjoint t = some e') (hc' : Compat ρ e') :
    Compat ρ n' := by
  cases op <;> simp only [Node.adjoint, hn, Option.map_some, Option.some.injEq, reduceCtorEq] at h
  all_goals subst h
  case subOne | addOne | oneSub | negate | double => exact hc'
  case square | sign | abs | exp | rabbit => exact hc'.2.1
  case ln | xlnx | sigmoid | logGamma | sin => exact hc'.1
  case gamma => exact hc'.1.1
  case cos => exact hc'.1

/-- The adjoint of a unary operator denotes the operator's derivative times the operand's adjoint. -/
theorem den_un_adjoint {ρ : Id → Tensor ℝ} {op : UnOp} {n n' e' : Node ℝ} {t : Id}
    (hn : n.adjoint t = some n') (h : (Node.un op n).adjoint t = some e') (hc' : Compat ρ e')
    (hd : (den ρ n').dims = (den ρ n).dims ++ (ρ t).dims)
    (hs : ∀ ix, InBounds (den ρ n).dims ix → UnOp.SmoothAt op ((den ρ n).val ix)) :
    (den ρ e').dims = (den ρ n).dims ++ (ρ t).dims ∧
    ∀ ix k, InBounds (den ρ n).dims ix → InBounds (ρ t).dims k →
        (den ρ e').val (ix ++ k) = op.d ((den ρ n).val ix) * (den ρ n').val (ix ++ k) := by
  have right : ∀ (g : Node ℝ) (φ : ℝ → ℝ), (den ρ g).dims = (den ρ n).dims →
      (∀ ix, InBounds (den ρ n).dims ix → (den ρ g).val ix = φ ((den ρ n).val ix)) →
      Compat ρ (.mul g n') →
      (den ρ (.mul g n')).dims = (den ρ n).dims ++ (ρ t).dims ∧
      ∀ ix k, InBounds (den ρ n).dims ix → InBounds (ρ t).dims k →
        (den ρ (.mul g n')).val (ix ++ k) = φ ((den ρ n).val ix) * (den ρ n').val (ix ++ k) := by
    intro g φ hg hv hc
    have hcase := dims_case (D := (den ρ n).dims) (T := (ρ t).dims)
      (by rw [← hd]; rw [← hg]; exact hc.2.2)
    refine ⟨zip_dims_right hg hd hcase, fun ix k hix hk => ?_⟩
    exact (zip_val_right hg hd hcase hix hk).trans (by rw [hv ix hix])
  have left : ∀ (g : Node ℝ) (φ : ℝ → ℝ), (den ρ g).dims = (den ρ n).dims →
      (∀ ix, InBounds (den ρ n).dims ix → (den ρ g).val ix = φ ((den ρ n).val ix)) →
      Compat ρ (.mul n' g) →
      (den ρ (.mul n' g)).dims = (den ρ n).dims ++ (ρ t).dims ∧
      ∀ ix k, InBounds (den ρ n).dims ix → InBounds (ρ t).dims k →
        (den ρ (.mul n' g)).val (ix ++ k) = φ ((den ρ n).val ix) * (den ρ n').val (ix ++ k) := by
    intro g φ hg hv hc
    have hcase := dims_case (D := (den ρ n).dims) (T := (ρ t).dims)
      (by
        have := hc.2.2
        rw [hg, hd] at this
        rcases this with h | h | h
        · exact .inr (.inl h)
        · exact .inl h
        · exact .inr (.inr h.symm))
    refine ⟨zip_dims_left hd hg hcase, fun ix k hix hk => ?_⟩
    exact (zip_val_left hd hg hcase hix hk).trans (by rw [hv ix hix, mul_comm])
  cases op <;> simp only [Node.adjoint, hn, Option.map_some, Option.some.injEq, reduceCtorEq] at h
  all_goals subst h
  case subOne | addOne =>
    exact ⟨hd, fun ix k _ _ => by simp [UnOp.d]⟩
  case oneSub | negate =>
    exact ⟨hd, fun ix k _ _ => by simp [UnOp.d, den, Tensor.map, UnOp.apply]⟩
  case double =>
    exact ⟨hd, fun ix k _ _ => by simp [UnOp.d, den, Tensor.map, UnOp.apply]⟩
  case square | exp | rabbit | abs => exact right _ _ rfl (fun _ _ => rfl) hc'
  case sign =>
    refine right _ _ rfl (fun ix hix => ?_) hc'
    have h0 : (den ρ n).val ix ≠ 0 := hs ix hix
    simp [den, Tensor.map, UnOp.apply, UnOp.d, ScalarFns.eqb, h0]
  case xlnx | sigmoid | logGamma | sin => exact left _ _ rfl (fun _ _ => rfl) hc'
  case ln =>
    have hcase := dims_case (D := (den ρ n).dims) (T := (ρ t).dims)
      (by
        have := hc'.2.2
        rw [hd] at this
        rcases this with h | h | h
        · exact .inr (.inl h)
        · exact .inl h
        · exact .inr (.inr h.symm))
    refine ⟨zip_dims_left hd rfl hcase, fun ix k hix hk => ?_⟩
    exact (zip_val_left hd rfl hcase hix hk).trans (by simp [UnOp.d]; rw [div_eq_inv_mul])
  case gamma =>
    obtain ⟨h1, h2⟩ := left (.un .digamma n) (logDeriv Real.Gamma) rfl (fun _ _ => rfl) hc'.1
    have hcase := dims_case (D := (den ρ n).dims) (T := (ρ t).dims)
      (by
        have := hc'.2.2
        rw [h1] at this
        rcases this with h | h | h
        · exact .inr (.inl h)
        · exact .inl h
        · exact .inr (.inr h.symm))
    refine ⟨zip_dims_left h1 rfl hcase, fun ix k hix hk => ?_⟩
    refine (zip_val_left (B := den ρ (.un .gamma n)) h1 rfl hcase hix hk).trans ?_
    rw [h2 ix k hix hk]
    show _ * Real.Gamma _ = _
    simp only [UnOp.d]
    ring
  case cos =>
    obtain ⟨h1, h2⟩ := left (.un .sin n) Real.sin rfl (fun _ _ => rfl) hc'
    refine ⟨h1, fun ix k hix hk => ?_⟩
    show -(den ρ (.mul n' (.un .sin n))).val (ix ++ k) = _
    rw [h2 ix k hix hk]
    simp only [UnOp.d]
    ring

/-- Adjoints of the operands of `+` and `-`. -/
theorem add_adjoint {F : Type} {A' B' : Tensor F} {L R T : Dims} (hA : A'.dims = L ++ T)
    (hB : B'.dims = R ++ T) (hc' : A'.dims = [] ∨ B'.dims = [] ∨ A'.dims = B'.dims) :
    T = [] ∨ L = R := by
  rw [hA, hB] at hc'
  rcases hc' with h | h | h
  · exact .inl (List.append_eq_nil_iff.1 h).2
  · exact .inl (List.append_eq_nil_iff.1 h).2
  · exact .inr (List.append_cancel_right h)

theorem zip_adjoint_dims {F : Type} {A B A' B' : Tensor F} {T : Dims} {f g : F → F → F}
    (hA : A'.dims = A.dims ++ T) (hB : B'.dims = B.dims ++ T) (h : T = [] ∨ A.dims = B.dims) :
    (Tensor.zip g A' B').dims = (Tensor.zip f A B).dims ++ T := by
  simp only [Tensor.zip, hA, hB]
  rcases h with rfl | h
  · simp
  · rw [h]; simp

theorem bcast_inBounds {L R : Dims} (hc : L = [] ∨ R = [] ∨ L = R) {ix : Idx}
    (hix : InBounds (if L = [] then R else L) ix) :
    InBounds L (bIdx L ix) ∧ InBounds R (bIdx R ix) := by
  unfold bIdx
  rcases hc with rfl | rfl | rfl
  · simp only [if_true] at hix ⊢
    refine ⟨.nil, ?_⟩
    split
    · next h => subst h; exact .nil
    · exact hix
  · refine ⟨?_, .nil⟩
    split
    · next h => subst h; exact .nil
    · next h => rw [if_neg h] at hix; exact hix
  · simp only [ite_self] at hix
    split
    · next h => subst h; exact ⟨.nil, .nil⟩
    · exact ⟨hix, hix⟩

theorem zip_adjoint_val {F : Type} {A B A' B' : Tensor F} {T : Dims} {f g : F → F → F}
    (hA : A'.dims = A.dims ++ T) (hB : B'.dims = B.dims ++ T) (h : T = [] ∨ A.dims = B.dims)
    {ix k : Idx} (hix : InBounds (Tensor.zip f A B).dims ix) (hk : InBounds T k) :
    (Tensor.zip g A' B').val (ix ++ k)
      = g (A'.val (bIdx A.dims ix ++ k)) (B'.val (bIdx B.dims ix ++ k)) := by
  simp only [Tensor.zip, hA, hB] at hix ⊢
  have h1 : T = [] ∨ InBounds A.dims ix := h.imp_right fun h => by simpa [h] using hix
  have h2 : T = [] ∨ InBounds B.dims ix := h.imp_right fun h => by simpa [h] using hix
  rw [bIdx_append h1 hk, bIdx_append h2 hk]

/-- Extents of the combination of tensors with extents `L` and `R`. -/
def zd (L R : Dims) : Dims := if L = [] then R else L

theorem zd_comm {L R : Dims} (h : L = [] ∨ R = [] ∨ L = R) : zd R L = zd L R := by
  unfold zd
  rcases h with rfl | rfl | rfl
  · simp
  · simp
  · rfl

theorem zd_compat {L R : Dims} (h : L = [] ∨ R = [] ∨ L = R) :
    (zd L R = [] ∨ R = [] ∨ zd L R = R) ∧ zd (zd L R) R = zd L R := by
  unfold zd
  rcases h with rfl | rfl | rfl <;> simp

theorem bIdx_zd {L R : Dims} {ix : Idx} (hix : InBounds (zd L R) ix) : bIdx (zd L R) ix = ix :=
  bIdx_self hix

theorem prod_left {F : Type} {A B : Tensor F} {L R T : Dims} {f : F → F → F} (hA : A.dims = L ++ T)
    (hB : B.dims = R) (hc : T = [] ∨ L = [] ∧ R = []) :
    (Tensor.zip f A B).dims = zd L R ++ T ∧ ∀ ix k, InBounds (zd L R) ix → InBounds T k →
      (Tensor.zip f A B).val (ix ++ k) = f (A.val (bIdx L ix ++ k)) (B.val (bIdx R ix)) := by
  simp only [Tensor.zip, hA, hB, zd]
  rcases hc with rfl | ⟨rfl, rfl⟩
  · refine ⟨by simp, fun ix k _ hk => ?_⟩
    cases hk; simp
  · refine ⟨by simp, fun ix k hix hk => ?_⟩
    simp only [if_true] at hix
    cases hix
    have := bIdx_self hk
    simp only [List.nil_append, this]
    simp [bIdx]

theorem prod_right {F : Type} {A B : Tensor F} {L R T : Dims} {f : F → F → F} (hA : A.dims = L)
    (hB : B.dims = R ++ T) (hc : T = [] ∨ L = [] ∧ R = []) :
    (Tensor.zip f A B).dims = zd L R ++ T ∧ ∀ ix k, InBounds (zd L R) ix → InBounds T k →
      (Tensor.zip f A B).val (ix ++ k) = f (A.val (bIdx L ix)) (B.val (bIdx R ix ++ k)) := by
  simp only [Tensor.zip, hA, hB, zd]
  rcases hc with rfl | ⟨rfl, rfl⟩
  · refine ⟨by simp, fun ix k _ hk => ?_⟩
    cases hk; simp
  · refine ⟨by simp, fun ix k hix hk => ?_⟩
    simp only [if_true] at hix
    cases hix
    have := bIdx_self hk
    simp only [List.nil_append, this]
    simp [bIdx]

theorem zip_same {F : Type} {A B : Tensor F} {D : Dims} {f : F → F → F} (hA : A.dims = D) (hB : B.dims = D) :
    (Tensor.zip f A B).dims = D ∧ ∀ ix, InBounds D ix →
      (Tensor.zip f A B).val ix = f (A.val ix) (B.val ix) := by
  simp only [Tensor.zip, hA, hB, ite_self, true_and]
  exact fun ix hix => by rw [bIdx_self hix]

theorem mul_case {L R T : Dims} (h1 : L ++ T = [] ∨ R = [] ∨ L ++ T = R)
    (h3 : zd (L ++ T) R = [] ∨ zd (R ++ T) L = [] ∨ zd (L ++ T) R = zd (R ++ T) L) :
    T = [] ∨ L = [] ∧ R = [] := by
  by_cases hT : T = []
  · exact .inl hT
  · right
    have a : L ++ T ≠ [] := by simp [hT]
    have b : R ++ T ≠ [] := by simp [hT]
    simp only [zd, a, b, if_false, false_or] at h1 h3
    have hLR : L = R := List.append_cancel_right h3
    subst hLR
    rcases h1 with h | h
    · exact ⟨h, h⟩
    · exact absurd (by simpa using h) hT

theorem div_case {L R T : Dims} (h1 : R = [] ∨ L ++ T = [] ∨ R = L ++ T)
    (h2 : L = [] ∨ R ++ T = [] ∨ L = R ++ T)
    (h3 : zd R (L ++ T) = [] ∨ zd L (R ++ T) = [] ∨ zd R (L ++ T) = zd L (R ++ T)) :
    T = [] ∨ L = [] ∧ R = [] := by
  by_cases hT : T = []
  · exact .inl hT
  · right
    have a : L ++ T ≠ [] := by simp [hT]
    have b : R ++ T ≠ [] := by simp [hT]
    have hl : 0 < T.length := List.length_pos_of_ne_nil hT
    simp only [a, b, false_or] at h1 h2
    rcases h1 with rfl | h1
    · rcases h2 with rfl | h2
      · exact ⟨rfl, rfl⟩
      · simp only [List.nil_append] at h2
        subst h2
        simp only [zd, if_true, a, hT, if_false, false_or] at h3
        simp [hT] at h3
    · rcases h2 with rfl | h2
      · simp only [List.nil_append] at h1
        subst h1
        simp only [zd, if_true, b, hT, if_false, false_or] at h3
        simp [hT] at h3
      · have := congrArg List.length h1
        have := congrArg List.length h2
        simp only [List.length_append] at *
        omega

/-! ## Contractions -/

theorem tcontract_eq {F : Type} [CommRing F] {S T : Tensor F} {k : Nat} {p q s : Dims} (hS : S.dims = p ++ q)
    (hT : T.dims = q ++ s) (hk : q.length = k) :
    (Tensor.contract k S T).dims = p ++ s ∧ ∀ i1 i2, InBounds p i1 →
      (Tensor.contract k S T).val (i1 ++ i2)
        = sumOver q fun t => S.val (i1 ++ t) * T.val (t ++ i2) := by
  subst hk
  refine ⟨by simp [Tensor.contract, hS, hT], fun i1 i2 h1 => ?_⟩
  have := inBounds_length h1
  simp [Tensor.contract, hS, hT, ← this]

/-- The adjoint with respect to an identifier that does not occur denotes zero. -/
theorem den_adjoint_zero {ρ : Id → Tensor ℝ} {e e' : Node ℝ} {t : Id} (h : e.adjoint t = some e')
    (hno : ¬ Occurs e t) (ix : Idx) : (den ρ e').val ix = 0 := by
  have sum0 : ∀ D : Dims, sumOver D (fun _ => (0 : ℝ)) = 0 := by
    intro D
    induction D with
    | nil => rfl
    | cons d D ih => simp [sumOver, ih]
  induction e generalizing e' ix with
  | var i =>
    cases h
    have : i ≠ t := fun h => hno (h ▸ .var i)
    simp [den, Tensor.delta, this]
  | varAdj i j => cases h; rfl
  | const τ b => cases h; rfl
  | constSpec | constAdj => cases h
  | cached n i ih =>
    simp only [Node.adjoint] at h
    split at h
    · next hi => exact absurd (hi ▸ .cacheId n i) hno
    · cases h
  | add l r ihl ihr | sub l r ihl ihr | mul l r ihl ihr | div l r ihl ihr | power l r ihl ihr
  | contract k l r ihl ihr =>
    simp only [Node.adjoint, Option.bind_eq_some_iff, Option.map_eq_some_iff] at h
    obtain ⟨l', hl, r', hr, rfl⟩ := h
    have h1 := fun ix => ihl hl (fun ho => hno (.child (by simp [children]) ho)) ix
    have h2 := fun ix => ihr hr (fun ho => hno (.child (by simp [children]) ho)) ix
    simp [den, Tensor.zip, Tensor.contract, h1, h2, sum0]
  | sum n ih => exact ih h (fun ho => hno (.child (by simp [children]) ho)) ix
  | un op n ih =>
    have h1 : ∀ {n'}, n.adjoint t = some n' → ∀ ix, (den ρ n').val ix = 0 := fun hn ix =>
      ih hn (fun ho => hno (.child (by simp [children]) ho)) ix
    cases op <;> simp only [Node.adjoint, Option.map_eq_some_iff, reduceCtorEq] at h
    all_goals first
      | exact h1 h ix
      | obtain ⟨n', hn, rfl⟩ := h
        simp [den, Tensor.zip, Tensor.map, UnOp.apply, h1 hn]

/-- A tensor without nonzero entries does not contribute. -/
theorem zip_zero_left {F : Type} [CommRing F] {A B : Tensor F} (hA : ∀ ix, A.val ix = 0) (hB : B.dims ≠ [])
    (hc : A.dims = [] ∨ B.dims = [] ∨ A.dims = B.dims) :
    (Tensor.zip (· + ·) A B).dims = B.dims ∧ ∀ ix, InBounds B.dims ix →
      (Tensor.zip (· + ·) A B).val ix = B.val ix := by
  refine ⟨?_, fun ix hix => by simp [Tensor.zip, hA, bIdx_self hix]⟩
  simp only [Tensor.zip]
  rcases hc with h | h | h
  · simp [h]
  · exact absurd h hB
  · simp [h]

theorem zip_zero_right {F : Type} [CommRing F] {A B : Tensor F} (hB : ∀ ix, B.val ix = 0) (hA : A.dims ≠ []) :
    (Tensor.zip (· + ·) A B).dims = A.dims ∧ ∀ ix, InBounds A.dims ix →
      (Tensor.zip (· + ·) A B).val ix = A.val ix := by
  exact ⟨by simp [Tensor.zip, hA], fun ix hix => by simp [Tensor.zip, hB, bIdx_self hix]⟩

/-- A product with a tensor without nonzero entries. -/
theorem contract_zero_val {F : Type} [CommRing F] {k : Nat} {A B : Tensor F}
    (h : (∀ ix, A.val ix = 0) ∨ ∀ ix, B.val ix = 0) (ix : Idx) : (Tensor.contract k A B).val ix = 0 := by
  have sum0 : ∀ D : Dims, sumOver D (fun _ => (0 : F)) = 0 := by
    intro D
    induction D with
    | nil => rfl
    | cons d D ih => simp [sumOver, ih]
  rcases h with h | h <;> simp [Tensor.contract, h, sum0]

/-- The Jacobian of an affine vector is a multiple of the identity. -/
theorem affine_jacobian {ρ : Id → Tensor ℝ} {e e' : Node ℝ} {t : Id} {n : Nat}
    (h : e.adjoint t = some e') (ha : Affine ρ t e) (hT : (ρ t).dims = [n]) (hc' : Compat ρ e') :
    (den ρ e').dims = (den ρ e).dims ++ (ρ t).dims ∧ ((den ρ e).dims = [n] →
      ∃ a : ℝ, ∀ i j, i < n → j < n → (den ρ e').val [i, j] = if i = j then a else 0) := by
  have e0 : ∀ (l r : Node ℝ), den ρ (.contract 0 l r) = .contract 0 (den ρ l) (den ρ r) := by
    intro l r; simp only [den, ite_self]
  have an : ∀ D : Dims, D = D ++ [] := by simp
  induction ha generalizing e' with
  | var i =>
    cases h
    refine ⟨rfl, fun hD => ?_⟩
    refine ⟨if i = t then 1 else 0, fun a b _ _ => ?_⟩
    have hD : (ρ i).dims = [n] := hD
    by_cases hit : i = t <;> simp [den, Tensor.delta, hD, hT, hit]
  | varAdj i j =>
    cases h
    exact ⟨rfl, fun hD => ⟨0, fun i j _ _ => by simp [den, Tensor.const]⟩⟩
  | const τ b =>
    cases h
    exact ⟨rfl, fun hD => ⟨0, fun i j _ _ => by simp [den, Tensor.const]⟩⟩
  | add hl hr ihl ihr | sub hl hr ihl ihr =>
    simp only [Node.adjoint, Option.bind_eq_some_iff, Option.map_eq_some_iff] at h
    obtain ⟨l', hl', r', hr', rfl⟩ := h
    obtain ⟨dl, jl⟩ := ihl hl' hc'.1
    obtain ⟨dr, jr⟩ := ihr hr' hc'.2.1
    have hcase := add_adjoint dl dr hc'.2.2
    refine ⟨zip_adjoint_dims dl dr hcase, fun hD => ?_⟩
    have hlr := hcase.resolve_left (by simp [hT])
    simp only [den, Tensor.zip, hlr, ite_self] at hD
    obtain ⟨a, ha⟩ := jl (hlr.trans hD)
    obtain ⟨b, hb⟩ := jr hD
    first
      | refine ⟨a + b, fun i j hi hj => ?_⟩
        have := zip_adjoint_val (f := (· + ·)) (g := (· + ·)) dl dr hcase (ix := [i]) (k := [j])
          (by simp [Tensor.zip, hlr, hD]; exact inBounds_one' hi) (by rw [hT]; exact inBounds_one' hj)
        rw [hlr, hD, bIdx_self (inBounds_one' hi)] at this
        refine this.trans ?_
        show (den ρ l').val [i, j] + (den ρ r').val [i, j] = _
        rw [ha i j hi hj, hb i j hi hj]
        split <;> simp
      | refine ⟨a - b, fun i j hi hj => ?_⟩
        have := zip_adjoint_val (f := (· - ·)) (g := (· - ·)) dl dr hcase (ix := [i]) (k := [j])
          (by simp [Tensor.zip, hlr, hD]; exact inBounds_one' hi) (by rw [hT]; exact inBounds_one' hj)
        rw [hlr, hD, bIdx_self (inBounds_one' hi)] at this
        refine this.trans ?_
        show (den ρ l').val [i, j] - (den ρ r').val [i, j] = _
        rw [ha i j hi hj, hb i j hi hj]
        split <;> simp
  | un hop hn ih =>
    rename_i op m
    obtain ⟨_, n', hn'⟩ := adjoint_un h
    have hcn := compat_un hn' h hc'
    obtain ⟨hd, hj⟩ := ih hn' hcn
    obtain ⟨h1, h2⟩ := den_un_adjoint hn' h hc' hd (by
      intro ix _
      simp only [List.mem_cons, List.not_mem_nil, or_false] at hop
      rcases hop with rfl | rfl | rfl | rfl | rfl <;> trivial)
    refine ⟨h1, fun hD => ?_⟩
    obtain ⟨a, ha⟩ := hj hD
    have hconst : ∀ x y, op.d x = op.d y := by
      intro x y
      simp only [List.mem_cons, List.not_mem_nil, or_false] at hop
      rcases hop with rfl | rfl | rfl | rfl | rfl <;> rfl
    refine ⟨op.d 0 * a, fun i j hi hj => ?_⟩
    have hD : (den ρ m).dims = [n] := hD
    have := h2 [i] [j] (by rw [hD]; exact inBounds_one' hi) (by rw [hT]; exact inBounds_one' hj)
    refine this.trans ?_
    show _ * (den ρ n').val [i, j] = _
    rw [ha i j hi hj, hconst _ 0]
    split <;> simp
  | scaleR hl hs hd ih =>
    rename_i l s
    simp only [Node.adjoint, Option.bind_eq_some_iff, Option.map_eq_some_iff] at h
    obtain ⟨l', hl', s', hs', rfl⟩ := h
    obtain ⟨dl, jl⟩ := ih hl' hc'.2.1.1
    have hz := den_adjoint_zero (ρ := ρ) hs' hs
    obtain ⟨d1, v1⟩ := tcontract_eq (k := 0) (q := []) (s := []) (an (den ρ l').dims) hd rfl
    obtain ⟨d2, -⟩ := tcontract_eq (k := 0) (q := []) (s := []) (an (den ρ l).dims) hd rfl
    rw [List.append_nil] at d1 d2
    have hc2 := hc'.2.2
    rw [e0, e0] at hc2
    obtain ⟨d3, v3⟩ := zip_zero_left (contract_zero_val (.inr hz)) (by rw [d1, dl, hT]; simp) hc2
    refine ⟨?_, fun hD => ?_⟩
    · show (Tensor.zip (· + ·) (den ρ (.contract 0 l s')) (den ρ (.contract 0 l' s))).dims = _
      rw [e0, e0, d3, d1, dl, e0, d2]
    · rw [e0, d2] at hD
      obtain ⟨a, ha⟩ := jl hD
      refine ⟨a * (den ρ s).val [], fun i j hi hj => ?_⟩
      have hb : InBounds (den ρ l').dims [i, j] := by
        rw [dl, hT, hD]; exact .cons hi (.cons hj .nil)
      show (Tensor.zip (· + ·) (den ρ (.contract 0 l s')) (den ρ (.contract 0 l' s))).val _ = _
      rw [e0, e0, v3 _ (by rw [d1]; exact hb)]
      have := v1 [i, j] [] hb
      rw [List.append_nil] at this
      rw [this]
      simp only [sumOver, List.append_nil, ha i j hi hj]
      split <;> simp
  | scaleL hs hd hr ih =>
    rename_i s r
    simp only [Node.adjoint, Option.bind_eq_some_iff, Option.map_eq_some_iff] at h
    obtain ⟨s', hs', r', hr', rfl⟩ := h
    obtain ⟨dr, jr⟩ := ih hr' hc'.1.2.1
    have hz := den_adjoint_zero (ρ := ρ) hs' hs
    obtain ⟨d1, v1⟩ := tcontract_eq (T := den ρ r') (k := 0) (p := []) (q := []) (s := (den ρ r').dims) hd rfl rfl
    obtain ⟨d2, -⟩ := tcontract_eq (T := den ρ r) (k := 0) (p := []) (q := []) (s := (den ρ r).dims) hd rfl rfl
    rw [List.nil_append] at d1 d2
    obtain ⟨d3, v3⟩ := zip_zero_right (A := .contract 0 (den ρ s) (den ρ r'))
      (B := .contract 0 (den ρ s') (den ρ r)) (contract_zero_val (.inl hz))
      (by rw [d1, dr, hT]; simp)
    refine ⟨?_, fun hD => ?_⟩
    · show (Tensor.zip (· + ·) (den ρ (.contract 0 s r')) (den ρ (.contract 0 s' r))).dims = _
      rw [e0, e0, d3, d1, dr, e0, d2]
    · rw [e0, d2] at hD
      obtain ⟨a, ha⟩ := jr hD
      refine ⟨(den ρ s).val [] * a, fun i j hi hj => ?_⟩
      have hb : InBounds (den ρ r').dims [i, j] := by
        rw [dr, hT, hD]; exact .cons hi (.cons hj .nil)
      show (Tensor.zip (· + ·) (den ρ (.contract 0 s r')) (den ρ (.contract 0 s' r))).val _ = _
      rw [e0, e0, v3 _ (by rw [d1]; exact hb)]
      have := v1 [] [i, j] .nil
      rw [List.nil_append] at this
      rw [this]
      simp only [sumOver, List.nil_append, ha i j hi hj]
      split <;> simp

theorem den_deriv_contract {ρ : Id → Tensor ℝ} {t : Id} {K : Idx} {c : Nat} {l r l' r' : Node ℝ}
    (hl : l.adjoint t = some l') (hc : Compat ρ (.contract c l r))
    (hc' : Compat ρ (.add (.contract c l r') (.contract c l' r)))
    (hs : (ρ t).dims = [] ∨ c = 0 ∧ (den ρ r).dims = [] ∨ c = 0 ∧ ¬ Occurs l t ∨
        c = 1 ∧ (∃ n, (ρ t).dims = [n] ∧ (den ρ l).dims = [n] ∧ (den ρ r).dims = [n]) ∧
          Affine ρ t l)
    (hk : InBounds (ρ t).dims K)
    (dl : (den ρ l').dims = (den ρ l).dims ++ (ρ t).dims)
    (vl : ∀ ix, InBounds (den ρ l).dims ix → HasDerivAt
      (fun s => (den (perturb ρ t K s) l).val ix) ((den ρ l').val (ix ++ K)) ((ρ t).val K))
    (dr : (den ρ r').dims = (den ρ r).dims ++ (ρ t).dims)
    (vr : ∀ ix, InBounds (den ρ r).dims ix → HasDerivAt
      (fun s => (den (perturb ρ t K s) r).val ix) ((den ρ r').val (ix ++ K)) ((ρ t).val K)) :
    (den ρ (.add (.contract c l r') (.contract c l' r))).dims
      = (den ρ (.contract c l r)).dims ++ (ρ t).dims ∧
    ∀ ix, InBounds (den ρ (.contract c l r)).dims ix → HasDerivAt
      (fun s => (den (perturb ρ t K s) (.contract c l r)).val ix)
      ((den ρ (.add (.contract c l r') (.contract c l' r))).val (ix ++ K)) ((ρ t).val K) := by
  have self : ∀ n : Node ℝ, den (perturb ρ t K ((ρ t).val K)) n = den ρ n := fun n => by
    rw [perturb_self]
  have pd := den_perturb_dims ρ t K
  by_cases hT : (ρ t).dims = []
  · rw [hT] at hk dl dr ⊢
    cases hk
    simp only [List.append_nil] at dl dr vl vr ⊢
    generalize hk0 : (if (den ρ l).dims = [] ∧ (den ρ r).dims = [] then 0 else c) = k0
    have hp : ∃ p q s, q.length = k0 ∧ (den ρ l).dims = p ++ q ∧ (den ρ r).dims = q ++ s := by
      rcases hc.2.2 with ⟨h1, h2⟩ | ⟨p, q, s, hq, h1, h2⟩
      · exact ⟨[], [], [], by simpa [h1, h2] using hk0, h1, h2⟩
      · refine ⟨p, q, s, ?_, h1, h2⟩
        rw [← hk0]
        split
        · rename_i h; rw [h.1] at h1; simp_all
        · exact hq
    obtain ⟨p, q, s, hq, hL, hR⟩ := hp
    have e1 : den ρ (.contract c l r') = .contract k0 (den ρ l) (den ρ r') := by
      simp only [den, dr, hk0]
    have e2 : den ρ (.contract c l' r) = .contract k0 (den ρ l') (den ρ r) := by
      simp only [den, dl, hk0]
    have e3 : ∀ s, den (perturb ρ t [] s) (.contract c l r)
        = .contract k0 (den (perturb ρ t [] s) l) (den (perturb ρ t [] s) r) := by
      intro s
      simp only [den, pd, hk0]
    have e4 : den ρ (.contract c l r) = .contract k0 (den ρ l) (den ρ r) := by
      simp only [den, hk0]
    obtain ⟨d1, v1⟩ := tcontract_eq (T := den ρ r') hL (dr.trans hR) hq
    obtain ⟨d2, v2⟩ := tcontract_eq (T := den ρ r) (dl.trans hL) hR hq
    obtain ⟨d4, -⟩ := tcontract_eq hL hR hq
    obtain ⟨d3, v3⟩ := zip_same (f := (· + ·)) d1 d2
    refine ⟨?_, fun ix hix => ?_⟩
    · show (Tensor.zip (· + ·) (den ρ (.contract c l r')) (den ρ (.contract c l' r))).dims = _
      rw [e1, e2, e4, d3, d4]
    · rw [e4, d4] at hix
      show HasDerivAt _ ((Tensor.zip (· + ·) (den ρ (.contract c l r'))
        (den ρ (.contract c l' r))).val ix) _
      rw [e1, e2, v3 ix hix]
      obtain ⟨i1, i2, h1, h2, rfl⟩ := inBounds_append.1 hix
      rw [v1 i1 i2 h1, v2 i1 i2 h1, ← sumOver_add]
      have e5 : ∀ s, (den (perturb ρ t [] s) (.contract c l r)).val (i1 ++ i2) = sumOver q fun t' =>
          (den (perturb ρ t [] s) l).val (i1 ++ t') * (den (perturb ρ t [] s) r).val (t' ++ i2) := by
        intro s
        rw [e3 s]
        exact (tcontract_eq ((pd s l).trans hL) ((pd s r).trans hR) hq).2 i1 i2 h1
      simp only [e5]
      refine hasDerivAt_sumOver (f := fun t' s => (den (perturb ρ t [] s) l).val (i1 ++ t')
        * (den (perturb ρ t [] s) r).val (t' ++ i2)) fun t' ht' => ?_
      have b1 : InBounds (den ρ l).dims (i1 ++ t') := by
        rw [hL]; exact inBounds_append.2 ⟨_, _, h1, ht', rfl⟩
      have b2 : InBounds (den ρ r).dims (t' ++ i2) := by
        rw [hR]; exact inBounds_append.2 ⟨_, _, ht', h2, rfl⟩
      refine ((vl _ b1).mul (vr _ b2)).congr_deriv ?_
      rw [self, self]
      ring
  rcases hs with hT' | ⟨rfl, hR⟩ | ⟨rfl, hno⟩ | ⟨rfl, ⟨n, hT, hL, hR⟩, ha⟩
  · exact absurd hT' hT
  · rw [hR] at dr vr
    have e1 : den ρ (.contract 0 l r') = .contract 0 (den ρ l) (den ρ r') := by
      simp only [den, ite_self]
    have e2 : den ρ (.contract 0 l' r) = .contract 0 (den ρ l') (den ρ r) := by
      simp only [den, ite_self]
    have e3 : ∀ ρ' : Id → Tensor ℝ, den ρ' (.contract 0 l r)
        = .contract 0 (den ρ' l) (den ρ' r) := by
      intro ρ'
      simp only [den, ite_self]
    have e0 : ∀ D : Dims, D = D ++ [] := by simp
    obtain ⟨d1, v1⟩ := tcontract_eq (k := 0) (q := []) (e0 (den ρ l).dims) dr rfl
    obtain ⟨d2, v2⟩ := tcontract_eq (k := 0) (q := []) (s := []) (dl.trans (e0 _)) hR rfl
    obtain ⟨d4, -⟩ := tcontract_eq (k := 0) (q := []) (s := []) (e0 (den ρ l).dims) hR rfl
    rw [List.append_nil] at d2 d4
    obtain ⟨d3, v3⟩ := zip_same (f := (· + ·)) d1 d2
    refine ⟨?_, fun ix hix => ?_⟩
    · show (Tensor.zip (· + ·) (den ρ (.contract 0 l r')) (den ρ (.contract 0 l' r))).dims = _
      rw [e1, e2, e3, d3, d4]
    · rw [e3, d4] at hix
      show HasDerivAt _ ((Tensor.zip (· + ·) (den ρ (.contract 0 l r'))
        (den ρ (.contract 0 l' r))).val (ix ++ K)) _
      have hixK := inBounds_append.2 ⟨ix, K, hix, hk, rfl⟩
      have w2 := v2 (ix ++ K) [] hixK
      rw [List.append_nil] at w2
      rw [e1, e2, v3 (ix ++ K) hixK, v1 ix K hix, w2]
      have e5 : ∀ s, (den (perturb ρ t K s) (.contract 0 l r)).val ix
          = (den (perturb ρ t K s) l).val ix * (den (perturb ρ t K s) r).val [] := by
        intro s
        have := (tcontract_eq (k := 0) (q := []) (s := []) ((pd s l).trans (e0 _))
          ((pd s r).trans hR) rfl).2 ix [] hix
        rw [List.append_nil] at this
        rw [e3, this]
        simp [sumOver]
      simp only [e5, sumOver, List.append_nil, List.nil_append]
      refine ((vl _ hix).mul (vr [] .nil)).congr_deriv ?_
      rw [self, self]
      simp
      ring
  · have e0 : ∀ (ρ : Id → Tensor ℝ) (l r : Node ℝ),
        den ρ (.contract 0 l r) = .contract 0 (den ρ l) (den ρ r) := by
      intro ρ l r; simp only [den, ite_self]
    have an : ∀ D : Dims, D = D ++ [] := by simp
    have hz := den_adjoint_zero (ρ := ρ) hl hno
    obtain ⟨d1, v1⟩ := tcontract_eq (T := den ρ r') (k := 0) (q := []) (s := (den ρ r').dims) (an (den ρ l).dims) rfl rfl
    obtain ⟨d2, -⟩ := tcontract_eq (T := den ρ r) (k := 0) (q := []) (s := (den ρ r).dims) (an (den ρ l).dims) rfl rfl
    obtain ⟨d3, v3⟩ := zip_zero_right (A := .contract 0 (den ρ l) (den ρ r'))
      (B := .contract 0 (den ρ l') (den ρ r)) (contract_zero_val (.inl hz))
      (by rw [d1, dr]; simp [hT])
    refine ⟨?_, fun ix hix => ?_⟩
    · show (Tensor.zip (· + ·) (den ρ (.contract 0 l r')) (den ρ (.contract 0 l' r))).dims = _
      rw [e0, e0, d3, d1, dr, e0, d2, List.append_assoc]
    · rw [e0, d2] at hix
      obtain ⟨i1, i2, h1, h2, rfl⟩ := inBounds_append.1 hix
      show HasDerivAt _ ((Tensor.zip (· + ·) (den ρ (.contract 0 l r'))
        (den ρ (.contract 0 l' r))).val (i1 ++ i2 ++ K)) _
      rw [List.append_assoc, e0, e0, v3 _ (by
        rw [d1, dr]
        exact inBounds_append.2 ⟨_, _, h1, inBounds_append.2 ⟨_, _, h2, hk, rfl⟩, rfl⟩),
        v1 i1 (i2 ++ K) h1]
      have e5 : ∀ s, (den (perturb ρ t K s) (.contract 0 l r)).val (i1 ++ i2)
          = (den ρ l).val i1 * (den (perturb ρ t K s) r).val i2 := by
        intro s
        have hl : den (perturb ρ t K s) l = den ρ l := by
          refine den_congr l fun i hi => ?_
          have : i ≠ t := fun h => hno (h ▸ hi)
          simp [perturb, this]
        have := (tcontract_eq (T := den (perturb ρ t K s) r) (k := 0) (q := [])
          (an (den ρ l).dims) rfl rfl).2 i1 i2 h1
        rw [e0, hl, this]
        simp [sumOver]
      simp only [e5, sumOver, List.append_nil, List.nil_append]
      exact (vr _ h2).const_mul _
  · rw [hL, hT] at dl
    rw [hR, hT] at dr
    have hne : ∀ X : Dims, ¬ (X = [] ∧ [n] = ([] : Dims)) := by simp
    have e1 : den ρ (.contract 1 l r') = .contract 1 (den ρ l) (den ρ r') := by
      simp [den, hL]
    have e2 : den ρ (.contract 1 l' r) = .contract 1 (den ρ l') (den ρ r) := by
      simp [den, hR]
    have e3 : ∀ s, den (perturb ρ t K s) (.contract 1 l r)
        = .contract 1 (den (perturb ρ t K s) l) (den (perturb ρ t K s) r) := by
      intro s
      simp [den, pd, hR]
    have e4 : den ρ (.contract 1 l r) = .contract 1 (den ρ l) (den ρ r) := by
      simp [den, hR]
    have nn : ([n] : Dims) = [] ++ [n] := rfl
    have nn' : ([n] : Dims) = [n] ++ [] := rfl
    obtain ⟨d1, v1⟩ := tcontract_eq (k := 1) (T := den ρ r') (hL.trans nn) dr rfl
    obtain ⟨d2, v2⟩ := tcontract_eq (k := 1) (T := den ρ r) dl (hR.trans nn') rfl
    obtain ⟨d4, -⟩ := tcontract_eq (k := 1) (hL.trans nn) (hR.trans nn') rfl
    obtain ⟨d3, v3⟩ := zip_same (f := (· + ·)) d1 d2
    refine ⟨?_, fun ix hix => ?_⟩
    · show (Tensor.zip (· + ·) (den ρ (.contract 1 l r')) (den ρ (.contract 1 l' r))).dims = _
      rw [e1, e2, e4, d3, d4, hT]
      rfl
    · rw [e4, d4] at hix
      cases hix
      have hkn : InBounds [n] K := hT ▸ hk
      show HasDerivAt _ ((Tensor.zip (· + ·) (den ρ (.contract 1 l r'))
        (den ρ (.contract 1 l' r))).val K) _
      have w1 := v1 [] K .nil
      have w2 := v2 K [] hkn
      rw [List.append_nil] at w2
      rw [List.nil_append] at w1
      rw [e1, e2, v3 K hkn, w1, w2, ← sumOver_add]
      have e5 : ∀ s, (den (perturb ρ t K s) (.contract 1 l r)).val [] = sumOver [n] fun t' =>
          (den (perturb ρ t K s) l).val t' * (den (perturb ρ t K s) r).val t' := by
        intro s
        have := (tcontract_eq (k := 1) (((pd s l).trans hL).trans nn)
          (((pd s r).trans hR).trans nn') rfl).2 [] [] .nil
        rw [e3 s]
        simpa using this
      simp only [e5]
      refine hasDerivAt_sumOver (f := fun t' s => (den (perturb ρ t K s) l).val t'
        * (den (perturb ρ t K s) r).val t') fun t' ht' => ?_
      have b1 : InBounds (den ρ l).dims t' := by rw [hL]; exact ht'
      have b2 : InBounds (den ρ r).dims t' := by rw [hR]; exact ht'
      refine ((vl _ b1).mul (vr _ b2)).congr_deriv ?_
      obtain ⟨a, hj⟩ := (affine_jacobian hl ha hT hc'.2.1.1).2 hL
      cases hkn with
      | cons hk0 hk1 =>
        cases hk1
        cases ht' with
        | cons ht0 ht1 =>
          cases ht1
          rename_i i j
          simp only [List.cons_append, List.nil_append, hj _ _ hk0 ht0, hj _ _ ht0 hk0]
          rw [self, self]
          simp only [eq_comm]
          ring

/-- The adjoint of a well-shaped smooth expression denotes its derivative: entry `ix ++ K` is the
partial derivative of entry `ix` with respect to entry `K` of the target. -/
theorem den_deriv {ρ : Id → Tensor ℝ} {e e' : Node ℝ} {t : Id} (h : e.adjoint t = some e')
    (hc : Compat ρ e) (hc' : Compat ρ e') (hs : Smooth ρ t e) {K : Idx}
    (hk : InBounds (ρ t).dims K) :
    (den ρ e').dims = (den ρ e).dims ++ (ρ t).dims ∧
    ∀ ix, InBounds (den ρ e).dims ix → HasDerivAt (fun s => (den (perturb ρ t K s) e).val ix)
      ((den ρ e').val (ix ++ K)) ((ρ t).val K) := by
  have self : ∀ n : Node ℝ, den (perturb ρ t K ((ρ t).val K)) n = den ρ n := fun n => by
    rw [perturb_self]
  have pd := den_perturb_dims ρ t K
  induction e generalizing e' with
  | var i =>
    cases h
    refine ⟨rfl, fun ix hix => ?_⟩
    have hix' : InBounds (ρ i).dims ix := hix
    have hl := inBounds_length hix'
    have hval : (den ρ (.varAdj i t)).val (ix ++ K) = if i = t ∧ ix = K then 1 else 0 := by
      simp [den, Tensor.delta, ← hl]
    rw [hval]
    by_cases hit : i = t
    · subst hit
      by_cases hik : ix = K
      · subst hik
        simpa [den, perturb] using hasDerivAt_id' ((ρ i).val ix)
      · simpa [den, perturb, hik] using hasDerivAt_const ((ρ i).val K) ((ρ i).val ix)
    · simpa [den, perturb, hit] using hasDerivAt_const ((ρ t).val K) ((ρ i).val ix)
  | varAdj i j =>
    cases h
    refine ⟨rfl, fun ix hix => ?_⟩
    have : ∀ s, (den (perturb ρ t K s) (.varAdj i j)).val ix = (den ρ (.varAdj i j)).val ix := by
      intro s
      simp only [den, Tensor.delta, perturb_dims]
    simp only [this]
    exact hasDerivAt_const _ _
  | const τ b =>
    cases h
    exact ⟨rfl, fun ix _ => hasDerivAt_const _ _⟩
  | constSpec | constAdj => cases h
  | cached n i ih =>
    simp only [Node.adjoint] at h
    split at h
    · exact ih h hc hc' hs
    · cases h
  | add l r ihl ihr =>
    simp only [Node.adjoint, Option.bind_eq_some_iff, Option.map_eq_some_iff] at h
    obtain ⟨l', hl, r', hr, rfl⟩ := h
    obtain ⟨dl, vl⟩ := ihl hl hc.1 hc'.1 hs.1
    obtain ⟨dr, vr⟩ := ihr hr hc.2.1 hc'.2.1 hs.2
    have hcase := add_adjoint dl dr hc'.2.2
    refine ⟨zip_adjoint_dims dl dr hcase, fun ix hix => ?_⟩
    obtain ⟨bl, br⟩ := bcast_inBounds hc.2.2 hix
    have := zip_adjoint_val (f := (· + ·)) (g := (· + ·)) dl dr hcase hix hk
    refine HasDerivAt.congr_deriv ?_ this.symm
    simp only [den, Tensor.zip, pd]
    exact (vl _ bl).add (vr _ br)
  | sub l r ihl ihr =>
    simp only [Node.adjoint, Option.bind_eq_some_iff, Option.map_eq_some_iff] at h
    obtain ⟨l', hl, r', hr, rfl⟩ := h
    obtain ⟨dl, vl⟩ := ihl hl hc.1 hc'.1 hs.1
    obtain ⟨dr, vr⟩ := ihr hr hc.2.1 hc'.2.1 hs.2
    have hcase := add_adjoint dl dr hc'.2.2
    refine ⟨zip_adjoint_dims dl dr hcase, fun ix hix => ?_⟩
    obtain ⟨bl, br⟩ := bcast_inBounds hc.2.2 hix
    have := zip_adjoint_val (f := (· - ·)) (g := (· - ·)) dl dr hcase hix hk
    refine HasDerivAt.congr_deriv ?_ this.symm
    simp only [den, Tensor.zip, pd]
    exact (vl _ bl).sub (vr _ br)
  | mul l r ihl ihr =>
    simp only [Node.adjoint, Option.bind_eq_some_iff, Option.map_eq_some_iff] at h
    obtain ⟨l', hl, r', hr, rfl⟩ := h
    obtain ⟨dl, vl⟩ := ihl hl hc.1 hc'.1.1 hs.1
    obtain ⟨dr, vr⟩ := ihr hr hc.2.1 hc'.2.1.1 hs.2
    have hcase : (ρ t).dims = [] ∨ (den ρ l).dims = [] ∧ (den ρ r).dims = [] := by
      have h1 := hc'.1.2.2
      have h3 := hc'.2.2
      simp only [den, Tensor.zip] at h1 h3
      rw [dl] at h1 h3
      rw [dr] at h3
      exact mul_case h1 h3
    obtain ⟨d1, v1⟩ := prod_left (f := (· * ·)) (B := den ρ r) dl rfl hcase
    obtain ⟨d2, v2⟩ := prod_left (f := (· * ·)) (B := den ρ l) dr rfl (hcase.imp_right And.symm)
    rw [zd_comm hc.2.2] at d2 v2
    obtain ⟨d3, v3⟩ := zip_same (f := (· + ·)) d1 d2
    refine ⟨d3, fun ix hix => ?_⟩
    have hix' : InBounds (zd (den ρ l).dims (den ρ r).dims) ix := hix
    obtain ⟨bl, br⟩ := bcast_inBounds hc.2.2 hix
    have := v3 (ix ++ K) (inBounds_append.2 ⟨ix, K, hix', hk, rfl⟩)
    rw [v1 ix K hix' hk, v2 ix K hix' hk] at this
    refine HasDerivAt.congr_deriv ?_ this.symm
    simp only [den, Tensor.zip, pd]
    refine ((vl _ bl).mul (vr _ br)).congr_deriv ?_
    rw [self l, self r]
    ring
  | div l r ihl ihr =>
    simp only [Node.adjoint, Option.bind_eq_some_iff, Option.map_eq_some_iff] at h
    obtain ⟨l', hl, r', hr, rfl⟩ := h
    obtain ⟨dl, vl⟩ := ihl hl hc.1 hc'.1.1.2.1 hs.1
    obtain ⟨dr, vr⟩ := ihr hr hc.2.1 hc'.1.2.1.2.1 hs.2.1
    have hcase : (ρ t).dims = [] ∨ (den ρ l).dims = [] ∧ (den ρ r).dims = [] := by
      have h1 := hc'.1.1.2.2
      have h2 := hc'.1.2.1.2.2
      have h3 := hc'.1.2.2
      simp only [den, Tensor.zip] at h3
      rw [dl] at h1 h3
      rw [dr] at h2 h3
      exact div_case h1 h2 h3
    obtain ⟨d1, v1⟩ := prod_right (f := (· * ·)) (A := den ρ r) rfl dl (hcase.imp_right And.symm)
    obtain ⟨d2, v2⟩ := prod_right (f := (· * ·)) (A := den ρ l) rfl dr hcase
    rw [zd_comm hc.2.2] at d1 v1
    obtain ⟨d3, v3⟩ := zip_same (f := (· - ·)) d1 d2
    obtain ⟨d4, v4⟩ := prod_left (f := (· / ·)) (B := den ρ (.un .square r)) (R := (den ρ r).dims) d3
      rfl (hcase.imp_right fun h => ⟨by simp [zd, h.1, h.2], h.2⟩)
    rw [(zd_compat hc.2.2).2] at d4 v4
    refine ⟨d4, fun ix hix => ?_⟩
    have hix' : InBounds (zd (den ρ l).dims (den ρ r).dims) ix := hix
    obtain ⟨bl, br⟩ := bcast_inBounds hc.2.2 hix
    have := v4 ix K hix' hk
    rw [bIdx_zd hix', v3 (ix ++ K) (inBounds_append.2 ⟨ix, K, hix', hk, rfl⟩), v1 ix K hix' hk,
      v2 ix K hix' hk] at this
    refine HasDerivAt.congr_deriv ?_ this.symm
    simp only [den, Tensor.zip, pd]
    refine ((vl _ bl).div (vr _ br) ?_).congr_deriv ?_
    · rw [self r]; exact hs.2.2 _ br
    · rw [self l, self r]
      simp only [Tensor.map, UnOp.apply, ScalarFns.pow]
      rw [one_add_one_eq_two, Real.rpow_two]
      ring
  | power l r ihl ihr =>
    simp only [Node.adjoint, Option.bind_eq_some_iff, Option.map_eq_some_iff] at h
    obtain ⟨l', hl, r', hr, rfl⟩ := h
    obtain ⟨dl, vl⟩ := ihl hl hc.1 hc'.2.1.1.2.1 hs.1
    obtain ⟨dr, vr⟩ := ihr hr hc.2.1 hc'.2.1.2.1.2.1 hs.2.1
    have hL : (den ρ l).dims = [] := hc.2.2.1
    have hR : (den ρ r).dims = [] := hc.2.2.2
    rw [hL] at dl vl
    rw [hR] at dr vr
    obtain ⟨d1, v1⟩ := prod_right (f := (· * ·)) (A := den ρ r) hR dl (.inr ⟨rfl, rfl⟩)
    obtain ⟨d2, v2⟩ := prod_right (f := (· * ·)) (A := den ρ (.un .xlnx l)) (L := []) hL dr
      (.inr ⟨rfl, rfl⟩)
    obtain ⟨d3, v3⟩ := zip_same (f := (· + ·)) d1 d2
    obtain ⟨d4, v4⟩ := prod_right (f := (· * ·)) (A := den ρ (.power l (.un .subOne r))) (L := [])
      (R := zd [] []) rfl d3 (.inr ⟨rfl, rfl⟩)
    refine ⟨d4, fun ix hix => ?_⟩
    cases (show InBounds [] ix from hix)
    have := v4 [] K .nil hk
    simp only [bIdx, zd, if_true] at this v1 v2 v3
    rw [v3 ([] ++ K) (by simpa using hk), v1 [] K .nil hk, v2 [] K .nil hk] at this
    refine HasDerivAt.congr_deriv ?_ this.symm
    have vl := vl [] .nil
    have vr := vr [] .nil
    show HasDerivAt (fun s => (den (perturb ρ t K s) l).val [] ^ (den (perturb ρ t K s) r).val [])
      ((den ρ l).val [] ^ ((den ρ r).val [] - 1)
        * ((den ρ r).val [] * _ + UnOp.apply .xlnx ((den ρ l).val []) * _)) _
    rcases hs.2.2 with hpos | ⟨hno, n, hn1, hn, -⟩
    · have := vl.rpow vr (by rw [self]; exact hpos)
      rw [self, self] at this
      refine this.congr_deriv ?_
      have hx : UnOp.apply .xlnx ((den ρ l).val []) = (den ρ l).val [] * Real.log ((den ρ l).val []) := by
        simp [UnOp.apply, ScalarFns.leb, ScalarFns.ln, not_le.2 hpos]
      rw [hx, Real.rpow_sub_one hpos.ne']
      field_simp
    · have hconst : ∀ s, (den (perturb ρ t K s) r).val [] = n := by
        intro s
        rw [den_congr (ρ' := ρ) r, hn]
        intro i hi
        have : i ≠ t := fun h => hno (h ▸ hi)
        simp [perturb, this]
      have h0 : (den ρ r').val ([] ++ K) = 0 := by
        simp only [hconst] at vr
        exact vr.unique (hasDerivAt_const _ _)
      have := vl.rpow_const (p := (n : ℝ)) (.inr (by exact_mod_cast hn1))
      rw [self] at this
      simp only [hconst]
      refine this.congr_deriv ?_
      rw [h0, hn]
      ring
  | contract c l r ihl ihr =>
    simp only [Node.adjoint, Option.bind_eq_some_iff, Option.map_eq_some_iff] at h
    obtain ⟨l', hl, r', hr, rfl⟩ := h
    obtain ⟨dl, vl⟩ := ihl hl hc.1 hc'.2.1.1 hs.1
    obtain ⟨dr, vr⟩ := ihr hr hc.2.1 hc'.1.2.1 hs.2.1
    exact den_deriv_contract hl hc hc' hs.2.2 hk dl vl dr vr
  | sum n ih =>
    obtain ⟨dn, vn⟩ := ih h hc hc' hs.1
    have hD : (den ρ n).dims = [] := hs.2
    refine ⟨by rw [dn, hD]; rfl, fun ix hix => ?_⟩
    cases hix
    have := vn [] (by rw [hD]; exact .nil)
    simpa only [den, pd, hD, sumOver] using this
  | un op n ih =>
    obtain ⟨hop, n', hn⟩ := adjoint_un h
    obtain ⟨dn, vn⟩ := ih hn hc (compat_un hn h hc') hs.1
    obtain ⟨h1, h2⟩ := den_un_adjoint hn h hc' dn hs.2
    refine ⟨h1, fun ix hix => ?_⟩
    have hix : InBounds (den ρ n).dims ix := hix
    rw [h2 ix K hix hk]
    have hd := hasDerivAt_un op hop _ (hs.2 ix hix)
    rw [← self n] at hd
    have := hd.comp ((ρ t).val K) (vn ix hix)
    rw [self n] at this
    exact this

end Aegir
