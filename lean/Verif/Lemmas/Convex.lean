import Verif.Spec.Convex
import Verif.Lemmas.Calculus
import Mathlib.Analysis.Convex.Deriv
import Mathlib.Analysis.Convex.SpecificFunctions.Basic
import Mathlib.Analysis.Convex.Mul
/-!
# Curvature of the tensors that expressions denote
-/

namespace Aegir

open Spec Set

section
variable {E : Type} [NormedAddCommGroup E] [NormedSpace ℝ E]

/-- The function bends as said. -/
def Bends : Curvature → (E → ℝ) → Prop
  | .affine, f => ConvexOn ℝ univ f ∧ ConcaveOn ℝ univ f
  | .convex, f => ConvexOn ℝ univ f
  | .concave, f => ConcaveOn ℝ univ f

namespace Bends
variable {k : Curvature} {f g : E → ℝ}

theorem of_affine (h : Bends .affine f) : Bends k f := by
  cases k
  · exact h
  · exact h.1
  · exact h.2

theorem const (a : ℝ) : Bends k (fun _ : E => a) :=
  of_affine ⟨convexOn_const a convex_univ, concaveOn_const a convex_univ⟩

theorem add (hf : Bends k f) (hg : Bends k g) : Bends k fun x => f x + g x := by
  cases k
  · exact ⟨hf.1.add hg.1, hf.2.add hg.2⟩
  · exact ConvexOn.add hf hg
  · exact ConcaveOn.add hf hg

theorem neg (hf : Bends k.neg f) : Bends k fun x => -f x := by
  cases k
  · exact ⟨hf.2.neg, hf.1.neg⟩
  · exact ConcaveOn.neg hf
  · exact ConvexOn.neg hf

theorem sub (hf : Bends k f) (hg : Bends k.neg g) : Bends k fun x => f x - g x := by
  simp only [sub_eq_add_neg]
  exact hf.add hg.neg

theorem smul {a : ℝ} (ha : 0 ≤ a) (hf : Bends k f) : Bends k fun x => a * f x := by
  cases k
  · exact ⟨hf.1.smul ha, hf.2.smul ha⟩
  · exact ConvexOn.smul ha hf
  · exact ConcaveOn.smul ha hf

theorem scale {a : ℝ} (ha : k = .affine ∨ 0 ≤ a) (hf : Bends k f) : Bends k fun x => a * f x := by
  rcases le_total 0 a with h | h
  · exact smul h hf
  · rcases ha with rfl | h'
    · have := neg (k := .affine) (smul (k := .affine) (neg_nonneg.2 h) hf)
      simpa using this
    · obtain rfl := le_antisymm h h'
      simpa using const (k := k) (E := E) 0

theorem finsum {ι : Type} {F : ι → E → ℝ} (s : Finset ι) (h : ∀ i, Bends k (F i)) :
    Bends k fun x => ∑ i ∈ s, F i x := by
  classical
  induction s using Finset.induction_on with
  | empty => simpa using const (k := k) (E := E) 0
  | insert i s hi ih =>
    simp only [Finset.sum_insert hi]
    exact (h i).add ih

theorem sumOver {F : E → Idx → ℝ} (ds : Dims) (h : ∀ ix, Bends k fun x => F x ix) :
    Bends k fun x => Spec.sumOver ds (F x) := by
  induction ds generalizing F with
  | nil => exact h []
  | cons n ds ih => exact finsum _ fun t => ih (F := fun x ix => F x (t :: ix)) fun ix => h _

theorem affine_eq (h : Bends .affine f) (x y : E) {a b : ℝ} (ha : 0 ≤ a) (hb : 0 ≤ b) (hab : a + b = 1) :
    f (a • x + b • y) = a * f x + b * f y :=
  le_antisymm (h.1.2 trivial trivial ha hb hab) (h.2.2 trivial trivial ha hb hab)

/-- A convex function of an affine one. -/
theorem comp {φ : ℝ → ℝ} (hφ : Bends (E := ℝ) k φ) (h : Bends .affine f) : Bends k fun x => φ (f x) := by
  have cv : ∀ {φ : ℝ → ℝ}, ConvexOn ℝ univ φ → ConvexOn ℝ univ fun x => φ (f x) := fun hφ =>
    ⟨convex_univ, fun x _ y _ a b ha hb hab => by
      beta_reduce
      rw [affine_eq h x y ha hb hab]
      exact hφ.2 trivial trivial ha hb hab⟩
  have cc : ∀ {φ : ℝ → ℝ}, ConcaveOn ℝ univ φ → ConcaveOn ℝ univ fun x => φ (f x) := fun hφ =>
    ⟨convex_univ, fun x _ y _ a b ha hb hab => by
      beta_reduce
      rw [affine_eq h x y ha hb hab]
      exact hφ.2 trivial trivial ha hb hab⟩
  cases k
  · exact ⟨cv hφ.1, cc hφ.2⟩
  · exact cv hφ
  · exact cc hφ

theorem exp (h : Bends .convex f) : Bends .convex fun x => Real.exp (f x) :=
  ⟨convex_univ, fun _ _ _ _ _ _ ha hb hab =>
    (Real.exp_le_exp.2 ((show ConvexOn ℝ univ f from h).2 trivial trivial ha hb hab)).trans
      (convexOn_exp.2 trivial trivial ha hb hab)⟩

end Bends
end

/-- The logarithm of the sigmoid function is concave. -/
theorem concave_lnSigmoid : ConcaveOn ℝ univ fun x : ℝ => Real.log (sigmoid x) := by
  have e : ∀ x : ℝ, Real.log (sigmoid x) = -Real.log (1 + Real.exp (-x)) := fun x => by
    rw [sigmoid_eq, one_div, Real.log_inv]
  have hp : ∀ x : ℝ, 0 < 1 + Real.exp (-x) := fun x => by positivity
  have hd : ∀ x : ℝ, HasDerivAt (fun x : ℝ => Real.log (sigmoid x)) (Real.exp (-x) / (1 + Real.exp (-x))) x := by
    intro x
    simp only [e]
    have h1 : HasDerivAt (fun x : ℝ => 1 + Real.exp (-x)) (-Real.exp (-x)) x := by
      have := ((hasDerivAt_id x).neg.exp).const_add 1
      simpa using this
    have := (h1.log (hp x).ne').neg
    rw [neg_div, neg_neg] at this
    exact this
  refine AntitoneOn.concaveOn_of_deriv convex_univ (fun x _ => (hd x).continuousAt.continuousWithinAt)
    (fun x _ => (hd x).differentiableAt.differentiableWithinAt) fun x _ y _ hxy => ?_
  rw [(hd x).deriv, (hd y).deriv, div_le_div_iff₀ (hp y) (hp x)]
  have := Real.exp_le_exp.2 (neg_le_neg hxy)
  nlinarith

theorem oneSub_sigmoid (x : ℝ) : 1 - sigmoid x = sigmoid (-x) := by
  rw [sigmoid_eq, sigmoid_eq, neg_neg, Real.exp_neg]
  have := Real.exp_pos x
  field_simp
  ring

theorem concave_lnOneSub : ConcaveOn ℝ univ fun x : ℝ => Real.log (1 - sigmoid x) := by
  simp only [oneSub_sigmoid]
  exact ⟨convex_univ, fun x _ y _ a b ha hb hab => by
    have := concave_lnSigmoid.2 (x := -x) trivial (y := -y) trivial ha hb hab
    simpa [smul_neg, add_comm] using this⟩

theorem convex_cosh : ConvexOn ℝ univ Real.cosh := by
  have h : ConvexOn ℝ univ fun x : ℝ => (1 / 2 : ℝ) * Real.exp x + (1 / 2) * Real.exp (-x) := by
    refine (convexOn_exp.smul (by norm_num : (0 : ℝ) ≤ 1 / 2)).add (ConvexOn.smul (by norm_num : (0 : ℝ) ≤ 1 / 2) ?_)
    exact ⟨convex_univ, fun x _ y _ a b ha hb hab => by
      have := convexOn_exp.2 (x := -x) trivial (y := -y) trivial ha hb hab
      simpa [smul_neg, add_comm] using this⟩
  refine h.congr fun x _ => ?_
  rw [Real.cosh_eq]
  ring

section
variable {ρ : Id → Tensor ℝ} {T : Id → Prop} {S : Finset (Id × Idx)}

theorem fixed_den (hT : ∀ p ∈ S, T p.1) {n : Node ℝ} (h : Fixed T n) (x : S → ℝ) :
    den (perturbAll ρ S x) n = den ρ n := by
  refine den_congr n fun i hi => ?_
  unfold perturbAll
  have : ∀ ix, (i, ix) ∉ S := fun ix hc => h i (hT _ hc) hi
  simp only [this, dif_neg, not_false_eq_true]

theorem fixed_sub {n m : Node ℝ} (h : Fixed T n) (hs : SubExpr m n) : Fixed T m := by
  induction hs with
  | refl => exact h
  | step hc _ ih => exact ih fun i hi ho => h i hi (.child hc ho)

/-- An expression that is affine, convex or concave by the rules is so. -/
theorem curved_den (hT : ∀ p ∈ S, T p.1) {k : Curvature} {e : Node ℝ} (h : Curved ρ T k e) :
    ∀ ix, Bends k fun x : S → ℝ => (den (perturbAll ρ S x) e).val ix := by
  have dm : ∀ n : Node ℝ, ∀ x, (den (perturbAll ρ S x) n).dims = (den ρ n).dims := fun n x =>
    den_dims_congr (ρ := perturbAll ρ S x) (ρ' := ρ) (fun _ => rfl) n
  have fac : ∀ {k : Curvature} {s : Node ℝ}, Factor ρ k s → ∀ ix, k = .affine ∨ 0 ≤ (den ρ s).val ix :=
    fun h ix => h.imp_right fun h => h ix
  induction h with
  | fixed h =>
    intro ix
    simp only [fixed_den hT h]
    exact .const _
  | @var k i =>
    intro ix
    simp only [den, perturbAll]
    by_cases hi : (i, ix) ∈ S
    · simp only [dif_pos hi]
      refine .of_affine ⟨?_, ?_⟩
      · exact (LinearMap.proj (R := ℝ) (φ := fun _ : S => ℝ) ⟨(i, ix), hi⟩).convexOn convex_univ
      · exact (LinearMap.proj (R := ℝ) (φ := fun _ : S => ℝ) ⟨(i, ix), hi⟩).concaveOn convex_univ
    · simp only [dif_neg hi]
      exact .const _
  | affine _ ih => exact fun ix => (ih ix).of_affine
  | add _ _ ihl ihr =>
    intro ix
    simp only [den, Tensor.zip, dm]
    exact (ihl _).add (ihr _)
  | sub _ _ ihl ihr =>
    intro ix
    simp only [den, Tensor.zip, dm]
    exact (ihl _).sub (ihr _)
  | @shift k op n ho _ ih =>
    intro ix
    simp only [List.mem_cons, List.not_mem_nil, or_false] at ho
    rcases ho with rfl | rfl | rfl
    · exact (ih ix).add (.const 1)
    · exact (ih ix).sub (.const 1)
    · exact (ih ix).smul (by norm_num)
  | @flip k op n ho _ ih =>
    intro ix
    simp only [List.mem_cons, List.not_mem_nil, or_false] at ho
    rcases ho with rfl | rfl
    · exact (Bends.const 1).sub (ih ix)
    · exact (ih ix).neg
  | mulL hl hf _ ih =>
    intro ix
    simp only [den, Tensor.zip, dm, fixed_den hT hl]
    exact (ih _).scale (fac hf _)
  | mulR _ hr hf ih =>
    intro ix
    simp only [den, Tensor.zip, dm, fixed_den hT hr, mul_comm _ ((den ρ _).val _)]
    exact (ih _).scale (fac hf _)
  | div _ hr hf ih =>
    intro ix
    simp only [den, Tensor.zip, dm, fixed_den hT hr, div_eq_inv_mul]
    exact (ih _).scale ((fac hf _).imp_right inv_nonneg.2)
  | contractL hl hf _ ih =>
    intro ix
    simp only [den, Tensor.contract, dm, fixed_den hT hl]
    exact .sumOver _ fun jx => (ih _).scale (fac hf _)
  | contractR _ hr hf ih =>
    intro ix
    simp only [den, Tensor.contract, dm, fixed_den hT hr, mul_comm _ ((den ρ _).val _)]
    exact .sumOver _ fun jx => (ih _).scale (fac hf _)
  | sum _ ih =>
    intro ix
    simp only [den, dm]
    exact .sumOver _ ih
  | @cup op n ho _ ih =>
    intro ix
    simp only [List.mem_cons, List.not_mem_nil, or_false] at ho
    have sq : ∀ y : ℝ, y ^ ((1 : ℝ) + 1) = y ^ 2 := fun y => by
      rw [show (1 : ℝ) + 1 = ((2 : ℕ) : ℝ) by norm_num, Real.rpow_natCast]
    rcases ho with rfl | rfl | rfl
    · show Bends .convex fun x => ((den (perturbAll ρ S x) n).val ix) ^ ((1 : ℝ) + 1)
      simp only [sq]
      exact Bends.comp (k := .convex) (φ := fun y => y ^ 2) (even_two.convexOn_pow) (ih ix)
    · exact Bends.comp (k := .convex) (φ := fun y => |y|) (convexOn_norm convex_univ) (ih ix)
    · exact Bends.comp (k := .convex) convex_cosh (ih ix)
  | exp _ ih => exact fun ix => (ih ix).exp
  | lnSigmoid _ ih => exact fun ix => Bends.comp (k := .concave) concave_lnSigmoid (ih ix)
  | lnOneSub _ ih => exact fun ix => Bends.comp (k := .concave) concave_lnOneSub (ih ix)
  | @likelihood n y _ hy h01 ih =>
    intro ix
    have e0 : ∀ z : ℝ, UnOp.apply .ln (UnOp.apply .sigmoid z * 0 + UnOp.apply .oneSub (UnOp.apply .sigmoid z) *
        UnOp.apply .oneSub 0) = Real.log (1 - sigmoid z) := fun z => by
      rw [mul_zero, zero_add, show UnOp.apply .oneSub (0 : ℝ) = 1 from sub_zero 1, mul_one]
      rfl
    have e1 : ∀ z : ℝ, UnOp.apply .ln (UnOp.apply .sigmoid z * 1 + UnOp.apply .oneSub (UnOp.apply .sigmoid z) *
        UnOp.apply .oneSub 1) = Real.log (sigmoid z) := fun z => by
      rw [show UnOp.apply .oneSub (1 : ℝ) = 0 from sub_self 1, mul_zero, add_zero, mul_one]
      rfl
    simp only [den, Tensor.map, Tensor.zip, dm, fixed_den hT hy]
    generalize bIdx _ ix = jx
    rcases h01 (bIdx (den ρ y).dims jx) with h | h <;> rw [h]
    · simp only [e0]
      exact Bends.comp (k := .concave) (φ := fun z => Real.log (1 - sigmoid z)) concave_lnOneSub (ih _)
    · simp only [e1]
      exact Bends.comp (k := .concave) (φ := fun z => Real.log (sigmoid z)) concave_lnSigmoid (ih _)

/-- Powers occur in parts only that do not vary. -/
theorem powSafe_perturbAll (hT : ∀ p ∈ S, T p.1) {k : Curvature} {e : Node ℝ} (h : Curved ρ T k e)
    (hp : PowSafe ρ e) (x : S → ℝ) : PowSafe (perturbAll ρ S x) e := by
  intro l r hs
  -- a power is part of something fixed
  have key : ∀ {k : Curvature} {e : Node ℝ}, Curved ρ T k e → ∀ {l r : Node ℝ}, SubExpr (.power l r) e →
      Fixed T (.power l r) := by
    intro k e h
    induction h with
    | fixed h => exact fun hs => fixed_sub h hs
    | var i =>
      intro l r hs
      cases hs with | step hc _ => simp [children] at hc
    | affine _ ih => exact ih
    | add _ _ ihl ihr | sub _ _ ihl ihr =>
      intro l r hs
      cases hs with
      | step hc hs =>
        simp only [children, List.mem_cons, List.not_mem_nil, or_false] at hc
        rcases hc with rfl | rfl
        · exact ihl hs
        · exact ihr hs
    | shift _ _ ih | flip _ _ ih | sum _ ih | cup _ _ ih | exp _ ih =>
      intro l r hs
      cases hs with
      | step hc hs =>
        simp only [children, List.mem_cons, List.not_mem_nil, or_false] at hc
        subst hc
        exact ih hs
    | mulL hl _ _ ih | contractL hl _ _ ih =>
      intro l r hs
      cases hs with
      | step hc hs =>
        simp only [children, List.mem_cons, List.not_mem_nil, or_false] at hc
        rcases hc with rfl | rfl
        · exact fixed_sub hl hs
        · exact ih hs
    | mulR _ hr _ ih | div _ hr _ ih | contractR _ hr _ ih =>
      intro l r hs
      cases hs with
      | step hc hs =>
        simp only [children, List.mem_cons, List.not_mem_nil, or_false] at hc
        rcases hc with rfl | rfl
        · exact ih hs
        · exact fixed_sub hr hs
    | @lnSigmoid n _ ih =>
      intro l r hs
      simp at hs
      exact ih hs
    | @lnOneSub n _ ih =>
      intro l r hs
      simp at hs
      exact ih hs
    | @likelihood n y _ hy _ ih =>
      intro l r hs
      simp at hs
      rcases hs with hs | hs
      · exact ih hs
      · exact fixed_sub hy hs
  have hfix := key h hs
  have hl := fixed_den hT (fixed_sub hfix (.step (by simp [children]) (.refl l))) x (ρ := ρ)
  have hr := fixed_den hT (fixed_sub hfix (.step (by simp [children]) (.refl r))) x (ρ := ρ)
  rw [hl, hr]
  exact hp l r hs

end

end Aegir
