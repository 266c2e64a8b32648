import Verif.Props.C36_Repeat
import Verif.Props.C28_C32_Derivatives
import Verif.Lemmas.Descent
import Mathlib.Analysis.Calculus.DerivativeTest
import Mathlib.Analysis.SpecialFunctions.Trigonometric.Bounds
/-!
# C93: second adjoints and minima

Second adjoints of scalar expressions are second derivatives (C36). Hence they tell minima from maxima where
the adjoint is zero, their sign tells whether an expression is convex, and Newton's method, which divides the
adjoint by the second adjoint, finds zeros of the adjoint, doubling the number of correct digits in each step.
-/

namespace Aegir.Props

open Aegir Aegir.Spec

variable {Γ : Id → BTy} {t : Id}

/-- The adjoint at any setting of the target is the derivative there. -/
theorem c93_deriv {e e' : Node ℝ} (h : e.adjoint t = some e') (hf : CacheFree e) (hsc : AllScalar Γ e)
    (ht : Γ t = .scalar) (d : FnImpl Γ e .scalar) (da : FnImpl Γ e' .scalar) {c : Ctx ℝ Γ}
    (hc : ∀ i, NeedsId e i → c i ≠ none) {b : Buf ℝ (Γ t)} {s : ℝ}
    (hs : Smooth (envOf (c.write t (setEntry b [] s))) t e) :
    HasDerivAt (along d c t b [] []) (along da c t b [] [] s) s := by
  have hK : InBounds (Buf.dims _ b) [] := by rw [dims_scalar ht]; exact .nil
  obtain ⟨-, a, x, ha, hx, hd⟩ := C28_scalar_partial h hf hsc ht d da (c.write t (setEntry b [] s))
    (ctx_write_needs hc _) (Ctx.write_self ..) hs
  rw [getU_setEntry b [] s hK] at hx
  simp only [if_true, Option.some_inj] at hx
  subst hx
  have e1 : along d (c.write t (setEntry b [] s)) t (setEntry b [] s) [] [] = along d c t b [] [] := by
    funext s'
    simp only [along, setEntry_setEntry, Ctx.write_write]
  have e2 : along da c t b [] [] s = a := by
    simp only [along, ha]
    rfl
  rw [e1] at hd
  rwa [e2]

section
variable {e e₁ e₂ : Node ℝ} (h₁ : e.adjoint t = some e₁) (h₂ : e₁.adjoint t = some e₂) (hf : CacheFree e)
  (hsc : AllScalar Γ e) (ht : Γ t = .scalar) (d : FnImpl Γ e .scalar) (d₁ : FnImpl Γ e₁ .scalar)
  (d₂ : FnImpl Γ e₂ .scalar) (c : Ctx ℝ Γ) (hc : ∀ i, NeedsId e i → c i ≠ none) {b : Buf ℝ (Γ t)}
  (hb : c t = some b)

include h₁ h₂ hf hsc ht hc hb

/-- `C36` with the adjoints' values. -/
theorem c93_second (hs : Smooth (envOf c) t e) (hs₁ : Smooth (envOf c) t e₁) {v g a : ℝ}
    (hv : (d.evaluate c).1 = .ok v) (hg : (d₁.evaluate c).1 = .ok g) (ha : (d₂.evaluate c).1 = .ok a) :
    ∃ x, along d c t b [] [] x = v ∧ HasDerivAt (along d c t b [] []) g x ∧
      HasDerivAt (deriv (along d c t b [] [])) a x ∧ Buf.getU _ b [] = some x := by
  have hf₁ := adjoint_cacheFree h₁ hf
  have hsc₁ := AllScalar.adjoint h₁ hf hsc ht
  have hr := (hsc.regular d).2
  have hr₁ := (hsc₁.regular d₁).2
  have hr₂ := ((AllScalar.adjoint h₂ hf₁ hsc₁ ht).regular d₂).2
  have hK : InBounds (Buf.dims _ b) [] := by rw [dims_scalar ht]; exact .nil
  obtain ⟨g', x, hg', hx, hd⟩ := (eval_deriv2 h₁ h₂ hf d d₁ d₂ hr hr₁ hr₂ c hc hb hs hs₁ hv ha hK hK).2 [] .nil
  cases hg'
  obtain ⟨-, g', x', hg', hx', hd'⟩ := C28_scalar_partial h₁ hf hsc ht d d₁ c hc hb hs
  rw [hg] at hg'
  cases hg'
  rw [hx] at hx'
  cases hx'
  refine ⟨x, C28_along_self d c hb hx hv rfl, hd', ?_, hx⟩
  refine hd.congr_of_eventuallyEq (Filter.Eventually.of_forall fun s => ?_)
  have h3 : along d (c.write t (setEntry b [] s)) t (setEntry b [] s) [] [] = along d c t b [] [] := by
    funext s'
    simp only [along, setEntry_setEntry, Ctx.write_write]
  simp only [h3, getU_setEntry b [] s hK]
  simp

omit h₂ in
/-- Evaluation in the contexts around. -/
theorem c93_near (hs : Smooth (envOf c) t e) {p : ℝ → Prop} {x : ℝ}
    (h : ∀ᶠ s in nhds x, p (along d c t b [] [] s)) :
    ∃ ε > 0, ∀ s, |s - x| < ε → ∃ w, (d.evaluate (c.write t (setEntry b [] s))).1 = .ok w ∧ p w := by
  obtain ⟨d₁⟩ := scalar_adjoint_impl h₁ hf hsc ht d
  have htot := (C28_scalar_partial h₁ hf hsc ht d d₁ c hc hb hs).1
  obtain ⟨ε, hε, h⟩ := Metric.eventually_nhds_iff.1 h
  refine ⟨ε, hε, fun s hs => ?_⟩
  obtain ⟨w, hw⟩ := htot s
  refine ⟨w, hw, ?_⟩
  have := h (y := s) (by rw [Real.dist_eq]; exact hs)
  simp only [along, hw] at this
  exact this

/-- The second derivative test: where the adjoint evaluates to zero and the second adjoint to a positive
number, the value is smallest among those for nearby settings of the target; with a negative number,
largest. -/
theorem C93_test (hs : Smooth (envOf c) t e) (hs₁ : Smooth (envOf c) t e₁) {v a : ℝ}
    (hv : (d.evaluate c).1 = .ok v) (hg : (d₁.evaluate c).1 = .ok (0 : ℝ)) (ha : (d₂.evaluate c).1 = .ok a) :
    ∃ x, Buf.getU _ b [] = some x ∧
      (0 < a → ∃ ε > 0, ∀ s, |s - x| < ε → ∃ w : ℝ, (d.evaluate (c.write t (setEntry b [] s))).1 = .ok w ∧ v ≤ w) ∧
      (a < 0 → ∃ ε > 0, ∀ s, |s - x| < ε → ∃ w : ℝ, (d.evaluate (c.write t (setEntry b [] s))).1 = .ok w ∧ w ≤ v) := by
  obtain ⟨x, h0, hd1, hd2, hx⟩ := c93_second h₁ h₂ hf hsc ht d d₁ d₂ c hc hb hs hs₁ hv hg ha
  refine ⟨x, hx, fun hp => ?_, fun hp => ?_⟩
  · have := isLocalMin_of_deriv_deriv_pos (f := along d c t b [] []) (x₀ := x) (by rw [hd2.deriv]; exact hp)
      hd1.deriv hd1.continuousAt
    refine c93_near h₁ hf hsc ht d c hc hb hs (p := fun w => v ≤ w) (this.mono fun s hs => ?_)
    rwa [h0] at hs
  · have := isLocalMax_of_deriv_deriv_neg (f := along d c t b [] []) (x₀ := x) (by rw [hd2.deriv]; exact hp)
      hd1.deriv hd1.continuousAt
    refine c93_near h₁ hf hsc ht d c hc hb hs (p := fun w => w ≤ v) (this.mono fun s hs => ?_)
    rwa [h0] at hs

/-- Conversely, where the value is smallest among those for nearby settings, the adjoint is zero and the second
adjoint is not negative. -/
theorem C93_necessary (hs : Smooth (envOf c) t e) (hs₁ : Smooth (envOf c) t e₁) {v g a x : ℝ}
    (hv : (d.evaluate c).1 = .ok v) (hg : (d₁.evaluate c).1 = .ok g) (ha : (d₂.evaluate c).1 = .ok a)
    (hx : Buf.getU _ b [] = some x) {ε : ℝ} (hε : 0 < ε)
    (hm : ∀ s, |s - x| < ε → ∀ w : ℝ, (d.evaluate (c.write t (setEntry b [] s))).1 = .ok w → v ≤ w) :
    g = 0 ∧ 0 ≤ a := by
  obtain ⟨x', h0, hd1, hd2, hx'⟩ := c93_second h₁ h₂ hf hsc ht d d₁ d₂ c hc hb hs hs₁ hv hg ha
  rw [hx] at hx'
  cases hx'
  have htot := (C28_scalar_partial h₁ hf hsc ht d d₁ c hc hb hs).1
  have hmin : IsLocalMin (along d c t b [] []) x := by
    refine Metric.eventually_nhds_iff.2 ⟨ε, hε, fun {s} hs => ?_⟩
    obtain ⟨w, hw⟩ := htot s
    have := hm s (by rwa [← Real.dist_eq]) w hw
    rw [h0]
    simp only [along, hw]
    exact this
  have hg0 : g = 0 := hmin.hasDerivAt_eq_zero hd1
  refine ⟨hg0, ?_⟩
  by_contra hneg
  push Not at hneg
  have hmax := isLocalMax_of_deriv_deriv_neg (f := along d c t b [] []) (x₀ := x) (by rw [hd2.deriv]; exact hneg)
    (by rw [hd1.deriv, hg0]) hd1.continuousAt
  -- then the function is constant nearby
  have hconst : along d c t b [] [] =ᶠ[nhds x] fun _ => along d c t b [] [] x := by
    filter_upwards [hmin, hmax] with s h1 h2
    exact le_antisymm h2 h1
  have hd0 : deriv (along d c t b [] []) =ᶠ[nhds x] fun _ => 0 := by
    have := hconst.deriv
    simpa using this
  have := (hd2.congr_of_eventuallyEq hd0.symm).unique (hasDerivAt_const x (0 : ℝ))
  linarith

/-- If the second adjoint is nowhere negative, a value whose adjoint is zero is the smallest of all. -/
theorem C93_global (hs : ∀ s, Smooth (envOf (c.write t (setEntry b [] s))) t e)
    (hs₁ : ∀ s, Smooth (envOf (c.write t (setEntry b [] s))) t e₁)
    (h0 : ∀ s a, (d₂.evaluate (c.write t (setEntry b [] s))).1 = .ok a → (0 : ℝ) ≤ a) {v : ℝ}
    (hv : (d.evaluate c).1 = .ok v) (hg : (d₁.evaluate c).1 = .ok (0 : ℝ)) (s : ℝ) :
    ∃ w : ℝ, (d.evaluate (c.write t (setEntry b [] s))).1 = .ok w ∧ v ≤ w := by
  have hf₁ := adjoint_cacheFree h₁ hf
  have hsc₁ := AllScalar.adjoint h₁ hf hsc ht
  have hc₁ : ∀ i, NeedsId e₁ i → c i ≠ none := fun i hi => by
    rcases adjoint_needs h₁ hi with h | rfl
    · exact hc i h
    · simp [hb]
  have hd1 : ∀ s, HasDerivAt (along d c t b [] []) (along d₁ c t b [] [] s) s := fun s =>
    c93_deriv h₁ hf hsc ht d d₁ hc (hs s)
  have hd2 : ∀ s, HasDerivAt (along d₁ c t b [] []) (along d₂ c t b [] [] s) s := fun s =>
    c93_deriv h₂ hf₁ hsc₁ ht d₁ d₂ hc₁ (hs₁ s)
  have hmono : Monotone (along d₁ c t b [] []) := by
    refine monotone_of_deriv_nonneg (fun s => (hd2 s).differentiableAt) fun s => ?_
    rw [(hd2 s).deriv]
    unfold along
    split
    · rename_i a ha
      exact h0 s a ha
    · exact le_rfl
  have hx : ∃ x, Buf.getU _ b [] = some x :=
    Buf.getU_some _ b [] (by rw [dims_scalar ht]; exact .nil)
  obtain ⟨x, hx⟩ := hx
  have hself : c.write t (setEntry b [] x) = c := by
    have h1 : setEntry b [] x = b := by
      have := setEntry_self b []
      rwa [hx] at this
    rw [h1]
    funext i
    unfold Ctx.write
    split
    · subst_vars; exact hb.symm
    · rfl
  have hsx : Smooth (envOf c) t e := by
    have := hs x
    rwa [hself] at this
  have htan := Descent.tangent_of_mono hd1 hmono x s
  have hv0 : along d c t b [] [] x = v := C28_along_self d c hb hx hv rfl
  have hg0 : along d₁ c t b [] [] x = 0 := C28_along_self d₁ c hb hx hg rfl
  rw [hv0, hg0, zero_mul, add_zero] at htan
  obtain ⟨w, hw⟩ := (C28_scalar_partial h₁ hf hsc ht d d₁ c hc hb hsx).1 s
  refine ⟨w, hw, ?_⟩
  simp only [along, hw] at htan
  exact htan

/-- One step of Newton's method: on an interval on which the second adjoint is at least `μ` in size and
`M`-Lipschitz, the distance to a zero `z` of the adjoint becomes at most `M / μ` times its square. -/
theorem C93_newton {I : Set ℝ} (hI : Convex ℝ I) (hs₁ : ∀ s ∈ I, Smooth (envOf (c.write t (setEntry b [] s))) t e₁)
    {μ M : ℝ} (hμ : 0 < μ) (hM : 0 ≤ M)
    (hlow : ∀ s ∈ I, ∀ a : ℝ, (d₂.evaluate (c.write t (setEntry b [] s))).1 = .ok a → μ ≤ |a|)
    (hlip : ∀ s ∈ I, ∀ s' ∈ I, ∀ a a' : ℝ, (d₂.evaluate (c.write t (setEntry b [] s))).1 = .ok a →
      (d₂.evaluate (c.write t (setEntry b [] s'))).1 = .ok a' → |a - a'| ≤ M * |s - s'|)
    {x z : ℝ} (hx : x ∈ I) (hz : z ∈ I) (hgz : (d₁.evaluate (c.write t (setEntry b [] z))).1 = .ok (0 : ℝ)) :
    ∃ g a : ℝ, (d₁.evaluate (c.write t (setEntry b [] x))).1 = .ok g ∧
      (d₂.evaluate (c.write t (setEntry b [] x))).1 = .ok a ∧ |x - g / a - z| ≤ M / μ * |x - z| ^ 2 := by
  have hf₁ := adjoint_cacheFree h₁ hf
  have hsc₁ := AllScalar.adjoint h₁ hf hsc ht
  have hr₁ := (hsc₁.regular d₁).2
  have hr₂ := ((AllScalar.adjoint h₂ hf₁ hsc₁ ht).regular d₂).2
  have hc₁ : ∀ i, NeedsId e₁ i → c i ≠ none := fun i hi => by
    rcases adjoint_needs h₁ hi with h | rfl
    · exact hc i h
    · simp [hb]
  have tot : ∀ s, (∃ g : ℝ, (d₁.evaluate (c.write t (setEntry b [] s))).1 = .ok g ∧ along d₁ c t b [] [] s = g) ∧
      ∃ a : ℝ, (d₂.evaluate (c.write t (setEntry b [] s))).1 = .ok a ∧ along d₂ c t b [] [] s = a := fun s => by
    obtain ⟨⟨g, hg⟩, a, ha⟩ := eval_total h₂ hf₁ d₁ d₂ hr₁ hr₂ _ (ctx_write_needs hc₁ (setEntry b [] s))
      (by simp [Ctx.write_self])
    exact ⟨⟨g, hg, by simp only [along, hg]; rfl⟩, a, ha, by simp only [along, ha]; rfl⟩
  have hd2 : ∀ s ∈ I, HasDerivAt (along d₁ c t b [] []) (along d₂ c t b [] [] s) s := fun s hs =>
    c93_deriv h₂ hf₁ hsc₁ ht d₁ d₂ hc₁ (hs₁ s hs)
  obtain ⟨⟨g, hg, hga⟩, a, ha, haa⟩ := tot x
  refine ⟨g, a, hg, ha, ?_⟩
  have hg0 : along d₁ c t b [] [] z = 0 := by
    simp only [along, hgz]
    rfl
  have hap : 0 < |a| := hμ.trans_le (hlow x hx a ha)
  -- between `x` and `z` the second adjoint differs from the one at `x` by at most `M |x - z|`
  have hseg : segment ℝ x z ⊆ I := hI.segment_subset hx hz
  have hmv := (convex_segment x z).norm_image_sub_le_of_norm_hasDerivWithin_le
    (f := fun s => along d₁ c t b [] [] s - a * s) (f' := fun s => along d₂ c t b [] [] s - a)
    (C := M * |x - z|) (x := x) (y := z) (fun s hs => by
      have := (hd2 s (hseg hs)).fun_sub ((hasDerivAt_id s).const_mul a)
      simpa using this.hasDerivWithinAt) (fun s hs => by
      obtain ⟨-, a', ha', haa'⟩ := tot s
      rw [haa', Real.norm_eq_abs]
      refine (hlip s (hseg hs) x hx a' a ha' ha).trans (mul_le_mul_of_nonneg_left ?_ hM)
      have := norm_sub_le_of_mem_segment hs
      rw [Real.norm_eq_abs, Real.norm_eq_abs] at this
      rwa [abs_sub_comm x z]) (left_mem_segment ℝ x z) (right_mem_segment ℝ x z)
  simp only [hg0, hga, Real.norm_eq_abs] at hmv
  have ha0 : a ≠ 0 := abs_pos.1 hap
  have e1 : x - g / a - z = (0 - a * z - (g - a * x)) / a := by
    field_simp
    ring
  rw [e1, abs_div, div_le_iff₀ hap]
  refine hmv.trans ?_
  rw [abs_sub_comm z x]
  calc M * |x - z| * |x - z| = M / μ * |x - z| ^ 2 * μ := by field_simp
    _ ≤ M / μ * |x - z| ^ 2 * |a| := mul_le_mul_of_nonneg_left (hlow x hx a ha) (by positivity)

/-- Newton's method: started within `r` of a zero `z` of the adjoint, where `M r ≤ μ`, all iterates stay
within `r`, and the error, in units of `μ / M`, is squared by each step. -/
theorem C93_newton_run {z r μ M : ℝ}
    (hs₁ : ∀ s, |s - z| ≤ r → Smooth (envOf (c.write t (setEntry b [] s))) t e₁)
    (hμ : 0 < μ) (hM : 0 ≤ M) (hr : M * r ≤ μ)
    (hlow : ∀ s, |s - z| ≤ r → ∀ a : ℝ, (d₂.evaluate (c.write t (setEntry b [] s))).1 = .ok a → μ ≤ |a|)
    (hlip : ∀ s s', |s - z| ≤ r → |s' - z| ≤ r → ∀ a a' : ℝ, (d₂.evaluate (c.write t (setEntry b [] s))).1 = .ok a →
      (d₂.evaluate (c.write t (setEntry b [] s'))).1 = .ok a' → |a - a'| ≤ M * |s - s'|)
    (hgz : (d₁.evaluate (c.write t (setEntry b [] z))).1 = .ok (0 : ℝ)) {x : ℕ → ℝ} (hx0 : |x 0 - z| ≤ r)
    (hx : ∀ n (g a : ℝ), (d₁.evaluate (c.write t (setEntry b [] (x n)))).1 = .ok g →
      (d₂.evaluate (c.write t (setEntry b [] (x n)))).1 = .ok a → x (n + 1) = x n - g / a) (n : ℕ) :
    |x n - z| ≤ r ∧ M / μ * |x n - z| ≤ (M / μ * |x 0 - z|) ^ 2 ^ n := by
  have hI : Convex ℝ {s : ℝ | |s - z| ≤ r} := by
    have : {s : ℝ | |s - z| ≤ r} = Metric.closedBall z r := by
      ext s
      simp [Metric.mem_closedBall, Real.dist_eq]
    rw [this]
    exact convex_closedBall z r
  have hr0 : 0 ≤ r := (abs_nonneg _).trans hx0
  induction n with
  | zero => exact ⟨hx0, by simp⟩
  | succ n ih =>
    obtain ⟨g, a, hg, ha, h⟩ := C93_newton h₁ h₂ hf hsc ht d₁ d₂ c hc hb hI hs₁ hμ hM hlow
      (fun s hs s' hs' => hlip s s' hs hs') (x := x n) (z := z) ih.1 (by simpa using hr0) hgz
    rw [← hx n g a hg ha] at h
    have hq : M / μ * |x n - z| ≤ 1 := by
      rw [div_mul_eq_mul_div, div_le_one hμ]
      exact (mul_le_mul_of_nonneg_left ih.1 hM).trans hr
    refine ⟨h.trans ?_, ?_⟩
    · calc M / μ * |x n - z| ^ 2 = (M / μ * |x n - z|) * |x n - z| := by ring
        _ ≤ 1 * |x n - z| := mul_le_mul_of_nonneg_right hq (abs_nonneg _)
        _ ≤ r := by rw [one_mul]; exact ih.1
    · calc M / μ * |x (n + 1) - z| ≤ M / μ * (M / μ * |x n - z| ^ 2) := mul_le_mul_of_nonneg_left h (by positivity)
        _ = (M / μ * |x n - z|) ^ 2 := by ring
        _ ≤ ((M / μ * |x 0 - z|) ^ 2 ^ n) ^ 2 := pow_le_pow_left₀ (by positivity) ih.2 2
        _ = (M / μ * |x 0 - z|) ^ 2 ^ (n + 1) := by rw [← pow_mul, pow_succ]

end

/-! ## Examples: `cos` and `square` -/

private abbrev Ty : Id → BTy := fun _ => .scalar
private abbrev one' : FnImpl Ty (.varAdj 0 0 : Node ℝ) .scalar := .varAdj (Γ := Ty) 0 0 .ss (by decide)
private abbrev zero' : FnImpl Ty (.constAdj (.varAdj 0 0) 0 : Node ℝ) .scalar := .constAdj one' 0 .ss
private abbrev x' : FnImpl Ty (.var 0 : Node ℝ) .scalar := .var (Γ := Ty) 0

private abbrev cos₁ : FnImpl Ty (.un .negate (.mul (.varAdj 0 0) (.un .sin (.var 0))) : Node ℝ) .scalar :=
  .un .negate (.mul one' (.un .sin x') .ss)
private abbrev cos₂ : FnImpl Ty (.un .negate (.add (.mul (.constAdj (.varAdj 0 0) 0) (.un .sin (.var 0)))
    (.mul (.mul (.varAdj 0 0) (.un .cos (.var 0))) (.varAdj 0 0))) : Node ℝ) .scalar :=
  .un .negate (.add (.mul zero' (.un .sin x') .ss) (.mul (.mul one' (.un .cos x') .ss) one' .ss) .ss)
private abbrev sq₁ : FnImpl Ty (.mul (.un .double (.var 0)) (.varAdj 0 0) : Node ℝ) .scalar :=
  .mul (.un .double x') one' .ss
private abbrev sq₂ : FnImpl Ty (.add (.mul (.un .double (.varAdj 0 0)) (.varAdj 0 0))
    (.mul (.constAdj (.varAdj 0 0) 0) (.un .double (.var 0))) : Node ℝ) .scalar :=
  .add (.mul (.un .double one') one' .ss) (.mul zero' (.un .double x') .ss) .ss

private theorem cos₁_at (x s : ℝ) :
    (cos₁.evaluate (Ctx.write (fun _ => some x) 0 (setEntry (τ := .scalar) x [] s))).1 = .ok (-Real.sin s) := by
  have : (cos₁.evaluate (Ctx.write (fun _ => some x) 0 (setEntry (τ := .scalar) x [] s))).1
      = .ok (-(1 * Real.sin s)) := rfl
  rw [this, one_mul]

private theorem cos₂_at {x s a : ℝ}
    (ha : (cos₂.evaluate (Ctx.write (fun _ => some x) 0 (setEntry (τ := .scalar) x [] s))).1 = .ok a) :
    a = -Real.cos s := by
  have h := c93_deriv (Γ := Ty) (t := 0) (e := .un .negate (.mul (.varAdj 0 0) (.un .sin (.var 0)))) rfl
    (by simp [CacheFree]) ⟨fun _ _ => rfl, fun τ b h => by simp at h, fun τ b h => by simp at h⟩ rfl cos₁ cos₂
    (c := fun _ => some x) (by simp) (b := x) (s := s) (by simp [Smooth, UnOp.SmoothAt])
  have h1 : along cos₁ (fun _ => some x) 0 x [] [] = fun s => -Real.sin s := by
    funext s
    simp only [along, cos₁_at]
    rfl
  rw [h1] at h
  have h2 := h.unique (Real.hasDerivAt_sin s).fun_neg
  simp only [along, ha] at h2
  exact h2

private theorem sq₁_at (x s : ℝ) :
    (sq₁.evaluate (Ctx.write (fun _ => some x) 0 (setEntry (τ := .scalar) x [] s))).1 = .ok (2 * s) := by
  have : (sq₁.evaluate (Ctx.write (fun _ => some x) 0 (setEntry (τ := .scalar) x [] s))).1
      = .ok ((1 + 1) * s * 1) := rfl
  rw [this, mul_one, one_add_one_eq_two]

private theorem sq₂_at {x s a : ℝ}
    (ha : (sq₂.evaluate (Ctx.write (fun _ => some x) 0 (setEntry (τ := .scalar) x [] s))).1 = .ok a) :
    a = 2 := by
  have h := c93_deriv (Γ := Ty) (t := 0) (e := .mul (.un .double (.var 0)) (.varAdj 0 0)) rfl
    (by simp [CacheFree]) ⟨fun _ _ => rfl, fun τ b h => by simp at h, fun τ b h => by simp at h⟩ rfl sq₁ sq₂
    (c := fun _ => some x) (by simp) (b := x) (s := s) (by simp [Smooth, UnOp.SmoothAt])
  have h1 : along sq₁ (fun _ => some x) 0 x [] [] = fun s => 2 * s := by
    funext s
    simp only [along, sq₁_at]
    rfl
  rw [h1] at h
  have h2 := h.unique ((hasDerivAt_id s).const_mul 2)
  simp only [along, ha, mul_one] at h2
  exact h2

/-- Newton's method on the derivative of `cos`, started within `1/2` of zero. -/
example {x : ℕ → ℝ} (hx0 : |x 0| ≤ 1 / 2) (hx : ∀ n, x (n + 1) = x n - -Real.sin (x n) / -Real.cos (x n)) (n : ℕ) :
    2 * |x n| ≤ (2 * |x 0|) ^ 2 ^ n := by
  have h := (C93_newton_run (Γ := Ty) (t := 0) (e := .un .cos (.var 0)) (c := fun _ => some 0) (b := (0 : ℝ))
    (z := 0) (r := 1 / 2) (μ := 1 / 2) (M := 1) rfl rfl (by simp [CacheFree])
    ⟨fun _ _ => rfl, fun τ b h => by simp at h, fun τ b h => by simp at h⟩ rfl cos₁ cos₂ (by simp) rfl
    (by simp [Smooth, UnOp.SmoothAt]) (by norm_num) (by norm_num) (by norm_num) (fun s hs a ha => by
      rw [cos₂_at ha, abs_neg]
      rw [sub_zero] at hs
      have h1 := Real.one_sub_sq_div_two_le_cos (x := s)
      have h2 : s ^ 2 ≤ (1 / 2) ^ 2 := sq_le_sq' (abs_le.1 hs).1 (abs_le.1 hs).2
      exact le_trans (by linarith) (le_abs_self _)) (fun s s' _ _ a a' ha ha' => by
      rw [cos₂_at ha, cos₂_at ha', one_mul, ← abs_neg, neg_sub, neg_sub_neg]
      exact Real.abs_cos_sub_cos_le s s') ((cos₁_at 0 0).trans (by rw [Real.sin_zero, neg_zero])) (x := x)
    (by rwa [sub_zero]) (fun n g a hg ha => by
      have hg' := (cos₁_at 0 (x n)).symm.trans hg
      cases hg'
      rw [cos₂_at ha]
      exact hx n) n).2
  simpa using h

/-- `cos` is largest around zero, as its adjoint is zero and its second adjoint `-1`. -/
example : ∃ ε > 0, ∀ s : ℝ, |s - 0| < ε → ∃ w : ℝ,
    ((FnImpl.un .cos x' : FnImpl Ty (.un .cos (.var 0) : Node ℝ) .scalar).evaluate
      (Ctx.write (fun _ => some 0) 0 (setEntry (τ := .scalar) 0 [] s))).1 = .ok w ∧ w ≤ Real.cos 0 := by
  have hself : Ctx.write (F := ℝ) (Γ := Ty) (fun _ => some (0 : ℝ)) 0 (setEntry (τ := .scalar) (0 : ℝ) [] (0 : ℝ))
      = fun _ => some (0 : ℝ) := by
    funext i
    unfold Ctx.write
    split
    · subst_vars; rfl
    · rfl
  have hf : CacheFree (.un .cos (.var 0) : Node ℝ) := by simp [CacheFree]
  have hsc : AllScalar Ty (.un .cos (.var 0) : Node ℝ) :=
    ⟨fun _ _ => rfl, fun τ b h => by simp at h, fun τ b h => by simp at h⟩
  have hg : (cos₁.evaluate (fun _ => some (0 : ℝ))).1 = .ok (0 : ℝ) := by
    have := cos₁_at 0 0
    rwa [hself, Real.sin_zero, neg_zero] at this
  obtain ⟨-, a, ha⟩ := eval_total (Γ := Ty) (t := 0) (e := .un .negate (.mul (.varAdj 0 0) (.un .sin (.var 0)))) rfl
    (by simp [CacheFree]) cos₁ cos₂ (by simp [FnImpl.Regular]) (by simp [FnImpl.Regular]) (fun _ => some (0 : ℝ))
    (by simp) (by simp)
  have ha' : a = -1 := by
    rw [← Real.cos_zero]
    refine cos₂_at (x := 0) ?_
    rw [hself]
    exact ha
  obtain ⟨x, hx, -, h⟩ := C93_test (Γ := Ty) (t := 0) (e := .un .cos (.var 0)) rfl rfl hf hsc rfl
    (.un .cos x') cos₁ cos₂ (fun _ => some (0 : ℝ)) (by simp) (b := (0 : ℝ)) rfl (by simp [Smooth, UnOp.SmoothAt]) (by simp [Smooth, UnOp.SmoothAt])
    rfl hg ha
  cases hx
  exact h (by rw [ha']; norm_num)

/-- The second adjoint of the square is `2`, so that it is smallest where its adjoint is zero. -/
example (s : ℝ) : ∃ w : ℝ, ((FnImpl.un .square x' : FnImpl Ty (.un .square (.var 0) : Node ℝ) .scalar).evaluate
      (Ctx.write (fun _ => some 0) 0 (setEntry (τ := .scalar) 0 [] s))).1 = .ok w ∧ UnOp.apply .square (0 : ℝ) ≤ w := by
  refine C93_global (v := UnOp.apply .square (0 : ℝ)) (Γ := Ty) (t := 0) (e := .un .square (.var 0)) rfl rfl (by simp [CacheFree])
    ⟨fun _ _ => rfl, fun τ b h => by simp at h, fun τ b h => by simp at h⟩ rfl (.un .square x') sq₁ sq₂
    (fun _ => some (0 : ℝ)) (by simp) (b := (0 : ℝ)) rfl (by simp [Smooth, UnOp.SmoothAt]) (by simp [Smooth, UnOp.SmoothAt])
    (fun s a ha => by rw [sq₂_at ha]; norm_num) rfl ?_ s
  have := sq₁_at 0 0
  rw [mul_zero] at this
  exact this

private theorem square_real (s : ℝ) : UnOp.apply .square s = s ^ 2 := by
  have : UnOp.apply .square s = s ^ ((1 : ℝ) + 1) := rfl
  rw [this, one_add_one_eq_two, Real.rpow_two]

/-- Squares are smallest at zero, so their adjoint is zero there and their second adjoint not negative. -/
example {g a : ℝ} (hg : (sq₁.evaluate (fun _ => some (0 : ℝ))).1 = .ok g)
    (ha : (sq₂.evaluate (fun _ => some (0 : ℝ))).1 = .ok a) : g = 0 ∧ 0 ≤ a := by
  refine C93_necessary (Γ := Ty) (t := 0) (e := .un .square (.var 0)) rfl rfl (by simp [CacheFree])
    ⟨fun _ _ => rfl, fun τ b h => by simp at h, fun τ b h => by simp at h⟩ rfl (.un .square x') sq₁ sq₂
    (fun _ => some (0 : ℝ)) (by simp) (b := (0 : ℝ)) rfl (by simp [Smooth, UnOp.SmoothAt])
    (by simp [Smooth, UnOp.SmoothAt]) (v := UnOp.apply .square (0 : ℝ)) rfl hg ha (x := 0) rfl one_pos
    fun s _ w hw => ?_
  have hw' : (Res.ok (UnOp.apply .square s) : Res EvalErr ℝ) = .ok w := hw
  cases hw'
  rw [square_real, square_real]
  nlinarith [sq_nonneg s]

end Aegir.Props
