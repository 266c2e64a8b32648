import Verif.Lemmas.Batch
import Verif.Props.C63_Total
import Verif.Props.C93_Second
import Mathlib.Analysis.Calculus.LocalExtr.Rolle
/-!
# C94: adjoints bound how values change

What adjoints say about finite changes of the entries `S` of some variables: the value changes by the sum of
the adjoints' entries, taken somewhere in between, times the changes. Hence bounds on the adjoints bound the
change, their signs tell in which direction the value goes, and they vanish exactly if the value depends on
none of the entries. Exact real arithmetic; for all expressions with adjoints and all convex sets of settings.
-/

namespace Aegir

open Spec

variable {Γ : Id → BTy} {S : Finset (Id × Idx)}

namespace Props

section
variable {e : Node ℝ} {τ : BTy} {adj : Id → Node ℝ} {σ : Id → BTy}
  (hf : CacheFree e) (d : FnImpl Γ e τ) (hr : FnImpl.Regular d) (hne : S.Nonempty)
  (ha : ∀ p ∈ S, e.adjoint p.1 = some (adj p.1)) (da : ∀ p : S, FnImpl Γ (adj p.1.1) (σ p.1.1))
  (hra : ∀ p, FnImpl.Regular (da p)) (c : Ctx ℝ Γ) (hc : ∀ i, NeedsId e i → c i ≠ none)
  (hS : ∀ p ∈ S, ∃ b, c p.1 = some b ∧ InBounds (Buf.dims _ b) p.2) {ix : Idx}
  (hix : ∀ v, (d.evaluate c).1 = .ok v → InBounds (Buf.dims τ v) ix)

include hf hr hne ha hra hc hS hix

/-- Values, adjoints and the derivative at a setting `x`. -/
theorem c94_gradient (x : S → ℝ) (hs : ∀ p ∈ S, Smooth (envOf (setEntries c S x)) p.1 e) :
    (∃ w, (d.evaluate (setEntries c S x)).1 = .ok w ∧ Buf.getU τ w ix = some (alongAll d c S ix x)) ∧
      ∃ g : S → ℝ, (∀ p, ∃ a, ((da p).evaluate (setEntries c S x)).1 = .ok a ∧
        Buf.getU _ a (ix ++ p.1.2) = some (g p)) ∧ HasFDerivAt (alongAll d c S ix) (linear g) x := by
  have hS' : ∀ p ∈ S, ∃ b, setEntries c S x p.1 = some b ∧ InBounds (Buf.dims _ b) p.2 :=
    fun p hp => setEntries_inBounds (hS p hp) x
  obtain ⟨w, hw, -, h⟩ := C63_total hf d hr hne ha da hra (setEntries c S x)
    (fun i hi => setEntries_defined (hc i hi) x) hS' hs
  have hdim : InBounds (Buf.dims τ w) ix := by
    obtain ⟨p, hp⟩ := hne
    obtain ⟨b, hb, -⟩ := hS p hp
    obtain ⟨⟨v, hv⟩, -⟩ := eval_total (ha p hp) hf d (da ⟨p, hp⟩) hr (hra _) c hc (by simp [hb])
    have := hix v hv
    rw [dims_of_eval hf d hr hv] at this
    rw [dims_of_eval hf d hr hw, envOf_setEntries c hS]
    rwa [den_dims_congr (ρ := perturbAll (envOf c) S x) (ρ' := envOf c) (fun _ => rfl) e]
  obtain ⟨h1, g, h2, h3⟩ := h ix hdim
  have ea : alongAll d (setEntries c S x) S ix = alongAll d c S ix := by
    funext y
    simp only [alongAll, setEntries_setEntries]
  rw [ea, entries_setEntries c hS] at h1 h3
  exact ⟨⟨w, hw, h1⟩, g, h2, h3⟩

variable {A : Set (S → ℝ)} (hs : ∀ x ∈ A, ∀ p ∈ S, Smooth (envOf (setEntries c S x)) p.1 e)

include hs

/-- The mean value theorem: between any two settings there is one at which the adjoints, times the changes of
the entries, add up to the change of the value. -/
theorem C94_mean (hA : Convex ℝ A) {x y : S → ℝ} (hx : x ∈ A) (hy : y ∈ A) {v w : Buf ℝ τ}
    (hv : (d.evaluate (setEntries c S x)).1 = .ok v) (hw : (d.evaluate (setEntries c S y)).1 = .ok w) :
    ∃ (q r θ : ℝ) (g : S → ℝ), Buf.getU τ v ix = some q ∧ Buf.getU τ w ix = some r ∧ 0 < θ ∧ θ < 1 ∧
      (fun p => x p + θ * (y p - x p)) ∈ A ∧
      (∀ p, ∃ a, ((da p).evaluate (setEntries c S fun p => x p + θ * (y p - x p))).1 = .ok a ∧
        Buf.getU _ a (ix ++ p.1.2) = some (g p)) ∧
      r - q = ∑ p, g p * (y p - x p) := by
  have hgr := fun x hx => c94_gradient hf d hr hne ha da hra c hc hS hix x (hs x hx)
  obtain ⟨⟨v', hv', hq⟩, -⟩ := hgr x hx
  obtain ⟨⟨w', hw', hr'⟩, -⟩ := hgr y hy
  rw [hv] at hv'
  cases hv'
  rw [hw] at hw'
  cases hw'
  have hmem : ∀ s ∈ Set.Icc (0 : ℝ) 1, (fun p => x p + s * (y p - x p)) ∈ A := fun s h => by
    have : (fun p => x p + s * (y p - x p)) = x + s • (y - x) := rfl
    rw [this]
    exact hA.add_smul_sub_mem hx hy h
  have hd : ∀ s ∈ Set.Icc (0 : ℝ) 1, ∃ g : S → ℝ,
      (∀ p, ∃ a, ((da p).evaluate (setEntries c S fun p => x p + s * (y p - x p))).1 = .ok a ∧
        Buf.getU _ a (ix ++ p.1.2) = some (g p)) ∧
      HasDerivAt (fun t => alongAll d c S ix fun p => x p + t * (y p - x p)) (∑ p, g p * (y p - x p)) s := by
    intro s h
    obtain ⟨-, g, hg, hD⟩ := hgr _ (hmem s h)
    refine ⟨g, hg, ?_⟩
    have hγ : HasDerivAt (fun (t : ℝ) (p : S) => x p + t * (y p - x p)) (fun p => y p - x p) s :=
      hasDerivAt_pi.2 fun p => by
        have := ((hasDerivAt_id s).mul_const (y p - x p)).const_add (x p)
        simpa using this
    have := HasFDerivAt.comp_hasDerivAt (l := alongAll d c S ix) s hD hγ
    rwa [linear_apply] at this
  choose! g hg hD using hd
  obtain ⟨θ, hθ, h⟩ := exists_hasDerivAt_eq_slope _ _ one_pos
    (fun s h => (hD s h).continuousAt.continuousWithinAt)
    (fun s h => hD s (Set.Ioo_subset_Icc_self h))
  refine ⟨_, _, θ, g θ, hq, hr', hθ.1, hθ.2, hmem θ (Set.Ioo_subset_Icc_self hθ),
    hg θ (Set.Ioo_subset_Icc_self hθ), ?_⟩
  rw [h]
  simp

/-- Bounds on the adjoints bound the change of the value. -/
theorem C94_bound (hA : Convex ℝ A) {L : S → ℝ}
    (hL : ∀ z ∈ A, ∀ p a (g : ℝ), ((da p).evaluate (setEntries c S z)).1 = .ok a →
      Buf.getU _ a (ix ++ p.1.2) = some g → |g| ≤ L p)
    {x y : S → ℝ} (hx : x ∈ A) (hy : y ∈ A) {v w : Buf ℝ τ}
    (hv : (d.evaluate (setEntries c S x)).1 = .ok v) (hw : (d.evaluate (setEntries c S y)).1 = .ok w) :
    ∃ q r, Buf.getU τ v ix = some q ∧ Buf.getU τ w ix = some r ∧ |r - q| ≤ ∑ p, L p * |y p - x p| := by
  obtain ⟨q, r, θ, g, hq, hr', -, -, hz, hg, h⟩ :=
    C94_mean hf d hr hne ha da hra c hc hS hix hs hA hx hy hv hw
  refine ⟨q, r, hq, hr', ?_⟩
  rw [h]
  refine (Finset.abs_sum_le_sum_abs _ _).trans (Finset.sum_le_sum fun p _ => ?_)
  obtain ⟨a, h1, h2⟩ := hg p
  rw [abs_mul]
  exact mul_le_mul_of_nonneg_right (hL _ hz p a _ h1 h2) (abs_nonneg _)

/-- Where no adjoint is negative, larger entries give larger values. -/
theorem C94_monotone (hA : Convex ℝ A)
    (h0 : ∀ z ∈ A, ∀ p a (g : ℝ), ((da p).evaluate (setEntries c S z)).1 = .ok a →
      Buf.getU _ a (ix ++ p.1.2) = some g → 0 ≤ g)
    {x y : S → ℝ} (hx : x ∈ A) (hy : y ∈ A) (hxy : ∀ p, x p ≤ y p) {v w : Buf ℝ τ}
    (hv : (d.evaluate (setEntries c S x)).1 = .ok v) (hw : (d.evaluate (setEntries c S y)).1 = .ok w) :
    ∃ q r, Buf.getU τ v ix = some q ∧ Buf.getU τ w ix = some r ∧ q ≤ r := by
  obtain ⟨q, r, θ, g, hq, hr', -, -, hz, hg, h⟩ :=
    C94_mean hf d hr hne ha da hra c hc hS hix hs hA hx hy hv hw
  refine ⟨q, r, hq, hr', ?_⟩
  have : 0 ≤ ∑ p, g p * (y p - x p) := Finset.sum_nonneg fun p _ => by
    obtain ⟨a, h1, h2⟩ := hg p
    exact mul_nonneg (h0 _ hz p a _ h1 h2) (sub_nonneg.2 (hxy p))
  linarith

/-- Where all adjoints are positive, different settings one of which is nowhere smaller have different values:
the larger has the larger one. -/
theorem C94_strict (hA : Convex ℝ A)
    (h0 : ∀ z ∈ A, ∀ p a (g : ℝ), ((da p).evaluate (setEntries c S z)).1 = .ok a →
      Buf.getU _ a (ix ++ p.1.2) = some g → 0 < g)
    {x y : S → ℝ} (hx : x ∈ A) (hy : y ∈ A) (hxy : ∀ p, x p ≤ y p) (hne' : x ≠ y) {v w : Buf ℝ τ}
    (hv : (d.evaluate (setEntries c S x)).1 = .ok v) (hw : (d.evaluate (setEntries c S y)).1 = .ok w) :
    ∃ q r, Buf.getU τ v ix = some q ∧ Buf.getU τ w ix = some r ∧ q < r := by
  obtain ⟨q, r, θ, g, hq, hr', -, -, hz, hg, h⟩ :=
    C94_mean hf d hr hne ha da hra c hc hS hix hs hA hx hy hv hw
  refine ⟨q, r, hq, hr', ?_⟩
  have hg0 : ∀ p, 0 < g p := fun p => by
    obtain ⟨a, h1, h2⟩ := hg p
    exact h0 _ hz p a _ h1 h2
  have : 0 < ∑ p, g p * (y p - x p) := by
    obtain ⟨p, hp⟩ := Function.ne_iff.1 hne'
    exact Finset.sum_pos' (fun p _ => mul_nonneg (hg0 p).le (sub_nonneg.2 (hxy p)))
      ⟨p, Finset.mem_univ _, mul_pos (hg0 p) (sub_pos.2 (lt_of_le_of_ne (hxy p) hp))⟩
  linarith

/-- On an open convex set of settings, the adjoints are zero exactly if the value is always the same. -/
theorem C94_constant (hA : Convex ℝ A) (hO : IsOpen A) :
    (∀ z ∈ A, ∀ p, ∃ a, ((da p).evaluate (setEntries c S z)).1 = .ok a ∧
      Buf.getU _ a (ix ++ p.1.2) = some (0 : ℝ)) ↔
    ∀ x ∈ A, ∀ y ∈ A, ∃ v w q, (d.evaluate (setEntries c S x)).1 = .ok v ∧
      (d.evaluate (setEntries c S y)).1 = .ok w ∧ Buf.getU τ v ix = some q ∧ Buf.getU τ w ix = some q := by
  have hgr := fun x hx => c94_gradient hf d hr hne ha da hra c hc hS hix x (hs x hx)
  constructor
  · intro h0 x hx y hy
    obtain ⟨⟨v, hv, -⟩, -⟩ := hgr x hx
    obtain ⟨⟨w, hw, -⟩, -⟩ := hgr y hy
    obtain ⟨q, r, hq, hr', h⟩ := C94_bound hf d hr hne ha da hra c hc hS hix hs hA (L := fun _ => 0)
      (fun z hz p a g h1 h2 => by
        obtain ⟨a', h3, h4⟩ := h0 z hz p
        rw [h1] at h3
        cases h3
        rw [h2] at h4
        cases h4
        simp) hx hy hv hw
    simp only [zero_mul, Finset.sum_const_zero, abs_nonpos_iff, sub_eq_zero] at h
    subst h
    exact ⟨v, w, _, hv, hw, hq, hr'⟩
  · intro h z hz p
    obtain ⟨-, g, hg, hD⟩ := hgr z hz
    have hloc : alongAll d c S ix =ᶠ[nhds z] fun _ => alongAll d c S ix z := by
      filter_upwards [hO.mem_nhds hz] with y hy
      obtain ⟨v, w, q, hv, hw, hq, hq'⟩ := h y hy z hz
      simp only [alongAll, hv, hw, hq, hq']
    have h0 : linear g = 0 := (hD.congr_of_eventuallyEq hloc.symm).unique (hasFDerivAt_const _ z)
    have hp : g p = 0 := by
      have := congrArg (fun l : (S → ℝ) →L[ℝ] ℝ => l (Pi.single p 1)) h0
      simpa [linear_apply, Pi.single_apply] using this
    obtain ⟨a, h1, h2⟩ := hg p
    exact ⟨a, h1, by rw [h2, hp]⟩

end

/-! ## One scalar variable, to second order -/

/-- Taylor's theorem of second order, for functions with given derivatives between `x` and `y`. -/
theorem c94_taylor_lt {f g a : ℝ → ℝ} {x y : ℝ} (hxy : x < y) (hf : ∀ s ∈ Set.Icc x y, HasDerivAt f (g s) s)
    (hg : ∀ s ∈ Set.Icc x y, HasDerivAt g (a s) s) :
    ∃ ξ ∈ Set.Ioo x y, f y = f x + g x * (y - x) + a ξ / 2 * (y - x) ^ 2 := by
  have hF : ∀ s ∈ Set.Icc x y, HasDerivAt (fun s => f s + g s * (y - s)) (a s * (y - s)) s := fun s h => by
    have h1 := (hf s h).fun_add ((hg s h).fun_mul ((hasDerivAt_id s).const_sub y))
    have e : g s + (a s * (y - id s) + g s * -1) = a s * (y - s) := by simp only [id]; ring
    rw [e] at h1
    exact h1
  have hG : ∀ s, HasDerivAt (fun s => -(y - s) ^ 2 / 2) (y - s) s := fun s => by
    have h1 := ((((hasDerivAt_id s).const_sub y).fun_pow 2).fun_neg).div_const 2
    have e : -(((2 : ℕ) : ℝ) * (y - id s) ^ (2 - 1) * -1) / 2 = y - s := by simp only [id]; norm_num
    rw [e] at h1
    exact h1
  obtain ⟨ξ, hξ, h⟩ := exists_ratio_hasDerivAt_eq_ratio_slope _ _ hxy
    (fun s h => (hF s h).continuousAt.continuousWithinAt) (fun s h => hF s (Set.Ioo_subset_Icc_self h))
    _ _ (fun s _ => (hG s).continuousAt.continuousWithinAt) (fun s _ => hG s)
  refine ⟨ξ, hξ, ?_⟩
  have hy : y - ξ ≠ 0 := (sub_pos.2 hξ.2).ne'
  have h2 : (y - ξ) * (f y - (f x + g x * (y - x)) - a ξ / 2 * (y - x) ^ 2) = 0 := by
    simp only [sub_self, mul_zero, add_zero] at h
    linear_combination -h
  rcases mul_eq_zero.1 h2 with h3 | h3
  · exact absurd h3 hy
  · linarith

theorem c94_taylor {f g a : ℝ → ℝ} {x y : ℝ} (hf : ∀ s ∈ Set.uIcc x y, HasDerivAt f (g s) s)
    (hg : ∀ s ∈ Set.uIcc x y, HasDerivAt g (a s) s) :
    ∃ ξ ∈ Set.uIcc x y, f y = f x + g x * (y - x) + a ξ / 2 * (y - x) ^ 2 := by
  rcases lt_trichotomy x y with h | rfl | h
  · rw [Set.uIcc_of_le h.le] at hf hg ⊢
    obtain ⟨ξ, h1, h2⟩ := c94_taylor_lt h hf hg
    exact ⟨ξ, Set.Ioo_subset_Icc_self h1, h2⟩
  · exact ⟨x, Set.left_mem_uIcc, by simp⟩
  · rw [Set.uIcc_of_ge h.le] at hf hg ⊢
    have hm : ∀ s ∈ Set.Icc (-x) (-y), -s ∈ Set.Icc y x := fun s hs => ⟨by linarith [hs.2], by linarith [hs.1]⟩
    obtain ⟨ξ, h1, h2⟩ := c94_taylor_lt (f := fun s => f (-s)) (g := fun s => -g (-s)) (a := fun s => a (-s))
      (neg_lt_neg h) (fun s hs => by
        have := HasDerivAt.comp s (hf (-s) (hm s hs)) (hasDerivAt_neg s)
        rw [mul_neg_one] at this
        exact this) (fun s hs => by
        have := (HasDerivAt.comp s (hg (-s) (hm s hs)) (hasDerivAt_neg s)).fun_neg
        simpa using this)
    refine ⟨-ξ, hm ξ (Set.Ioo_subset_Icc_self h1), ?_⟩
    simp only [neg_neg] at h2
    rw [h2]
    ring

/-- Taylor's theorem: the value at `y` is what value and adjoint at `x` predict, up to half the second adjoint
somewhere in between times the square of the distance. -/
theorem C94_taylor {t : Id} {e e₁ e₂ : Node ℝ} (h₁ : e.adjoint t = some e₁) (h₂ : e₁.adjoint t = some e₂)
    (hf : CacheFree e) (hsc : AllScalar Γ e) (ht : Γ t = .scalar) (d : FnImpl Γ e .scalar)
    (d₁ : FnImpl Γ e₁ .scalar) (d₂ : FnImpl Γ e₂ .scalar) (c : Ctx ℝ Γ) (hc : ∀ i, NeedsId e i → c i ≠ none)
    {b : Buf ℝ (Γ t)} (hb : c t = some b) {x y : ℝ}
    (hs : ∀ s ∈ Set.uIcc x y, Smooth (envOf (c.write t (setEntry b [] s))) t e)
    (hs₁ : ∀ s ∈ Set.uIcc x y, Smooth (envOf (c.write t (setEntry b [] s))) t e₁) :
    ∃ v w g ξ a : ℝ, (d.evaluate (c.write t (setEntry b [] x))).1 = .ok v ∧
      (d.evaluate (c.write t (setEntry b [] y))).1 = .ok w ∧
      (d₁.evaluate (c.write t (setEntry b [] x))).1 = .ok g ∧ ξ ∈ Set.uIcc x y ∧
      (d₂.evaluate (c.write t (setEntry b [] ξ))).1 = .ok a ∧
      w = v + g * (y - x) + a / 2 * (y - x) ^ 2 := by
  have hf₁ := adjoint_cacheFree h₁ hf
  have hsc₁ := AllScalar.adjoint h₁ hf hsc ht
  have hr := (hsc.regular d).2
  have hr₁ := (hsc₁.regular d₁).2
  have hr₂ := ((AllScalar.adjoint h₂ hf₁ hsc₁ ht).regular d₂).2
  have hc₁ : ∀ i, NeedsId e₁ i → c i ≠ none := fun i hi => by
    rcases adjoint_needs h₁ hi with h | rfl
    · exact hc i h
    · simp [hb]
  obtain ⟨ξ, hξ, h⟩ := c94_taylor (f := along d c t b [] []) (g := along d₁ c t b [] []) (a := along d₂ c t b [] [])
    (x := x) (y := y) (fun s h => c93_deriv h₁ hf hsc ht d d₁ hc (hs s h))
    (fun s h => c93_deriv h₂ hf₁ hsc₁ ht d₁ d₂ hc₁ (hs₁ s h))
  have t₁ : ∀ s, _ := fun s => eval_total h₁ hf d d₁ hr hr₁ _ (ctx_write_needs hc (setEntry b [] s))
    (by simp [Ctx.write_self])
  obtain ⟨⟨v, hv⟩, g, hg⟩ := t₁ x
  obtain ⟨⟨w, hw⟩, -⟩ := t₁ y
  obtain ⟨-, a, ha⟩ := eval_total h₂ hf₁ d₁ d₂ hr₁ hr₂ _ (ctx_write_needs hc₁ (setEntry b [] ξ))
    (by simp [Ctx.write_self])
  refine ⟨v, w, g, ξ, a, hv, hw, hg, hξ, ha, ?_⟩
  simp only [along, hv, hw, hg, ha] at h
  exact h

/-! ## Examples -/

private abbrev Ty : Id → BTy := fun _ => .scalar
private abbrev one' : FnImpl Ty (.varAdj 0 0 : Node ℝ) .scalar := .varAdj (Γ := Ty) 0 0 .ss (by decide)
private abbrev x' : FnImpl Ty (.var 0 : Node ℝ) .scalar := .var (Γ := Ty) 0
private abbrev S₀ : Finset (Id × Idx) := {(0, [])}
private abbrev p₀ : S₀ := ⟨(0, []), by simp⟩

/-- The adjoint of `sin` is at most one in size, so that `sin` changes by no more than its argument. -/
example (b : ℝ) (x y : S₀ → ℝ) : |Real.sin (y p₀) - Real.sin (x p₀)| ≤ |y p₀ - x p₀| := by
  obtain ⟨q, r, hq, hr, h⟩ := C94_bound (Γ := Ty) (S := S₀) (e := .un .sin (.var 0))
    (adj := fun _ => .mul (.varAdj 0 0) (.un .cos (.var 0))) (σ := fun _ => .scalar) (A := Set.univ)
    (by simp [CacheFree]) (.un .sin x') (by simp [FnImpl.Regular]) (by simp)
    (fun p hp => by rw [Finset.mem_singleton.1 hp]; rfl) (fun _ => .mul one' (.un .cos x') .ss)
    (fun _ => by simp [FnImpl.Regular]) (fun _ => some b) (by simp)
    (fun p hp => ⟨b, rfl, by rw [Finset.mem_singleton.1 hp]; exact .nil⟩) (ix := []) (fun _ _ => .nil)
    (by simp [Smooth, UnOp.SmoothAt]) convex_univ (L := fun _ => 1) (fun z _ p a g h1 h2 => by
      obtain ⟨p, hp⟩ := p
      obtain rfl := Finset.mem_singleton.1 hp
      have h3 : (Res.ok (1 * Real.cos (z p₀)) : Res EvalErr ℝ) = .ok a := h1
      cases h3
      have h4 : some (1 * Real.cos (z p₀)) = some g := h2
      cases h4
      rw [one_mul]
      exact Real.abs_cos_le_one _) (Set.mem_univ x) (Set.mem_univ y) rfl rfl
  have hq' : some (Real.sin (x p₀)) = some q := hq
  have hr' : some (Real.sin (y p₀)) = some r := hr
  cases hq'
  cases hr'
  rw [Fintype.sum_eq_single p₀ fun p h => absurd (Subsingleton.elim p p₀) h, one_mul] at h
  exact h

/-- The adjoint of `exp` is positive, so that `exp` is strictly increasing. -/
example (b : ℝ) (x y : S₀ → ℝ) (hxy : x p₀ < y p₀) : Real.exp (x p₀) < Real.exp (y p₀) := by
  obtain ⟨q, r, hq, hr, h⟩ := C94_strict (Γ := Ty) (S := S₀) (e := .un .exp (.var 0))
    (adj := fun _ => .mul (.un .exp (.var 0)) (.varAdj 0 0)) (σ := fun _ => .scalar) (A := Set.univ)
    (by simp [CacheFree]) (.un .exp x') (by simp [FnImpl.Regular]) (by simp)
    (fun p hp => by rw [Finset.mem_singleton.1 hp]; rfl) (fun _ => .mul (.un .exp x') one' .ss)
    (fun _ => by simp [FnImpl.Regular]) (fun _ => some b) (by simp)
    (fun p hp => ⟨b, rfl, by rw [Finset.mem_singleton.1 hp]; exact .nil⟩) (ix := []) (fun _ _ => .nil)
    (by simp [Smooth, UnOp.SmoothAt]) convex_univ (fun z _ p a g h1 h2 => by
      obtain ⟨p, hp⟩ := p
      obtain rfl := Finset.mem_singleton.1 hp
      have h3 : (Res.ok (Real.exp (z p₀) * 1) : Res EvalErr ℝ) = .ok a := h1
      cases h3
      have h4 : some (Real.exp (z p₀) * 1) = some g := h2
      cases h4
      rw [mul_one]
      exact Real.exp_pos _) (Set.mem_univ x) (Set.mem_univ y) (fun p => by
      obtain ⟨p, hp⟩ := p
      obtain rfl := Finset.mem_singleton.1 hp
      exact hxy.le) (fun h => by rw [h] at hxy; exact lt_irrefl _ hxy) rfl rfl
  have hq' : some (Real.exp (x p₀)) = some q := hq
  have hr' : some (Real.exp (y p₀)) = some r := hr
  cases hq'
  cases hr'
  exact h

/-- The adjoint of `x - x` is `1 - 1`, so that its value does not depend on `x`. -/
example (b : ℝ) (x y : S₀ → ℝ) : ∃ v w q : ℝ,
    ((FnImpl.sub x' x' .ss : FnImpl Ty (.sub (.var 0) (.var 0) : Node ℝ) .scalar).evaluate
      (setEntries (Γ := Ty) (fun _ => some b) S₀ x)).1 = .ok v ∧
    ((FnImpl.sub x' x' .ss : FnImpl Ty (.sub (.var 0) (.var 0) : Node ℝ) .scalar).evaluate
      (setEntries (Γ := Ty) (fun _ => some b) S₀ y)).1 = .ok w ∧
    Buf.getU .scalar v [] = some q ∧ Buf.getU .scalar w [] = some q := by
  refine (C94_constant (Γ := Ty) (S := S₀) (e := .sub (.var 0) (.var 0))
    (adj := fun _ => .sub (.varAdj 0 0) (.varAdj 0 0)) (σ := fun _ => .scalar) (A := Set.univ)
    (by simp [CacheFree]) (.sub x' x' .ss) (by simp [FnImpl.Regular]) (by simp)
    (fun p hp => by rw [Finset.mem_singleton.1 hp]; rfl) (fun _ => .sub one' one' .ss)
    (fun _ => by simp [FnImpl.Regular]) (fun _ => some b) (by simp)
    (fun p hp => ⟨b, rfl, by rw [Finset.mem_singleton.1 hp]; exact .nil⟩) (ix := []) (fun _ _ => .nil)
    (by simp [Smooth]) convex_univ isOpen_univ).1 (fun z _ p => ?_) x (Set.mem_univ x) y (Set.mem_univ y)
  obtain ⟨p, hp⟩ := p
  obtain rfl := Finset.mem_singleton.1 hp
  refine ⟨(1 - 1 : ℝ), rfl, ?_⟩
  have : Buf.getU (F := ℝ) .scalar (1 - 1 : ℝ) [] = some (1 - 1) := rfl
  rw [sub_self] at this ⊢
  exact this

/-- A square, expanded around any point. -/
example (x y : ℝ) : ∃ e₁ e₂, (Node.un .square (.var 0) : Node ℝ).adjoint 0 = some e₁ ∧ e₁.adjoint 0 = some e₂ ∧
    ∃ (d₂ : FnImpl Ty e₂ .scalar) (ξ a : ℝ),
      (d₂.evaluate (Ctx.write (fun _ => some x) 0 (setEntry (τ := .scalar) x [] ξ))).1 = .ok a ∧
      UnOp.apply .square y = UnOp.apply .square x + (1 + 1) * x * 1 * (y - x) + a / 2 * (y - x) ^ 2 := by
  have hf : CacheFree (.un .square (.var 0) : Node ℝ) := by simp [CacheFree]
  have hsc : AllScalar Ty (.un .square (.var 0) : Node ℝ) :=
    ⟨fun _ _ => rfl, fun τ b h => by simp at h, fun τ b h => by simp at h⟩
  have h₁ : (Node.un .square (.var 0) : Node ℝ).adjoint 0 = some (.mul (.un .double (.var 0)) (.varAdj 0 0)) := rfl
  let d₁ : FnImpl Ty (.mul (.un .double (.var 0)) (.varAdj 0 0) : Node ℝ) .scalar := .mul (.un .double x') one' .ss
  obtain ⟨d₂⟩ := scalar_adjoint_impl (t := 0) rfl (adjoint_cacheFree h₁ hf) (AllScalar.adjoint h₁ hf hsc rfl) rfl d₁
  obtain ⟨v, w, g, ξ, a, hv, hw, hg, -, ha, h⟩ := C94_taylor (Γ := Ty) (t := 0) h₁ rfl hf hsc rfl (.un .square x') d₁ d₂
    (fun _ => some x) (by simp) (b := x) rfl (x := x) (y := y) (by simp [Smooth, UnOp.SmoothAt])
    (by simp [Smooth, UnOp.SmoothAt])
  refine ⟨_, _, h₁, rfl, d₂, ξ, a, ha, ?_⟩
  have hv' : (Res.ok (UnOp.apply .square x) : Res EvalErr ℝ) = .ok v := hv
  have hw' : (Res.ok (UnOp.apply .square y) : Res EvalErr ℝ) = .ok w := hw
  have hg' : (Res.ok ((1 + 1) * x * 1) : Res EvalErr ℝ) = .ok g := hg
  cases hv'
  cases hw'
  cases hg'
  exact h

end Props

end Aegir
