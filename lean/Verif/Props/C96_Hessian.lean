import Verif.Spec.Entry
import Verif.Props.C94_Changes
/-!
# C96: Hessians made of second adjoints

The second adjoints with respect to all pairs of entries `S` of some variables make up the Hessian matrix of
the value: Taylor's theorem, convexity and uniqueness of minima where it is positive (semi-)definite, its
being so at minima, and how far one step of gradient descent gets. Exact real arithmetic; for expressions that
have second adjoints (adjoints of constants have none, so neither have expressions with constants).
-/

namespace Aegir

open Spec

variable {Γ : Id → BTy} {S : Finset (Id × Idx)}

theorem Spec.HasEntry.unique {e : Node ℝ} {τ : BTy} {d : FnImpl Γ e τ} {c : Ctx ℝ Γ} {ix : Idx} {q q' : ℝ}
    (h : HasEntry d c ix q) (h' : HasEntry d c ix q') : q = q' := by
  obtain ⟨w, hw, hq⟩ := h
  obtain ⟨w', hw', hq'⟩ := h'
  rw [hw] at hw'
  cases hw'
  exact Option.some.inj (hq.symm.trans hq')

namespace Props

theorem c96_along {e : Node ℝ} {τ : BTy} {d : FnImpl Γ e τ} {c : Ctx ℝ Γ} {ix : Idx} {q : ℝ} {x : S → ℝ}
    (h : HasEntry d (setEntries c S x) ix q) : alongAll d c S ix x = q := by
  obtain ⟨w, hw, hq⟩ := h
  simp only [alongAll, hw, hq, Option.getD_some]

section
variable {e : Node ℝ} {τ : BTy} {adj : Id → Node ℝ} {σ : Id → BTy} {adj₂ : Id → Id → Node ℝ} {σ₂ : Id → Id → BTy}
  (hf : CacheFree e) (d : FnImpl Γ e τ) (hr : FnImpl.Regular d) (hne : S.Nonempty)
  (ha : ∀ p ∈ S, e.adjoint p.1 = some (adj p.1)) (da : ∀ p : S, FnImpl Γ (adj p.1.1) (σ p.1.1))
  (hra : ∀ p, FnImpl.Regular (da p))
  (ha₂ : ∀ p ∈ S, ∀ q ∈ S, (adj p.1).adjoint q.1 = some (adj₂ p.1 q.1))
  (da₂ : ∀ p q : S, FnImpl Γ (adj₂ p.1.1 q.1.1) (σ₂ p.1.1 q.1.1)) (hra₂ : ∀ p q, FnImpl.Regular (da₂ p q))
  (c : Ctx ℝ Γ) (hc : ∀ i, NeedsId e i → c i ≠ none)
  (hS : ∀ p ∈ S, ∃ b, c p.1 = some b ∧ InBounds (Buf.dims _ b) p.2) {ix : Idx}
  (hix : ∀ v, (d.evaluate c).1 = .ok v → InBounds (Buf.dims τ v) ix)

include hf hr hne ha hra ha₂ hra₂ hc hS hix

/-- Values, gradients and Hessians, and that they are derivatives. -/
theorem c96_data (x : S → ℝ) (hs : ∀ p ∈ S, Smooth (envOf (setEntries c S x)) p.1 e)
    (hs₂ : ∀ p ∈ S, ∀ q ∈ S, Smooth (envOf (setEntries c S x)) q.1 (adj p.1)) :
    HasEntry d (setEntries c S x) ix (alongAll d c S ix x) ∧
    (∀ p, HasEntry (da p) (setEntries c S x) (ix ++ p.1.2) (alongAll (da p) c S (ix ++ p.1.2) x)) ∧
    (∀ p q, HasEntry (da₂ p q) (setEntries c S x) (ix ++ p.1.2 ++ q.1.2)
      (alongAll (da₂ p q) c S (ix ++ p.1.2 ++ q.1.2) x)) ∧
    HasFDerivAt (alongAll d c S ix) (linear fun p => alongAll (da p) c S (ix ++ p.1.2) x) x ∧
    ∀ p, HasFDerivAt (alongAll (da p) c S (ix ++ p.1.2))
      (linear fun q => alongAll (da₂ p q) c S (ix ++ p.1.2 ++ q.1.2) x) x := by
  obtain ⟨h0, g, hg, hD⟩ := c94_gradient hf d hr hne ha da hra c hc hS hix x hs
  have hg' : ∀ p, alongAll (da p) c S (ix ++ p.1.2) x = g p := fun p => c96_along (hg p)
  have hc₁ : ∀ p ∈ S, ∀ i, NeedsId (adj p.1) i → c i ≠ none := fun p hp i hi => by
    rcases adjoint_needs (ha p hp) hi with h | rfl
    · exact hc i h
    · obtain ⟨b, hb, -⟩ := hS p hp
      simp [hb]
  have hdims : ∀ n : Node ℝ, (den (envOf (setEntries c S x)) n).dims = (den (envOf c) n).dims := fun n => by
    rw [envOf_setEntries c hS]
    exact den_dims_congr (ρ := perturbAll (envOf c) S x) (ρ' := envOf c) (fun _ => rfl) n
  have hix₁ : ∀ p : S, ∀ v, ((da p).evaluate c).1 = .ok v → InBounds (Buf.dims _ v) (ix ++ p.1.2) := by
    intro p v hv
    obtain ⟨b, hb, hi⟩ := hS p.1 p.2
    obtain ⟨b', hb', hi'⟩ := setEntries_inBounds (hS p.1 p.2) x
    obtain ⟨w, hw, -⟩ := h0
    obtain ⟨a, ha', -⟩ := hg p
    obtain ⟨⟨v₀, hv₀⟩, -⟩ := eval_total (ha p.1 p.2) hf d (da p) hr (hra _) c hc (by simp [hb])
    obtain ⟨h1, -⟩ := eval_deriv (ha p.1 p.2) hf d (da p) hr (hra p) (setEntries c S x)
      (fun i hi => setEntries_defined (hc i hi) x) hb' (hs p.1 p.2) hw ha' hi'
    rw [dims_of_eval (adjoint_cacheFree (ha p.1 p.2) hf) (da p) (hra p) hv, ← hdims,
      ← dims_of_eval (adjoint_cacheFree (ha p.1 p.2) hf) (da p) (hra p) ha', h1]
    have h2 := hix v₀ hv₀
    rw [dims_of_eval hf d hr hv₀, ← hdims, ← dims_of_eval hf d hr hw] at h2
    exact inBounds_append.2 ⟨_, _, h2, hi', rfl⟩
  have h2 := fun p : S => c94_gradient (adjoint_cacheFree (ha p.1 p.2) hf) (da p) (hra p) hne
    (adj := adj₂ p.1.1) (σ := σ₂ p.1.1) (ha₂ p.1 p.2) (da₂ p) (hra₂ p) c (hc₁ p.1 p.2) hS (hix₁ p) x
    (fun q hq => hs₂ p.1 p.2 q hq)
  refine ⟨h0, fun p => ?_, fun p q => ?_, ?_, fun p => ?_⟩
  · rw [hg']
    exact hg p
  · obtain ⟨-, h, hh, -⟩ := h2 p
    rw [c96_along (hh q)]
    exact hh q
  · rw [funext hg']
    exact hD
  · obtain ⟨-, h, hh, hD⟩ := h2 p
    rw [funext fun q => c96_along (hh q)]
    exact hD

variable {A : Set (S → ℝ)} (hs : ∀ x ∈ A, ∀ p ∈ S, Smooth (envOf (setEntries c S x)) p.1 e)
  (hs₂ : ∀ x ∈ A, ∀ p ∈ S, ∀ q ∈ S, Smooth (envOf (setEntries c S x)) q.1 (adj p.1))

include hs hs₂

/-- Along a line, from the derivatives at one of its points. -/
theorem c96_line {x u : S → ℝ} {s : ℝ} (hx : (fun p => x p + s * u p) ∈ A) :
    HasDerivAt (fun s => alongAll d c S ix fun p => x p + s * u p)
      (∑ p, alongAll (da p) c S (ix ++ p.1.2) (fun p => x p + s * u p) * u p) s ∧
    HasDerivAt (fun s => ∑ p, alongAll (da p) c S (ix ++ p.1.2) (fun p => x p + s * u p) * u p)
      (∑ p, ∑ q, alongAll (da₂ p q) c S (ix ++ p.1.2 ++ q.1.2) (fun p => x p + s * u p) * u p * u q) s := by
  obtain ⟨-, -, -, h1, h2⟩ := c96_data hf d hr hne ha da hra ha₂ da₂ hra₂ c hc hS hix _ (hs _ hx) (hs₂ _ hx)
  have hγ : HasDerivAt (fun (s : ℝ) (p : S) => x p + s * u p) u s :=
    hasDerivAt_pi.2 fun p => by
      have := ((hasDerivAt_id s).mul_const (u p)).const_add (x p)
      simpa using this
  constructor
  · have := HasFDerivAt.comp_hasDerivAt (l := alongAll d c S ix) s h1 hγ
    rwa [linear_apply] at this
  · refine HasDerivAt.fun_sum fun p _ => ?_
    have := (HasFDerivAt.comp_hasDerivAt (l := alongAll (da p) c S (ix ++ p.1.2)) s (h2 p) hγ).mul_const (u p)
    rw [linear_apply, Finset.sum_mul] at this
    refine this.congr_deriv (Finset.sum_congr rfl fun q _ => ?_)
    ring

/-- Taylor's theorem: the value at `y` is what value and adjoints at `x` predict, up to half the quadratic form
of the second adjoints somewhere in between. -/
theorem C96_taylor (hA : Convex ℝ A) {x y : S → ℝ} (hx : x ∈ A) (hy : y ∈ A) :
    ∃ (v w θ : ℝ) (g : S → ℝ) (H : S → S → ℝ), HasEntry d (setEntries c S x) ix v ∧ HasEntry d (setEntries c S y) ix w ∧
      (∀ p, HasEntry (da p) (setEntries c S x) (ix ++ p.1.2) (g p)) ∧ 0 < θ ∧ θ < 1 ∧
      (fun p => x p + θ * (y p - x p)) ∈ A ∧
      (∀ p q, HasEntry (da₂ p q) (setEntries c S fun p => x p + θ * (y p - x p)) (ix ++ p.1.2 ++ q.1.2) (H p q)) ∧
      w = v + ∑ p, g p * (y p - x p) + (∑ p, ∑ q, H p q * (y p - x p) * (y q - x q)) / 2 := by
  have hD := fun x hx => c96_data hf d hr hne ha da hra ha₂ da₂ hra₂ c hc hS hix x (hs x hx) (hs₂ x hx)
  have hmem : ∀ s ∈ Set.Icc (0 : ℝ) 1, (fun p => x p + s * (y p - x p)) ∈ A := fun s h => by
    have : (fun p => x p + s * (y p - x p)) = x + s • (y - x) := rfl
    rw [this]
    exact hA.add_smul_sub_mem hx hy h
  have hl := fun s (h : s ∈ Set.Icc (0 : ℝ) 1) => c96_line hf d hr hne ha da hra ha₂ da₂ hra₂ c hc hS hix hs hs₂
    (x := x) (u := fun p => y p - x p) (hmem s h)
  obtain ⟨θ, hθ, h⟩ := c94_taylor_lt one_pos (fun s h => (hl s h).1) (fun s h => (hl s h).2)
  refine ⟨_, _, θ, _, _, (hD x hx).1, (hD y hy).1, (hD x hx).2.1, hθ.1, hθ.2,
    hmem θ (Set.Ioo_subset_Icc_self hθ), (hD _ (hmem θ (Set.Ioo_subset_Icc_self hθ))).2.2.1, ?_⟩
  have e1 : (fun p => x p + 1 * (y p - x p)) = y := by funext p; ring
  have e0 : (fun p => x p + 0 * (y p - x p)) = x := by funext p; ring
  rw [e1, e0] at h
  rw [h]
  ring

/-- Where the second adjoints form positive semidefinite matrices, values lie above the tangents that the
adjoints give, so that vanishing adjoints mean that the value is the smallest. -/
theorem C96_convex (hA : Convex ℝ A)
    (hpsd : ∀ z ∈ A, ∀ H : S → S → ℝ, (∀ p q, HasEntry (da₂ p q) (setEntries c S z) (ix ++ p.1.2 ++ q.1.2) (H p q)) →
      ∀ u : S → ℝ, 0 ≤ ∑ p, ∑ q, H p q * u p * u q)
    {x y g : S → ℝ} {v w : ℝ} (hx : x ∈ A) (hy : y ∈ A) (hv : HasEntry d (setEntries c S x) ix v)
    (hw : HasEntry d (setEntries c S y) ix w) (hg : ∀ p, HasEntry (da p) (setEntries c S x) (ix ++ p.1.2) (g p)) :
    v + ∑ p, g p * (y p - x p) ≤ w ∧ ((∀ p, g p = 0) → v ≤ w) := by
  obtain ⟨v', w', θ, g', H, h1, h2, h3, -, -, hz, h4, h⟩ :=
    C96_taylor hf d hr hne ha da hra ha₂ da₂ hra₂ c hc hS hix hs hs₂ hA hx hy
  obtain rfl := h1.unique hv
  obtain rfl := h2.unique hw
  obtain rfl : g' = g := funext fun p => (h3 p).unique (hg p)
  have := hpsd _ hz H h4 fun p => y p - x p
  refine ⟨by linarith, fun h0 => ?_⟩
  simp only [h0, zero_mul, Finset.sum_const_zero] at h
  linarith

/-- Where they form positive definite matrices, there is at most one setting with vanishing adjoints, and all
other values are larger. -/
theorem C96_unique (hA : Convex ℝ A)
    (hpd : ∀ z ∈ A, ∀ H : S → S → ℝ, (∀ p q, HasEntry (da₂ p q) (setEntries c S z) (ix ++ p.1.2 ++ q.1.2) (H p q)) →
      ∀ u : S → ℝ, u ≠ 0 → 0 < ∑ p, ∑ q, H p q * u p * u q)
    {x y : S → ℝ} {v w : ℝ} (hx : x ∈ A) (hy : y ∈ A) (hv : HasEntry d (setEntries c S x) ix v)
    (hw : HasEntry d (setEntries c S y) ix w) (hg : ∀ p, HasEntry (da p) (setEntries c S x) (ix ++ p.1.2) 0)
    (hxy : y ≠ x) : v < w ∧ ¬ ∀ p, HasEntry (da p) (setEntries c S y) (ix ++ p.1.2) 0 := by
  have key : ∀ {x y : S → ℝ} {v w : ℝ}, x ∈ A → y ∈ A → HasEntry d (setEntries c S x) ix v →
      HasEntry d (setEntries c S y) ix w → (∀ p, HasEntry (da p) (setEntries c S x) (ix ++ p.1.2) 0) → y ≠ x → v < w := by
    intro x y v w hx hy hv hw hg hxy
    obtain ⟨v', w', θ, g', H, h1, h2, h3, -, -, hz, h4, h⟩ :=
      C96_taylor hf d hr hne ha da hra ha₂ da₂ hra₂ c hc hS hix hs hs₂ hA hx hy
    obtain rfl := h1.unique hv
    obtain rfl := h2.unique hw
    obtain rfl : g' = fun _ => 0 := funext fun p => (h3 p).unique (hg p)
    have := hpd _ hz H h4 (fun p => y p - x p) (fun h0 => hxy (funext fun p => sub_eq_zero.1 (congrFun h0 p)))
    simp only [zero_mul, Finset.sum_const_zero] at h
    linarith
  exact ⟨key hx hy hv hw hg hxy, fun h => lt_asymm (key hx hy hv hw hg hxy) (key hy hx hw hv h hxy.symm)⟩

/-- At a setting with the smallest value of all nearby, the adjoints vanish and the second adjoints form a
positive semidefinite matrix. -/
theorem C96_necessary (hO : IsOpen A) {x g : S → ℝ} {H : S → S → ℝ} {v : ℝ} (hx : x ∈ A)
    (hv : HasEntry d (setEntries c S x) ix v) (hg : ∀ p, HasEntry (da p) (setEntries c S x) (ix ++ p.1.2) (g p))
    (hH : ∀ p q, HasEntry (da₂ p q) (setEntries c S x) (ix ++ p.1.2 ++ q.1.2) (H p q))
    (hmin : ∀ y ∈ A, ∀ w, HasEntry d (setEntries c S y) ix w → v ≤ w) :
    (∀ p, g p = 0) ∧ ∀ u : S → ℝ, 0 ≤ ∑ p, ∑ q, H p q * u p * u q := by
  have hD := fun x hx => c96_data hf d hr hne ha da hra ha₂ da₂ hra₂ c hc hS hix x (hs x hx) (hs₂ x hx)
  have hl : ∀ (u : S → ℝ), _ := fun u => c96_line hf d hr hne ha da hra ha₂ da₂ hra₂ c hc hS hix hs hs₂
    (x := x) (u := u) (s := 0) (by simpa using hx)
  have hloc : ∀ u : S → ℝ, IsLocalMin (fun s : ℝ => alongAll d c S ix fun p => x p + s * u p) 0 := by
    intro u
    have hcont : Filter.Tendsto (fun (s : ℝ) (p : S) => x p + s * u p) (nhds 0) (nhds x) := by
      have : Continuous fun (s : ℝ) (p : S) => x p + s * u p := by fun_prop
      simpa using this.tendsto 0
    filter_upwards [hcont.eventually (hO.mem_nhds hx)] with s hs
    have := hmin _ hs _ (hD _ hs).1
    simpa [c96_along hv] using this
  have eg : ∀ p, alongAll (da p) c S (ix ++ p.1.2) x = g p := fun p => c96_along (hg p)
  have eH : ∀ p q, alongAll (da₂ p q) c S (ix ++ p.1.2 ++ q.1.2) x = H p q := fun p q => c96_along (hH p q)
  have h0 : ∀ u : S → ℝ, ∑ p, g p * u p = 0 := fun u => by
    have := (hloc u).hasDerivAt_eq_zero (hl u).1
    simpa [eg] using this
  refine ⟨fun p => by simpa [Pi.single_apply] using h0 (Pi.single p 1), fun u => ?_⟩
  by_contra hneg
  push Not at hneg
  obtain ⟨hd1, hd2⟩ := hl u
  have hcont : Filter.Tendsto (fun (s : ℝ) (p : S) => x p + s * u p) (nhds 0) (nhds x) := by
    have : Continuous fun (s : ℝ) (p : S) => x p + s * u p := by fun_prop
    simpa using this.tendsto 0
  have hder : deriv (fun s : ℝ => alongAll d c S ix fun p => x p + s * u p) =ᶠ[nhds 0]
      fun s => ∑ p, alongAll (da p) c S (ix ++ p.1.2) (fun p => x p + s * u p) * u p := by
    filter_upwards [hcont.eventually (hO.mem_nhds hx)] with s h
    exact (c96_line hf d hr hne ha da hra ha₂ da₂ hra₂ c hc hS hix hs hs₂ h).1.deriv
  have hd2' := hd2.congr_of_eventuallyEq hder
  have e2 : (∑ p, ∑ q, alongAll (da₂ p q) c S (ix ++ p.1.2 ++ q.1.2) (fun p => x p + 0 * u p) * u p * u q) =
      ∑ p, ∑ q, H p q * u p * u q := by
    simp only [zero_mul, add_zero]
    exact Finset.sum_congr rfl fun p _ => Finset.sum_congr rfl fun q _ => by rw [← eH]
  rw [e2] at hd2'
  have hmax := isLocalMax_of_deriv_deriv_neg (x₀ := (0 : ℝ)) (by rw [hd2'.deriv]; exact hneg)
    ((hloc u).deriv_eq_zero) hd1.continuousAt
  -- then the function is constant nearby
  have hconst : (fun s : ℝ => alongAll d c S ix fun p => x p + s * u p) =ᶠ[nhds 0]
      fun _ => alongAll d c S ix fun p => x p + 0 * u p := by
    filter_upwards [hloc u, hmax] with s h1 h2
    exact le_antisymm h2 h1
  have hd0 : deriv (fun s : ℝ => alongAll d c S ix fun p => x p + s * u p) =ᶠ[nhds 0] fun _ => 0 := by
    have := hconst.deriv
    simpa using this
  have := (hd2'.congr_of_eventuallyEq hd0.symm).unique (hasDerivAt_const (0 : ℝ) (0 : ℝ))
  linarith

/-- Gradient descent: if the second adjoints are bounded by `L` (as a quadratic form), then a step against the
adjoints changes the value by at most `-η (1 - L η / 2)` times the squared length of the gradient. -/
theorem C96_descent (hA : Convex ℝ A) {L : ℝ}
    (hL : ∀ z ∈ A, ∀ H : S → S → ℝ, (∀ p q, HasEntry (da₂ p q) (setEntries c S z) (ix ++ p.1.2 ++ q.1.2) (H p q)) →
      ∀ u : S → ℝ, ∑ p, ∑ q, H p q * u p * u q ≤ L * ∑ p, u p ^ 2)
    {x g : S → ℝ} {v w η : ℝ} (hx : x ∈ A) (hy : (fun p => x p - η * g p) ∈ A)
    (hv : HasEntry d (setEntries c S x) ix v) (hg : ∀ p, HasEntry (da p) (setEntries c S x) (ix ++ p.1.2) (g p))
    (hw : HasEntry d (setEntries c S fun p => x p - η * g p) ix w) :
    w ≤ v - η * (1 - L * η / 2) * ∑ p, g p ^ 2 := by
  obtain ⟨v', w', θ, g', H, h1, h2, h3, -, -, hz, h4, h⟩ :=
    C96_taylor hf d hr hne ha da hra ha₂ da₂ hra₂ c hc hS hix hs hs₂ hA hx hy
  obtain rfl := h1.unique hv
  obtain rfl := h2.unique hw
  obtain rfl : g' = g := funext fun p => (h3 p).unique (hg p)
  have h5 := hL _ hz H h4 fun p => (x p - η * g' p) - x p
  have e1 : ∑ p, g' p * (x p - η * g' p - x p) = -η * ∑ p, g' p ^ 2 := by
    rw [Finset.mul_sum]
    exact Finset.sum_congr rfl fun p _ => by ring
  have e2 : ∑ p, (x p - η * g' p - x p) ^ 2 = η ^ 2 * ∑ p, g' p ^ 2 := by
    rw [Finset.mul_sum]
    exact Finset.sum_congr rfl fun p _ => by ring
  rw [e1] at h
  rw [e2] at h5
  rw [h]
  nlinarith

end

/-! ### A concrete case: `(x - y)² + x²` -/

namespace C96

/-- All scalars. -/
abbrev Ty : Id → BTy := fun _ => .scalar

/-- `x - y` and `(x - y)² + x²`. -/
def dif : Node ℝ := .sub (.var 0) (.var 1)

@[inherit_doc dif]
def exp : Node ℝ := .add (.un .square dif) (.un .square (.var 0))

/-- Their adjoints. -/
def dif' (t : Id) : Node ℝ := .sub (.varAdj 0 t) (.varAdj 1 t)

@[inherit_doc dif']
def exp' (t : Id) : Node ℝ := .add (.mul (.un .double dif) (dif' t)) (.mul (.un .double (.var 0)) (.varAdj 0 t))

@[inherit_doc dif']
def dif'' (t u : Id) : Node ℝ := .sub (.constAdj (.varAdj 0 t) u) (.constAdj (.varAdj 1 t) u)

@[inherit_doc dif']
def exp'' (t u : Id) : Node ℝ := .add
  (.add (.mul (.un .double (dif' u)) (dif' t)) (.mul (dif'' t u) (.un .double dif)))
  (.add (.mul (.un .double (.varAdj 0 u)) (.varAdj 0 t)) (.mul (.constAdj (.varAdj 0 t) u) (.un .double (.var 0))))

/-- Variables and their adjoints. -/
def v (i : Id) : FnImpl Ty (.var i : Node ℝ) .scalar := .var i

@[inherit_doc v]
def v' (i t : Id) : FnImpl Ty (.varAdj i t : Node ℝ) .scalar := .varAdj i t .ss (by simp [BTy.rank])

@[inherit_doc v]
def v'' (i t u : Id) : FnImpl Ty (.constAdj (.varAdj i t) u : Node ℝ) .scalar := .constAdj (v' i t) u .ss

/-- The value. -/
def val : FnImpl Ty exp .scalar := .add (.un .square (.sub (v 0) (v 1) .ss)) (.un .square (v 0)) .ss

/-- The adjoints. -/
def grad (t : Id) : FnImpl Ty (exp' t) .scalar :=
  .add (.mul (.un .double (.sub (v 0) (v 1) .ss)) (.sub (v' 0 t) (v' 1 t) .ss) .ss)
    (.mul (.un .double (v 0)) (v' 0 t) .ss) .ss

/-- The second adjoints. -/
def hess (t u : Id) : FnImpl Ty (exp'' t u) .scalar :=
  .add
    (.add (.mul (.un .double (.sub (v' 0 u) (v' 1 u) .ss)) (.sub (v' 0 t) (v' 1 t) .ss) .ss)
      (.mul (.sub (v'' 0 t u) (v'' 1 t u) .ss) (.un .double (.sub (v 0) (v 1) .ss)) .ss) .ss)
    (.add (.mul (.un .double (v' 0 u)) (v' 0 t) .ss) (.mul (v'' 0 t u) (.un .double (v 0)) .ss) .ss) .ss

/-- Both variables. -/
def S₂ : Finset (Id × Idx) := {(0, []), (1, [])}

/-- The positions of `x` and `y`. -/
def px : S₂ := ⟨(0, []), by simp [S₂]⟩

@[inherit_doc px]
def py : S₂ := ⟨(1, []), by simp [S₂]⟩

theorem cases₂ (p : S₂) : p = px ∨ p = py := by
  obtain ⟨p, hp⟩ := p
  rcases (by simpa [S₂] using hp : p = (0, []) ∨ p = (1, [])) with rfl | rfl
  · exact .inl rfl
  · exact .inr rfl

theorem sum₂ (f : S₂ → ℝ) : ∑ p, f p = f px + f py := by
  have : (Finset.univ : Finset S₂) = {px, py} := by
    ext p
    simpa using cases₂ p
  rw [this, Finset.sum_pair (fun h => by simpa [px, py] using congrArg (fun p => p.1.1) h)]

/-- A context. -/
abbrev ctx : Ctx ℝ Ty := fun _ => some (0 : ℝ)

theorem free : CacheFree exp := by simp [CacheFree, exp, dif]
theorem free' (t : Id) : CacheFree (exp' t) := by simp [CacheFree, exp', dif, dif']
theorem free'' (t u : Id) : CacheFree (exp'' t u) := by simp [CacheFree, exp'', dif, dif', dif'']

theorem hess_eq (x : S₂ → ℝ) (p q : S₂) {a : ℝ}
    (h : HasEntry (hess p.1.1 q.1.1) (setEntries ctx S₂ x) ([] ++ p.1.2 ++ q.1.2) a) :
    a = (if p = px ∧ q = px then 4 else if p = py ∧ q = py then 2 else -2) := by
  obtain ⟨w, hw, ha⟩ := h
  have h1 := den_of_eval (Γ := Ty) (free'' p.1.1 q.1.1) _ (by simp [FnImpl.Regular, hess, v, v', v''])
    (fun l r h => by simp [exp'', dif, dif', dif''] at h) hw
  have h2 := h1.2 [] .nil
  have hb : ∀ ds, bIdx ds [] = [] := fun ds => by simp [bIdx]
  have hi : ([] ++ p.1.2 ++ q.1.2 : Idx) = [] := by
    rcases cases₂ p with rfl | rfl <;> rcases cases₂ q with rfl | rfl <;> rfl
  rw [hi, h2] at ha
  have hxy : px ≠ py := fun h => by simpa [px, py] using congrArg (fun p => p.1.1) h
  have h01 : px.1.1 = 0 ∧ py.1.1 = 1 := ⟨rfl, rfl⟩
  rw [← Option.some.inj ha]
  rcases cases₂ p with rfl | rfl <;> rcases cases₂ q with rfl | rfl <;>
    simp [h01.1, h01.2, hxy, hxy.symm, exp'', dif, dif', dif'', den, Tensor.zip, Tensor.map, Tensor.delta, Tensor.const, hb,
      UnOp.apply] <;> norm_num

/-- The minimum of `(x - y)² + x²` is at `x = y = 0`, where the adjoints vanish, and nowhere else. -/
example (y : S₂ → ℝ) (hy : y ≠ 0) {v w : ℝ} (hv : HasEntry val (setEntries ctx S₂ 0) [] v)
    (hw : HasEntry val (setEntries ctx S₂ y) [] w) : v < w := by
  refine (C96_unique (Γ := Ty) (S := S₂) (A := Set.univ) (e := exp) (adj := exp') (σ := fun _ => .scalar) (adj₂ := exp'')
    (σ₂ := fun _ _ => .scalar) free val (by simp [FnImpl.Regular, val, C96.v]) ⟨(0, []), by simp [S₂]⟩ (fun _ _ => rfl)
    (fun p => grad p.1.1) (fun p => by simp [FnImpl.Regular, grad, C96.v, v']) (fun _ _ _ _ => rfl)
    (fun p q => hess p.1.1 q.1.1) (fun p q => by simp [FnImpl.Regular, hess, C96.v, v', v'']) ctx (fun _ _ => by simp [ctx])
    (fun p hp => ⟨(0 : ℝ), rfl, by
      rcases cases₂ ⟨p, hp⟩ with h | h <;> rw [show p = _ from congrArg Subtype.val h] <;> exact .nil⟩)
    (ix := []) (fun _ _ => .nil) (fun x _ p _ => by simp [Smooth, UnOp.SmoothAt, exp, dif])
    (fun x _ p _ q _ => by simp [Smooth, UnOp.SmoothAt, exp', dif, dif']) convex_univ ?_ (Set.mem_univ _)
    (Set.mem_univ _) hv hw ?_ hy).1
  · intro z _ H hH u hu
    have h := fun p q => hess_eq z p q (hH p q)
    have hxy : px ≠ py := fun h => by simpa [px, py] using congrArg (fun p => p.1.1) h
    simp only [sum₂, h]
    simp [hxy, hxy.symm]
    have : u px ≠ 0 ∨ u py ≠ 0 := by
      by_contra h0
      push Not at h0
      refine hu (funext fun p => ?_)
      rcases cases₂ p with rfl | rfl
      · exact h0.1
      · exact h0.2
    rcases this with h | h
    · nlinarith [sq_nonneg (u px - u py), sq_pos_of_ne_zero h]
    · nlinarith [sq_nonneg (2 * u px - u py), sq_pos_of_ne_zero h]
  · intro p
    obtain ⟨-, w, hw⟩ := eval_total (t := p.1.1) (e := exp) (e' := exp' p.1.1) rfl free val (grad p.1.1)
      (by simp [FnImpl.Regular, val, C96.v]) (by simp [FnImpl.Regular, grad, C96.v, v']) (setEntries ctx S₂ 0)
      (fun _ _ => by simp [setEntries]) (by simp [setEntries])
    have h1 := (den_of_eval (Γ := Ty) (free' p.1.1) _ (by simp [FnImpl.Regular, grad, C96.v, v'])
      (fun l r h => by simp [exp', dif, dif'] at h) hw).2 [] .nil
    have hb : ∀ ds, bIdx ds [] = [] := fun ds => by simp [bIdx]
    have hi : ([] ++ p.1.2 : Idx) = [] := by rcases cases₂ p with rfl | rfl <;> rfl
    have h0 : (envOf (setEntries ctx S₂ 0) 0).val [] = 0 ∧ (envOf (setEntries ctx S₂ 0) 1).val [] = 0 := ⟨rfl, rfl⟩
    refine ⟨w, hw, ?_⟩
    rw [hi, h1]
    simp [exp', dif, dif', den, Tensor.zip, Tensor.map, Tensor.delta, hb, UnOp.apply, h0.1, h0.2]

/-- One step of gradient descent from anywhere, at learning rate one sixth. -/
example (x g : S₂ → ℝ) {v w : ℝ} (hv : HasEntry val (setEntries ctx S₂ x) [] v)
    (hg : ∀ p, HasEntry (grad p.1.1) (setEntries ctx S₂ x) ([] ++ p.1.2) (g p))
    (hw : HasEntry val (setEntries ctx S₂ fun p => x p - 1 / 6 * g p) [] w) :
    w ≤ v - 1 / 6 * (1 - 6 * (1 / 6) / 2) * ∑ p, g p ^ 2 := by
  refine C96_descent (Γ := Ty) (S := S₂) (A := Set.univ) (e := exp) (adj := exp') (σ := fun _ => .scalar) (adj₂ := exp'')
    (σ₂ := fun _ _ => .scalar) free val (by simp [FnImpl.Regular, val, C96.v]) ⟨(0, []), by simp [S₂]⟩ (fun _ _ => rfl)
    (fun p => grad p.1.1) (fun p => by simp [FnImpl.Regular, grad, C96.v, v']) (fun _ _ _ _ => rfl)
    (fun p q => hess p.1.1 q.1.1) (fun p q => by simp [FnImpl.Regular, hess, C96.v, v', v'']) ctx (fun _ _ => by simp [ctx])
    (fun p hp => ⟨(0 : ℝ), rfl, by
      rcases cases₂ ⟨p, hp⟩ with h | h <;> rw [show p = _ from congrArg Subtype.val h] <;> exact .nil⟩)
    (ix := []) (fun _ _ => .nil) (fun x _ p _ => by simp [Smooth, UnOp.SmoothAt, exp, dif])
    (fun x _ p _ q _ => by simp [Smooth, UnOp.SmoothAt, exp', dif, dif']) convex_univ ?_ (Set.mem_univ _)
    (Set.mem_univ _) hv hg hw
  intro z _ H hH u
  have h := fun p q => hess_eq z p q (hH p q)
  have hxy : px ≠ py := fun h => by simpa [px, py] using congrArg (fun p => p.1.1) h
  simp only [sum₂, h]
  simp [hxy, hxy.symm]
  nlinarith [sq_nonneg (u px + u py)]

/-- The value around any setting is given by the adjoints there and the second adjoints, which are the same everywhere. -/
example (x y : S₂ → ℝ) : ∃ (v w : ℝ) (g : S₂ → ℝ), HasEntry val (setEntries ctx S₂ x) [] v ∧
    HasEntry val (setEntries ctx S₂ y) [] w ∧ (∀ p, HasEntry (grad p.1.1) (setEntries ctx S₂ x) ([] ++ p.1.2) (g p)) ∧
    w = v + ∑ p, g p * (y p - x p) +
      (4 * (y px - x px) ^ 2 - 4 * (y px - x px) * (y py - x py) + 2 * (y py - x py) ^ 2) / 2 := by
  obtain ⟨v, w, θ, g, H, hv, hw, hg, -, -, -, hH, h⟩ := C96_taylor (Γ := Ty) (S := S₂) (A := Set.univ) (e := exp) (adj := exp') (σ := fun _ => .scalar) (adj₂ := exp'')
    (σ₂ := fun _ _ => .scalar) free val (by simp [FnImpl.Regular, val, C96.v]) ⟨(0, []), by simp [S₂]⟩ (fun _ _ => rfl)
    (fun p => grad p.1.1) (fun p => by simp [FnImpl.Regular, grad, C96.v, v']) (fun _ _ _ _ => rfl)
    (fun p q => hess p.1.1 q.1.1) (fun p q => by simp [FnImpl.Regular, hess, C96.v, v', v'']) ctx (fun _ _ => by simp [ctx])
    (fun p hp => ⟨(0 : ℝ), rfl, by
      rcases cases₂ ⟨p, hp⟩ with h | h <;> rw [show p = _ from congrArg Subtype.val h] <;> exact .nil⟩)
    (ix := []) (fun _ _ => .nil) (fun x _ p _ => by simp [Smooth, UnOp.SmoothAt, exp, dif])
    (fun x _ p _ q _ => by simp [Smooth, UnOp.SmoothAt, exp', dif, dif']) convex_univ (Set.mem_univ x) (Set.mem_univ y)
  refine ⟨v, w, g, hv, hw, hg, ?_⟩
  have hh := fun p q => hess_eq _ p q (hH p q)
  have hxy : px ≠ py := fun h => by simpa [px, py] using congrArg (fun p => p.1.1) h
  rw [h]
  simp only [sum₂, hh]
  simp [hxy, hxy.symm]
  ring

/-- The value lies above its tangents. -/
example (x y g : S₂ → ℝ) {v w : ℝ} (hv : HasEntry val (setEntries ctx S₂ x) [] v)
    (hg : ∀ p, HasEntry (grad p.1.1) (setEntries ctx S₂ x) ([] ++ p.1.2) (g p))
    (hw : HasEntry val (setEntries ctx S₂ y) [] w) : v + ∑ p, g p * (y p - x p) ≤ w := by
  refine (C96_convex (Γ := Ty) (S := S₂) (A := Set.univ) (e := exp) (adj := exp') (σ := fun _ => .scalar) (adj₂ := exp'')
    (σ₂ := fun _ _ => .scalar) free val (by simp [FnImpl.Regular, val, C96.v]) ⟨(0, []), by simp [S₂]⟩ (fun _ _ => rfl)
    (fun p => grad p.1.1) (fun p => by simp [FnImpl.Regular, grad, C96.v, v']) (fun _ _ _ _ => rfl)
    (fun p q => hess p.1.1 q.1.1) (fun p q => by simp [FnImpl.Regular, hess, C96.v, v', v'']) ctx (fun _ _ => by simp [ctx])
    (fun p hp => ⟨(0 : ℝ), rfl, by
      rcases cases₂ ⟨p, hp⟩ with h | h <;> rw [show p = _ from congrArg Subtype.val h] <;> exact .nil⟩)
    (ix := []) (fun _ _ => .nil) (fun x _ p _ => by simp [Smooth, UnOp.SmoothAt, exp, dif])
    (fun x _ p _ q _ => by simp [Smooth, UnOp.SmoothAt, exp', dif, dif']) convex_univ ?_ (Set.mem_univ _) (Set.mem_univ _) hv hw hg).1
  intro z _ H hH u
  have h := fun p q => hess_eq z p q (hH p q)
  have hxy : px ≠ py := fun h => by simpa [px, py] using congrArg (fun p => p.1.1) h
  simp only [sum₂, h]
  simp [hxy, hxy.symm]
  nlinarith [sq_nonneg (u px - u py), sq_nonneg (u px)]

theorem val_eq (y : S₂ → ℝ) {w : ℝ} (h : HasEntry val (setEntries ctx S₂ y) [] w) :
    w = (y px - y py) ^ 2 + y px ^ 2 := by
  obtain ⟨b, hb, hw⟩ := h
  have h1 := (den_of_eval (Γ := Ty) free _ (by simp [FnImpl.Regular, val, C96.v])
    (fun l r h => by simp [exp, dif] at h) hb).2 [] .nil
  have hb' : ∀ ds, bIdx ds [] = [] := fun ds => by simp [bIdx]
  have h0 : (envOf (setEntries ctx S₂ y) 0).val [] = y px ∧ (envOf (setEntries ctx S₂ y) 1).val [] = y py := ⟨rfl, rfl⟩
  rw [h1] at hw
  rw [← Option.some.inj hw]
  simp [exp, dif, den, Tensor.zip, Tensor.map, hb', UnOp.apply, h0.1, h0.2]
  have hp : ∀ r : ℝ, ScalarFns.pow r 2 = r ^ 2 := fun r => Real.rpow_two r
  rw [one_add_one_eq_two, hp, hp]

/-- No value is smaller than that at zero, so that the adjoints vanish there. -/
example (g : S₂ → ℝ) {H : S₂ → S₂ → ℝ} {v : ℝ} (hv : HasEntry val (setEntries ctx S₂ 0) [] v)
    (hg : ∀ p, HasEntry (grad p.1.1) (setEntries ctx S₂ 0) ([] ++ p.1.2) (g p))
    (hH : ∀ p q, HasEntry (hess p.1.1 q.1.1) (setEntries ctx S₂ 0) ([] ++ p.1.2 ++ q.1.2) (H p q)) :
    (∀ p, g p = 0) ∧ ∀ u : S₂ → ℝ, 0 ≤ ∑ p, ∑ q, H p q * u p * u q := by
  refine C96_necessary (Γ := Ty) (S := S₂) (A := Set.univ) (e := exp) (adj := exp') (σ := fun _ => .scalar) (adj₂ := exp'')
    (σ₂ := fun _ _ => .scalar) free val (by simp [FnImpl.Regular, val, C96.v]) ⟨(0, []), by simp [S₂]⟩ (fun _ _ => rfl)
    (fun p => grad p.1.1) (fun p => by simp [FnImpl.Regular, grad, C96.v, v']) (fun _ _ _ _ => rfl)
    (fun p q => hess p.1.1 q.1.1) (fun p q => by simp [FnImpl.Regular, hess, C96.v, v', v'']) ctx (fun _ _ => by simp [ctx])
    (fun p hp => ⟨(0 : ℝ), rfl, by
      rcases cases₂ ⟨p, hp⟩ with h | h <;> rw [show p = _ from congrArg Subtype.val h] <;> exact .nil⟩)
    (ix := []) (fun _ _ => .nil) (fun x _ p _ => by simp [Smooth, UnOp.SmoothAt, exp, dif])
    (fun x _ p _ q _ => by simp [Smooth, UnOp.SmoothAt, exp', dif, dif']) isOpen_univ (Set.mem_univ _) hv hg hH fun y _ w hw => ?_
  rw [val_eq 0 hv, val_eq y hw]
  simp
  positivity

end C96

end Props

end Aegir
