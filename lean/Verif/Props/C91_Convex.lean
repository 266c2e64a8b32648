import Verif.Lemmas.Convex
import Verif.Lemmas.Examples
import Verif.Props.C63_Total
import Mathlib.Analysis.Calculus.LocalExtr.Basic
/-!
# C91: minima and maxima

C63 says that the adjoints are the gradient. Where a value is smallest the gradient vanishes, and a
program that looks for a smallest value (a least squares or maximum likelihood fit) stops when it does. The
reverse is true for convex expressions: what is affine, convex or concave by construction
(`Spec/Convex.lean`) evaluates to an affine, convex or concave function of the entries that vary, which lies
on, above or below the tangent that the adjoints give, so that an entry of the value whose adjoints are all
zero is the smallest, or largest, that there is.
-/

namespace Aegir.Props

open Aegir Aegir.Spec

variable {Γ : Id → BTy} {S : Finset (Id × Idx)} {e : Node ℝ} {τ : BTy} {adj : Id → Node ℝ}
  {σ : Id → BTy}

/-- Entries of the value of an expression that is curved by construction are curved: at a mean of two
settings of the entries `S` they are at most (if convex), at least (if concave) or equal to (if affine)
their mean. Nothing needs to be differentiable. -/
theorem C91_shape (hf : CacheFree e) (d : FnImpl Γ e τ) (hr : FnImpl.Regular d) (c : Ctx ℝ Γ)
    (hS : ∀ p ∈ S, ∃ b, c p.1 = some b ∧ InBounds (Buf.dims _ b) p.2) (hp : PowSafe (envOf c) e)
    {k : Curvature} (hk : Curved (envOf c) (fun i => ∃ K, (i, K) ∈ S) k e) {x y : S → ℝ} {a b : ℝ}
    (h0 : 0 ≤ a) (h0' : 0 ≤ b) (hab : a + b = 1) {u v w : Buf ℝ τ}
    (hu : (d.evaluate (setEntries c S x)).1 = .ok u) (hv : (d.evaluate (setEntries c S y)).1 = .ok v)
    (hw : (d.evaluate (setEntries c S fun p => a * x p + b * y p)).1 = .ok w) {ix : Idx}
    (hix : InBounds (Buf.dims τ w) ix) :
    ∃ ux vx wx, Buf.getU τ u ix = some ux ∧ Buf.getU τ v ix = some vx ∧ Buf.getU τ w ix = some wx ∧
      k.Rel wx (a * ux + b * vx) := by
  have hT : ∀ p ∈ S, ∃ K, (p.1, K) ∈ S := fun p h => ⟨p.2, h⟩
  have key : ∀ {z : S → ℝ} {u : Buf ℝ τ}, (d.evaluate (setEntries c S z)).1 = .ok u →
      Buf.getU τ u ix = some ((den (perturbAll (envOf c) S z) e).val ix) := by
    intro z u hu
    have hd := den_of_eval hf d hr
      (by rw [envOf_setEntries c hS]; exact powSafe_perturbAll hT hk hp z) hu
    rw [envOf_setEntries c hS] at hd
    refine hd.2 ix ?_
    rw [dims_of_eval hf d hr hw, envOf_setEntries c hS] at hix
    rwa [den_dims_congr (ρ := perturbAll (envOf c) S z)
      (ρ' := perturbAll (envOf c) S fun p => a * x p + b * y p) (fun _ => rfl) e]
  refine ⟨_, _, _, key hu, key hv, key hw, ?_⟩
  have hb := curved_den (S := S) hT hk ix
  have hxy : a • x + b • y = fun p => a * x p + b * y p := by
    funext p
    simp
  cases k with
  | affine =>
    have := hb.affine_eq x y h0 h0' hab
    rwa [hxy] at this
  | convex =>
    have := hb.2 (Set.mem_univ x) (Set.mem_univ y) h0 h0' hab
    rwa [hxy] at this
  | concave =>
    have := hb.2 (Set.mem_univ x) (Set.mem_univ y) h0 h0' hab
    rwa [hxy] at this

section
variable (hf : CacheFree e) (d : FnImpl Γ e τ) (hr : FnImpl.Regular d) (hne : S.Nonempty)
    (ha : ∀ p ∈ S, e.adjoint p.1 = some (adj p.1)) (da : ∀ p : S, FnImpl Γ (adj p.1.1) (σ p.1.1))
    (hra : ∀ p, FnImpl.Regular (da p)) (c : Ctx ℝ Γ) (hc : ∀ i, NeedsId e i → c i ≠ none)
    (hS : ∀ p ∈ S, ∃ b, c p.1 = some b ∧ InBounds (Buf.dims _ b) p.2)
    (hs : ∀ p ∈ S, Smooth (envOf c) p.1 e) {v : Buf ℝ τ} (hv : (d.evaluate c).1 = .ok v) {ix : Idx}
    (hix : InBounds (Buf.dims τ v) ix) {g : S → ℝ}
    (hg : ∀ p : S, ∃ a, ((da p).evaluate c).1 = .ok a ∧ Buf.getU _ a (ix ++ p.1.2) = some (g p))

include hf hr hne ha hra hc hS hs hv hix hg

/-- Convex expressions lie above, concave ones below and affine ones on the tangent that the adjoints give,
however far the entries move. -/
theorem C91_tangent {k : Curvature} (hk : Curved (envOf c) (fun i => ∃ K, (i, K) ∈ S) k e) (x : S → ℝ) :
    ∃ w y z, (d.evaluate (setEntries c S x)).1 = .ok w ∧ Buf.getU τ w ix = some y ∧
      Buf.getU τ v ix = some z ∧ k.Rel (z + ∑ p, g p * (x p - entries c S p)) y := by
  obtain ⟨v', hv', hw, h⟩ := C63_total hf d hr hne ha da hra c hc hS hs
  rw [hv] at hv'
  cases hv'
  obtain ⟨hx, -⟩ := h ix hix
  obtain ⟨g', hg', hD⟩ := C63_chain hf d hr hne ha da hra c hc hS hs hv hix (s := 0)
    (γ := fun t p => entries c S p + t * (x p - entries c S p)) (γ' := fun p => x p - entries c S p)
    (fun p => by
      have := ((hasDerivAt_id (0 : ℝ)).mul_const (x p - entries c S p)).const_add (entries c S p)
      simpa using this) (by funext p; simp)
  have hgg : g' = g := by
    funext p
    obtain ⟨a, h1, h2⟩ := hg p
    obtain ⟨a', h1', h2'⟩ := hg' p
    rw [h1] at h1'
    cases h1'
    rw [h2] at h2'
    exact (Option.some.inj h2').symm
  subst hgg
  have hpow : PowSafe (envOf c) e := by
    obtain ⟨p, hp⟩ := hne
    exact powSafe_of_smooth (hs p hp)
  -- the values along the line
  have val : ∀ x, ∃ w y, (d.evaluate (setEntries c S x)).1 = .ok w ∧ Buf.getU τ w ix = some y ∧
      alongAll d c S ix x = y := fun x => by
    obtain ⟨w, hwx, hwd⟩ := hw x
    obtain ⟨y, hy⟩ := Buf.getU_some _ w ix (hwd ▸ hix)
    exact ⟨w, y, hwx, hy, by simp only [alongAll, hwx, hy, Option.getD_some]⟩
  set F : ℝ → ℝ := fun t => alongAll d c S ix fun p => entries c S p + t * (x p - entries c S p) with hF
  have mean : ∀ s t a b : ℝ, 0 ≤ a → 0 ≤ b → a + b = 1 → k.Rel (F (a * s + b * t)) (a * F s + b * F t) := by
    intro s t a b h1 h2 h3
    obtain ⟨u₁, y₁, hu₁, hy₁, e₁⟩ := val fun p => entries c S p + s * (x p - entries c S p)
    obtain ⟨u₂, y₂, hu₂, hy₂, e₂⟩ := val fun p => entries c S p + t * (x p - entries c S p)
    obtain ⟨u₃, y₃, hu₃, hy₃, e₃⟩ := val fun p => entries c S p + (a * s + b * t) * (x p - entries c S p)
    have hmix : (fun p => entries c S p + (a * s + b * t) * (x p - entries c S p)) =
        fun p => a * (entries c S p + s * (x p - entries c S p)) +
          b * (entries c S p + t * (x p - entries c S p)) := by
      funext p
      have : b = 1 - a := by linarith
      subst this
      ring
    obtain ⟨q₁, q₂, q₃, r₁, r₂, r₃, hrel⟩ := C91_shape hf d hr c hS hpow hk h1 h2 h3 hu₁ hu₂
      (by rw [← hmix]; exact hu₃) (ix := ix) (by
        obtain ⟨w', hw', hwd'⟩ := hw fun p => entries c S p + (a * s + b * t) * (x p - entries c S p)
        rw [hu₃] at hw'
        cases hw'
        rw [hwd']
        exact hix)
    rw [hy₁] at r₁
    rw [hy₂] at r₂
    rw [hy₃] at r₃
    cases r₁
    cases r₂
    cases r₃
    simp only [hF, e₁, e₂, e₃]
    exact hrel
  obtain ⟨w, y, hwx, hy, hyx⟩ := val x
  refine ⟨w, y, _, hwx, hy, hx, ?_⟩
  have F0 : F 0 = alongAll d c S ix (entries c S) := by simp [hF]
  have F1 : F 1 = y := by rw [← hyx]; simp [hF]
  rw [← F0, ← F1]
  have conv : (∀ s t a b : ℝ, 0 ≤ a → 0 ≤ b → a + b = 1 → F (a * s + b * t) ≤ a * F s + b * F t) →
      F 0 + ∑ p, g' p * (x p - entries c S p) ≤ F 1 := fun h => by
    have hc : ConvexOn ℝ Set.univ F :=
      ⟨convex_univ, fun s _ t _ a b h1 h2 h3 => by simpa using h s t a b h1 h2 h3⟩
    have := hc.le_slope_of_hasDerivAt (Set.mem_univ 0) (Set.mem_univ 1) one_pos hD
    rw [slope_def_field] at this
    linarith
  have conc : (∀ s t a b : ℝ, 0 ≤ a → 0 ≤ b → a + b = 1 → a * F s + b * F t ≤ F (a * s + b * t)) →
      F 1 ≤ F 0 + ∑ p, g' p * (x p - entries c S p) := fun h => by
    have hc : ConvexOn ℝ Set.univ fun t => -F t :=
      ⟨convex_univ, fun s _ t _ a b h1 h2 h3 => by
        have := h s t a b h1 h2 h3
        simp only [smul_eq_mul]
        linarith⟩
    have := hc.le_slope_of_hasDerivAt (Set.mem_univ 0) (Set.mem_univ 1) one_pos hD.neg
    rw [slope_def_field] at this
    linarith
  cases k with
  | affine =>
    exact le_antisymm (conv fun s t a b h1 h2 h3 => (mean s t a b h1 h2 h3).le)
      (conc fun s t a b h1 h2 h3 => (mean s t a b h1 h2 h3).ge)
  | convex => exact conv mean
  | concave => exact conc mean

/-- A convex value whose adjoints are all zero is the smallest that there is: whatever the entries are set
to, evaluation gives no less. -/
theorem C91_minimum (hk : Curved (envOf c) (fun i => ∃ K, (i, K) ∈ S) .convex e) (h0 : ∀ p, g p = 0)
    (x : S → ℝ) : ∃ w y z, (d.evaluate (setEntries c S x)).1 = .ok w ∧ Buf.getU τ w ix = some y ∧
      Buf.getU τ v ix = some z ∧ z ≤ y := by
  obtain ⟨w, y, z, h1, h2, h3, h4⟩ := C91_tangent hf d hr hne ha da hra c hc hS hs hv hix hg hk x
  exact ⟨w, y, z, h1, h2, h3, by simpa [Curvature.Rel, h0] using h4⟩

/-- A concave value whose adjoints are all zero is the largest that there is. -/
theorem C91_maximum (hk : Curved (envOf c) (fun i => ∃ K, (i, K) ∈ S) .concave e) (h0 : ∀ p, g p = 0)
    (x : S → ℝ) : ∃ w y z, (d.evaluate (setEntries c S x)).1 = .ok w ∧ Buf.getU τ w ix = some y ∧
      Buf.getU τ v ix = some z ∧ y ≤ z := by
  obtain ⟨w, y, z, h1, h2, h3, h4⟩ := C91_tangent hf d hr hne ha da hra c hc hS hs hv hix hg hk x
  exact ⟨w, y, z, h1, h2, h3, by simpa [Curvature.Rel, h0] using h4⟩

/-- No convexity needed: if no small change of the entries makes the value smaller, or none makes it
larger, all its adjoints are zero. -/
theorem C91_stationary {ε : ℝ} (hε : 0 < ε)
    (hm : (∀ x : S → ℝ, (∀ p, |x p - entries c S p| < ε) → ∀ w y z,
        (d.evaluate (setEntries c S x)).1 = .ok w → Buf.getU τ w ix = some y → Buf.getU τ v ix = some z →
        z ≤ y) ∨
      ∀ x : S → ℝ, (∀ p, |x p - entries c S p| < ε) → ∀ w y z,
        (d.evaluate (setEntries c S x)).1 = .ok w → Buf.getU τ w ix = some y → Buf.getU τ v ix = some z →
        y ≤ z) (p : S) : g p = 0 := by
  obtain ⟨v', hv', hw, h⟩ := C63_total hf d hr hne ha da hra c hc hS hs
  rw [hv] at hv'
  cases hv'
  obtain ⟨hx, g', hg', hD⟩ := h ix hix
  have hgg : g' = g := by
    funext p
    obtain ⟨a, h1, h2⟩ := hg p
    obtain ⟨a', h1', h2'⟩ := hg' p
    rw [h1] at h1'
    cases h1'
    rw [h2] at h2'
    exact (Option.some.inj h2').symm
  subst hgg
  have val : ∀ x, ∃ w y, (d.evaluate (setEntries c S x)).1 = .ok w ∧ Buf.getU τ w ix = some y ∧
      alongAll d c S ix x = y := fun x => by
    obtain ⟨w, hwx, hwd⟩ := hw x
    obtain ⟨y, hy⟩ := Buf.getU_some _ w ix (hwd ▸ hix)
    exact ⟨w, y, hwx, hy, by simp only [alongAll, hwx, hy, Option.getD_some]⟩
  have near : ∀ᶠ x in nhds (entries c S), ∀ p, |x p - entries c S p| < ε := by
    refine Metric.eventually_nhds_iff.2 ⟨ε, hε, fun {x} hx p => ?_⟩
    rw [← Real.dist_eq]
    exact lt_of_le_of_lt (dist_le_pi_dist x (entries c S) p) hx
  have hz : linear g' = 0 := by
    rcases hm with hm | hm
    · refine IsLocalMin.hasFDerivAt_eq_zero ?_ hD
      filter_upwards [near] with x hxe
      obtain ⟨w, y, h1, h2, h3⟩ := val x
      rw [h3]
      exact hm x hxe w y _ h1 h2 hx
    · refine IsLocalMax.hasFDerivAt_eq_zero ?_ hD
      filter_upwards [near] with x hxe
      obtain ⟨w, y, h1, h2, h3⟩ := val x
      rw [h3]
      exact hm x hxe w y _ h1 h2 hx
  have := congrArg (fun L => L fun q => if q = p then 1 else 0) hz
  simpa [linear_apply] using this

end

/-! ### A concrete case: the squared error `(⟨w, x⟩ + b - y)²` of a linear model with bias (C63) -/

/-- Only the variable itself occurs in a variable. -/
theorem c91_var {i j : Id} (h : Occurs (F := ℝ) (.var i) j) : i = j := by
  cases h with
  | var => rfl
  | child hc => simp [children] at hc

/-- It is convex in the weights and the bias. -/
theorem c91_curved (w x : NArr ℝ [2]) (y b : ℝ) :
    Curved (envOf (c63C 2 w x y b)) (fun i => ∃ K, (i, K) ∈ c63S) .convex (.un .square c63R) := by
  have hT : ∀ i, (∃ K, (i, K) ∈ c63S) → i = 0 ∨ i = 3 := fun i ⟨K, h⟩ => by
    simp only [c63S, Finset.mem_insert, Finset.mem_singleton, Prod.mk.injEq] at h
    tauto
  refine .cup (by simp) (.sub (.add (.contractR (.var 0) (fun i hi ho => ?_) (.inl rfl)) (.var 3))
    (.fixed fun i hi ho => ?_))
  · have := c91_var ho
    rcases hT i hi with rfl | rfl <;> exact absurd this (by decide)
  · have := c91_var ho
    rcases hT i hi with rfl | rfl <;> exact absurd this (by decide)

/-- If the adjoints of the loss are zero, no other weights and bias have a smaller loss; and adjoints of a
smallest loss are zero. -/
example (w x : NArr ℝ [2]) (y b : ℝ) (l : ℝ) (g : c63S → ℝ)
    (hl : ((FnImpl.un .square (c63RD 2)).evaluate (c63C 2 w x y b)).1 = .ok l)
    (hg : ∀ p : c63S, ∃ a, ((c63DA 2 p.1.1).evaluate (c63C 2 w x y b)).1 = .ok a ∧
      Buf.getU _ a p.1.2 = some (g p)) :
    (∀ p, g p = 0) ↔ ∀ z : c63S → ℝ, ∃ l' : ℝ,
      ((FnImpl.un .square (c63RD 2)).evaluate (setEntries (c63C 2 w x y b) c63S z)).1 = .ok l' ∧ l ≤ l' := by
  have hS : ∀ p ∈ c63S, p = (0, [0]) ∨ p = (0, [1]) ∨ p = (3, []) := fun p hp => by
    simpa [c63S] using hp
  have hf : CacheFree (.un .square c63R) := by simp [CacheFree, c63R]
  have hr : FnImpl.Regular (.un .square (c63RD 2)) :=
    ⟨⟨⟨trivial, trivial, by simp [c63Ty], by simp [c63Ty]⟩, trivial⟩, trivial, by simp [c63Ty]⟩
  have hra : ∀ p : c63S, FnImpl.Regular (c63DA 2 p.1.1) := fun p => by
    rcases hS p.1 p.2 with h | h | h <;> rw [h] <;> simp [FnImpl.Regular, c63DA, c63RD, c63Ty]
  have hb : ∀ p ∈ c63S, ∃ u, c63C 2 w x y b p.1 = some u ∧ InBounds (Buf.dims _ u) p.2 := fun p hp => by
    rcases hS p hp with rfl | rfl | rfl
    · exact ⟨w, rfl, .cons (by simp) .nil⟩
    · exact ⟨w, rfl, .cons (by simp) .nil⟩
    · exact ⟨b, rfl, .nil⟩
  have hs : ∀ p ∈ c63S, Smooth (envOf (c63C 2 w x y b)) p.1 (.un .square c63R) := fun p hp => by
    refine ⟨⟨⟨⟨trivial, trivial, ?_⟩, trivial⟩, trivial⟩, fun _ _ => trivial⟩
    rcases hS p hp with rfl | rfl | rfl
    · exact .inr (.inr (.inr ⟨rfl, ⟨2, rfl, rfl, rfl⟩, .var 0⟩))
    · exact .inr (.inr (.inr ⟨rfl, ⟨2, rfl, rfl, rfl⟩, .var 0⟩))
    · exact .inl rfl
  constructor
  · intro h0 z
    obtain ⟨w', y', z', h1, h2, h3, h4⟩ := C91_minimum (Γ := c63Ty 2) (e := .un .square c63R) (S := c63S)
      (adj := c63A) (σ := c63Ty 2) hf (.un .square (c63RD 2)) hr ⟨(3, []), by simp [c63S]⟩ (fun p _ => rfl)
      (fun p => c63DA 2 p.1.1) hra (c63C 2 w x y b) (fun i _ => by unfold c63C; split <;> simp) hb hs hl
      (ix := []) .nil (g := g) hg (c91_curved w x y b) h0 z
    cases h2
    cases h3
    exact ⟨_, h1, h4⟩
  · intro hm p
    refine C91_stationary (Γ := c63Ty 2) (e := .un .square c63R) (S := c63S)
      (adj := c63A) (σ := c63Ty 2) hf (.un .square (c63RD 2)) hr ⟨(3, []), by simp [c63S]⟩ (fun p _ => rfl)
      (fun p => c63DA 2 p.1.1) hra (c63C 2 w x y b) (fun i _ => by unfold c63C; split <;> simp) hb hs hl
      (ix := []) .nil (g := g) hg one_pos (.inl fun z _ w' y' z' h1 h2 h3 => ?_) p
    obtain ⟨l', hl', hle⟩ := hm z
    rw [hl'] at h1
    cases h1
    cases h2
    cases h3
    exact hle

/-! ### The programs in `aegir/examples` -/

open Aegir.Examples

/-- The loss of `linear.rs` is convex in the weights, for every sample. -/
theorem c91_sse (N : Nat) (s : Data ℝ N) {T : Id → Prop} (hT : ∀ i, T i → i = W) :
    Curved (envOf s.ctx) T .convex sse :=
  .cup (by simp) (.sub (.contractL (fun i hi ho => by cases hT i hi; exact absurd (c91_var ho) (by decide)) (.inl rfl)
    (.var W)) (.fixed fun i hi ho => by cases hT i hi; exact absurd (c91_var ho) (by decide)))

/-- The log-likelihood of `logistic.rs` is concave in the weights, for every sample with label zero or
one. -/
theorem c91_likelihood (N : Nat) (s : Data ℝ N) (h : s.y = 0 ∨ s.y = 1) {T : Id → Prop}
    (hT : ∀ i, T i → i = W) : Curved (envOf s.ctx) T .concave likelihood :=
  .likelihood (.contractL (fun i hi ho => by cases hT i hi; exact absurd (c91_var ho) (by decide)) (.inl rfl)
    (.var W)) (fun i hi ho => by cases hT i hi; exact absurd (c91_var ho) (by decide)) fun ix => by
      rw [den, env_Y]
      by_cases hi : ix = [] <;> simp [Buf.getU, hi, h]

/-- The weights. -/
def c91W (N : Nat) : Finset (Id × Idx) := Finset.univ.image fun k : Fin N => (W, [k.1])

/-- The log-likelihood of `logistic.rs` at any weights is at most what the evaluated gradient predicts. -/
example (N : Nat) (hN : 0 < N) (s : Data ℝ N) (h : s.y = 0 ∨ s.y = 1) (l : ℝ) (g : NArr ℝ [N])
    (hl : ((likelihoodValue N).evaluate s.ctx).1 = .ok l)
    (hg : ((likelihoodImpl N).evaluate s.ctx).1 = .ok g) (x : c91W N → ℝ) : ∃ l' : ℝ,
    ((likelihoodValue N).evaluate (setEntries s.ctx (c91W N) x)).1 = .ok l' ∧
      l' ≤ l + ∑ p, ((NArr.getU [N] g p.1.2).getD 0) * (x p - entries s.ctx (c91W N) p) := by
  have hW : ∀ p ∈ c91W N, ∃ k : Fin N, p = (W, [k.1]) := fun p hp => by
    simp only [c91W, Finset.mem_image, Finset.mem_univ, true_and] at hp
    obtain ⟨k, rfl⟩ := hp
    exact ⟨k, rfl⟩
  have hpos : 0 < sigmoid (dotXW s) * s.y + (1 - sigmoid (dotXW s)) * (1 - s.y) := by
    have h1 : 0 < sigmoid (dotXW s) := by rw [sigmoid_eq]; positivity
    have h2 : 0 < 1 - sigmoid (dotXW s) := by rw [oneSub_sigmoid]; rw [sigmoid_eq]; positivity
    rcases h with h | h <;> rw [h] <;> linarith
  obtain ⟨w', y', z', h1, h2, h3, h4⟩ := C91_tangent (Γ := types N) (e := likelihood) (S := c91W N)
    (adj := fun _ => likelihoodAdj) (σ := fun _ => .array [N]) (by simp [CacheFree, likelihood, prob])
    (likelihoodValue N)
    (by simp [likelihoodValue, probImpl, mixImpl, FnImpl.Regular, types_X, types_W])
    ⟨(W, [0]), by simpa [c91W] using ⟨⟨0, hN⟩, rfl⟩⟩ (fun p hp => by
      obtain ⟨k, rfl⟩ := hW p hp
      rfl) (fun p => likelihoodImpl N)
    (fun p => by simp [likelihoodImpl, probAdjImpl, probImpl, mixImpl, FnImpl.Regular, types_X, types_W])
    s.ctx (ctx_ne_none s fun i hi => by simp [likelihood, prob, NeedsId] at hi; tauto)
    (fun p hp => by
      obtain ⟨k, rfl⟩ := hW p hp
      exact ⟨s.w, rfl, .cons k.2 .nil⟩)
    (fun p hp => by
      obtain ⟨k, rfl⟩ := hW p hp
      have hd : Smooth (envOf s.ctx) W prob := ⟨⟨trivial, trivial,
        .inr (.inr (.inr ⟨rfl, ⟨N, rfl, rfl, rfl⟩, .var X⟩))⟩, fun _ _ => trivial⟩
      refine ⟨⟨⟨hd, trivial⟩, ⟨hd, fun _ _ => trivial⟩, trivial, fun _ _ => trivial⟩, fun ix hix => ?_⟩
      rw [(den_mix s).1] at hix
      cases hix
      rw [(den_mix s).2]
      exact hpos) hl (ix := []) .nil
    (g := fun p => (NArr.getU [N] g p.1.2).getD 0) (fun p => ⟨g, hg, by
      obtain ⟨k, hk⟩ := hW p.1 p.2
      have := NArr.getU_elem g k k.2
      simp only [hk]
      rw [this]
      exact this⟩) (k := .concave) (by
      refine c91_likelihood N s h fun i ⟨K, hK⟩ => ?_
      obtain ⟨k, hk⟩ := hW _ hK
      exact (Prod.mk.inj hk).1) x
  cases h2
  cases h3
  exact ⟨_, h1, h4⟩

end Aegir.Props
