import Verif.Lemmas.TotalEval
import Verif.Props.C28_C32_Derivatives
/-!
# C63: adjoints make up the total derivative

C28 to C32 vary one entry of one variable. Here any number of entries of any number of variables vary
at the same time (say, all weights and the bias of a model): the value is differentiable as a function
of all of them, and its derivative is the linear function whose coefficients are the entries of the
evaluated adjoints.
-/

namespace Aegir.Props

open Aegir Aegir.Spec

variable {Γ : Id → BTy} {S : Finset (Id × Idx)} {e : Node ℝ} {τ : BTy} {adj : Id → Node ℝ}
  {σ : Id → BTy}

/-- The entries `S` may have any values without evaluation failing; every entry of the value is a
(Fréchet-)differentiable function of them at their current values, and the coefficients of its
derivative are the entries of the adjoints with respect to the variables. -/
theorem C63_total (hf : CacheFree e) (d : FnImpl Γ e τ) (hr : FnImpl.Regular d) (hne : S.Nonempty)
    (ha : ∀ p ∈ S, e.adjoint p.1 = some (adj p.1)) (da : ∀ p : S, FnImpl Γ (adj p.1.1) (σ p.1.1))
    (hra : ∀ p, FnImpl.Regular (da p)) (c : Ctx ℝ Γ) (hc : ∀ i, NeedsId e i → c i ≠ none)
    (hS : ∀ p ∈ S, ∃ b, c p.1 = some b ∧ InBounds (Buf.dims _ b) p.2)
    (hs : ∀ p ∈ S, Smooth (envOf c) p.1 e) :
    ∃ v, (d.evaluate c).1 = .ok v ∧
      (∀ x, ∃ w, (d.evaluate (setEntries c S x)).1 = .ok w ∧ Buf.dims τ w = Buf.dims τ v) ∧
      ∀ ix, InBounds (Buf.dims τ v) ix → Buf.getU τ v ix = some (alongAll d c S ix (entries c S)) ∧
        ∃ g : S → ℝ,
        (∀ p : S, ∃ a, ((da p).evaluate c).1 = .ok a ∧
          Buf.getU _ a (ix ++ p.1.2) = some (g p)) ∧
        HasFDerivAt (alongAll d c S ix) (linear g) (entries c S) :=
  eval_total_deriv hf d hr hne ha da hra c hc hS hs

/-- The chain rule: when the entries move along a differentiable curve `γ`, the value changes at the
rate given by the sum, over all of them, of the adjoint's entry times the velocity. -/
theorem C63_chain (hf : CacheFree e) (d : FnImpl Γ e τ) (hr : FnImpl.Regular d) (hne : S.Nonempty)
    (ha : ∀ p ∈ S, e.adjoint p.1 = some (adj p.1)) (da : ∀ p : S, FnImpl Γ (adj p.1.1) (σ p.1.1))
    (hra : ∀ p, FnImpl.Regular (da p)) (c : Ctx ℝ Γ) (hc : ∀ i, NeedsId e i → c i ≠ none)
    (hS : ∀ p ∈ S, ∃ b, c p.1 = some b ∧ InBounds (Buf.dims _ b) p.2)
    (hs : ∀ p ∈ S, Smooth (envOf c) p.1 e) {v : Buf ℝ τ} (hv : (d.evaluate c).1 = .ok v) {ix : Idx}
    (hix : InBounds (Buf.dims τ v) ix) {γ : ℝ → S → ℝ} {γ' : S → ℝ} {s : ℝ}
    (hγ : ∀ p, HasDerivAt (fun s => γ s p) (γ' p) s) (h0 : γ s = entries c S) :
    ∃ g : S → ℝ, (∀ p : S, ∃ a, ((da p).evaluate c).1 = .ok a ∧
        Buf.getU _ a (ix ++ p.1.2) = some (g p)) ∧
      HasDerivAt (fun s => alongAll d c S ix (γ s)) (∑ p, g p * γ' p) s := by
  obtain ⟨v', hv', -, h⟩ := C63_total hf d hr hne ha da hra c hc hS hs
  rw [hv] at hv'
  cases hv'
  obtain ⟨-, g, hg, hF⟩ := h ix hix
  refine ⟨g, hg, ?_⟩
  rw [← linear_apply]
  refine HasFDerivAt.comp_hasDerivAt (l := alongAll d c S ix) s (f := γ) ?_ (hasDerivAt_pi.2 hγ)
  rw [h0]
  exact hF

open Topology Filter in
/-- Gradient descent on all entries at once: unless all adjoints vanish, a small enough step against
them makes the value smaller. -/
theorem C63_descent (hf : CacheFree e) (d : FnImpl Γ e τ) (hr : FnImpl.Regular d) (hne : S.Nonempty)
    (ha : ∀ p ∈ S, e.adjoint p.1 = some (adj p.1)) (da : ∀ p : S, FnImpl Γ (adj p.1.1) (σ p.1.1))
    (hra : ∀ p, FnImpl.Regular (da p)) (c : Ctx ℝ Γ) (hc : ∀ i, NeedsId e i → c i ≠ none)
    (hS : ∀ p ∈ S, ∃ b, c p.1 = some b ∧ InBounds (Buf.dims _ b) p.2)
    (hs : ∀ p ∈ S, Smooth (envOf c) p.1 e) {v : Buf ℝ τ} (hv : (d.evaluate c).1 = .ok v) {ix : Idx}
    (hix : InBounds (Buf.dims τ v) ix) {g : S → ℝ}
    (hg : ∀ p : S, ∃ a, ((da p).evaluate c).1 = .ok a ∧ Buf.getU _ a (ix ++ p.1.2) = some (g p))
    (hg0 : ∃ p, g p ≠ 0) :
    ∃ η₀ > 0, ∀ η, 0 < η → η < η₀ → ∃ w x y,
      (d.evaluate (setEntries c S fun p => entries c S p - η * g p)).1 = .ok w ∧
      Buf.getU τ w ix = some y ∧ Buf.getU τ v ix = some x ∧ y < x := by
  obtain ⟨v', hv', hw, h⟩ := C63_total hf d hr hne ha da hra c hc hS hs
  rw [hv] at hv'
  cases hv'
  obtain ⟨hx, -⟩ := h ix hix
  obtain ⟨g', hg', hD⟩ := C63_chain hf d hr hne ha da hra c hc hS hs hv hix (s := 0)
    (γ := fun η p => entries c S p - η * g p) (γ' := fun p => -g p) (fun p => by
      have := ((hasDerivAt_id (0 : ℝ)).mul_const (g p)).const_sub (entries c S p)
      simpa using this) (by funext p; simp)
  have hgg : g' = g := by
    funext p
    obtain ⟨a, h1, h2⟩ := hg p
    obtain ⟨a', h1', h2'⟩ := hg' p
    rw [h1] at h1'
    cases h1'
    rw [h2] at h2'
    exact (Option.some.inj h2').symm
  subst hgg
  have hneg : ∑ p, g' p * -g' p < 0 := by
    have : ∑ p, g' p * -g' p = -∑ p, g' p * g' p := by
      rw [← Finset.sum_neg_distrib]
      exact Finset.sum_congr rfl fun p _ => by ring
    rw [this, neg_lt_zero]
    obtain ⟨p, hp⟩ := hg0
    exact Finset.sum_pos' (fun p _ => mul_self_nonneg _) ⟨p, Finset.mem_univ _, mul_self_pos.2 hp⟩
  have hev := hD.tendsto_slope_zero_right.eventually (gt_mem_nhds hneg)
  rw [eventually_nhdsWithin_iff, Metric.eventually_nhds_iff] at hev
  obtain ⟨η₀, hη₀, hb⟩ := hev
  refine ⟨η₀, hη₀, fun η h1 h2 => ?_⟩
  obtain ⟨w, hwη, hwd⟩ := hw fun p => entries c S p - η * g' p
  have hlt := hb (y := η) (by rw [Real.dist_eq, sub_zero, abs_of_pos h1]; exact h2) h1
  simp only [zero_add, zero_mul, sub_zero, smul_eq_mul] at hlt
  have hlt' : alongAll d c S ix (fun p => entries c S p - η * g' p) <
      alongAll d c S ix (entries c S) := by
    have := (mul_neg_iff.1 hlt).resolve_right (fun h => absurd (inv_pos.2 h1) (not_lt.2 h.1.le))
    linarith [this.2]
  obtain ⟨y, hy⟩ := Buf.getU_some _ w ix (hwd ▸ hix)
  refine ⟨w, _, y, hwη, hy, hx, ?_⟩
  have : alongAll d c S ix (fun p => entries c S p - η * g' p) = y := by
    simp only [alongAll, hwη, hy, Option.getD_some]
  rwa [← this]

/-! ### A concrete case: the squared error `(⟨w, x⟩ + b - y)²` of a linear model with bias -/

/-- `0` and `1` are vectors of length `n`, the rest scalars. -/
def c63Ty (n : Nat) : Id → BTy
  | 0 => .array [n]
  | 1 => .array [n]
  | _ => .scalar

/-- `⟨w, x⟩ + b - y` with `w = 0`, `x = 1`, `y = 2`, `b = 3`. -/
def c63R : Node ℝ := .sub (.add (.contract 1 (.var 0) (.var 1)) (.var 3)) (.var 2)

/-- Its evaluation. -/
def c63RD (n : Nat) : FnImpl (c63Ty n) c63R .scalar :=
  .sub (.add (.contract (.var (Γ := c63Ty n) 0) (.var (Γ := c63Ty n) 1) (.dot n))
    (.var (Γ := c63Ty n) 3) .ss) (.var (Γ := c63Ty n) 2) .ss

/-- The adjoint of the loss with respect to `t`. -/
def c63A (t : Id) : Node ℝ := .mul (.un .double c63R) (.sub (.add (.add
  (.contract 1 (.var 0) (.varAdj 1 t)) (.contract 1 (.varAdj 0 t) (.var 1))) (.varAdj 3 t))
  (.varAdj 2 t))

/-- Evaluation of the adjoints with respect to the weights (`0`) and to a scalar. -/
def c63DA (n : Nat) : (t : Id) → FnImpl (c63Ty n) (c63A t) (c63Ty n t)
  | 0 => .mul (.un .double (c63RD n)) (.sub (.add (.add (.contract (.var (Γ := c63Ty n) 0)
      (.varAdj 1 0 (.aa [n] [n] (by simp)) (by simp [c63Ty, BTy.rank])) (.vm n n))
      (.contract (.varAdj 0 0 (.aa [n] [n] (by simp)) (by simp [c63Ty, BTy.rank]))
        (.var (Γ := c63Ty n) 1) (.mv n n)) (.aa [n]))
      (.varAdj 3 0 (.sa [n]) (by simp [c63Ty, BTy.rank])) (.aa [n]))
      (.varAdj 2 0 (.sa [n]) (by simp [c63Ty, BTy.rank])) (.aa [n])) (.sa [n])
  | 1 => .mul (.un .double (c63RD n)) (.sub (.add (.add (.contract (.var (Γ := c63Ty n) 0)
      (.varAdj 1 1 (.aa [n] [n] (by simp)) (by simp [c63Ty, BTy.rank])) (.vm n n))
      (.contract (.varAdj 0 1 (.aa [n] [n] (by simp)) (by simp [c63Ty, BTy.rank]))
        (.var (Γ := c63Ty n) 1) (.mv n n)) (.aa [n]))
      (.varAdj 3 1 (.sa [n]) (by simp [c63Ty, BTy.rank])) (.aa [n]))
      (.varAdj 2 1 (.sa [n]) (by simp [c63Ty, BTy.rank])) (.aa [n])) (.sa [n])
  | t + 2 => .mul (.un .double (c63RD n)) (.sub (.add (.add (.contract (.var (Γ := c63Ty n) 0)
      (.varAdj 1 (t + 2) (.as [n]) (by simp [c63Ty, BTy.rank])) (.dot n))
      (.contract (.varAdj 0 (t + 2) (.as [n]) (by simp [c63Ty, BTy.rank]))
        (.var (Γ := c63Ty n) 1) (.dot n)) .ss)
      (.varAdj 3 (t + 2) .ss (by simp [c63Ty, BTy.rank])) .ss)
      (.varAdj 2 (t + 2) .ss (by simp [c63Ty, BTy.rank])) .ss) .ss

/-- A context for it. -/
def c63C (n : Nat) (w x : NArr ℝ [n]) (y b : ℝ) : Ctx ℝ (c63Ty n)
  | 0 => some w
  | 1 => some x
  | 3 => some b
  | _ + 2 => some y

/-- Both weights and the bias of a model with two weights. -/
def c63S : Finset (Id × Idx) := {(0, [0]), (0, [1]), (3, [])}

/-- The loss as a function of both weights and the bias is differentiable with the entries of the
two adjoints as its gradient, for every sample, label and current parameters. -/
example (w x : NArr ℝ [2]) (y b : ℝ) : ∃ g : c63S → ℝ,
    (∀ p : c63S, ∃ a, ((c63DA 2 p.1.1).evaluate (c63C 2 w x y b)).1 = .ok a ∧
      Buf.getU _ a p.1.2 = some (g p)) ∧
    HasFDerivAt (alongAll (.un .square (c63RD 2)) (c63C 2 w x y b) c63S []) (linear g)
      (entries (c63C 2 w x y b) c63S) := by
  have hS : ∀ p ∈ c63S, p = (0, [0]) ∨ p = (0, [1]) ∨ p = (3, []) := fun p hp => by
    simpa [c63S] using hp
  obtain ⟨v, hv, -, h⟩ := C63_total (Γ := c63Ty 2) (e := .un .square c63R) (S := c63S) (adj := c63A)
    (σ := c63Ty 2) (by simp [CacheFree, c63R]) (.un .square (c63RD 2))
    ⟨⟨⟨trivial, trivial, by simp [c63Ty], by simp [c63Ty]⟩, trivial⟩, trivial, by simp [c63Ty]⟩ ⟨(3, []), by simp [c63S]⟩
    (fun p _ => rfl) (fun p => c63DA 2 p.1.1) (fun p => by
      rcases hS p.1 p.2 with h | h | h <;> rw [h] <;>
        simp [FnImpl.Regular, c63DA, c63RD, c63Ty])
    (c63C 2 w x y b)
    (fun i _ => by unfold c63C; split <;> simp) (fun p hp => by
      rcases hS p hp with rfl | rfl | rfl
      · exact ⟨w, rfl, .cons (by simp) .nil⟩
      · exact ⟨w, rfl, .cons (by simp) .nil⟩
      · exact ⟨b, rfl, .nil⟩) (fun p hp => by
      refine ⟨⟨⟨⟨trivial, trivial, ?_⟩, trivial⟩, trivial⟩, fun _ _ => trivial⟩
      rcases hS p hp with rfl | rfl | rfl
      · exact .inr (.inr (.inr ⟨rfl, ⟨2, rfl, rfl, rfl⟩, .var 0⟩))
      · exact .inr (.inr (.inr ⟨rfl, ⟨2, rfl, rfl, rfl⟩, .var 0⟩))
      · exact .inl rfl)
  obtain ⟨-, g, ha, hg⟩ := h [] .nil
  exact ⟨g, ha, hg⟩

end Aegir.Props
