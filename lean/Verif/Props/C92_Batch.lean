import Verif.Lemmas.Batch
import Verif.Lemmas.Descent
import Verif.Props.C91_Convex
import Verif.Props.C53_LinearExample
import Verif.Props.C79_LogisticLearns
/-!
# C92: batch gradient descent

A program fits the entries `S` of some variables to several samples: it evaluates the adjoints for each of
them, adds them up and moves the entries against the sum. If the gradient is Lipschitz and steps are small the
loss decreases until the gradient vanishes; if the loss is convex by construction (C91), it approaches the
smallest there is, within a bound that falls as one over the number of steps. Exact real arithmetic; for all
expressions, batches, entries and numbers of steps.
-/

namespace Aegir

open Spec

variable {Γ : Id → BTy} {S : Finset (Id × Idx)}

namespace Props

variable {e : Node ℝ} {τ : BTy} {adj : Id → Node ℝ} {σ : Id → BTy} {J : Type} [Fintype J]
  (hf : CacheFree e) (d : FnImpl Γ e τ) (hr : FnImpl.Regular d) (hne : S.Nonempty)
  (ha : ∀ p ∈ S, e.adjoint p.1 = some (adj p.1)) (da : ∀ p : S, FnImpl Γ (adj p.1.1) (σ p.1.1))
  (hra : ∀ p, FnImpl.Regular (da p)) (c : J → Ctx ℝ Γ) (hc : ∀ j i, NeedsId e i → c j i ≠ none)
  (hS : ∀ j, ∀ p ∈ S, ∃ b, c j p.1 = some b ∧ InBounds (Buf.dims _ b) p.2)
  (hs : ∀ j x, ∀ p ∈ S, Smooth (envOf (setEntries (c j) S x)) p.1 e) {ix : Idx}
  (hix : ∀ j v, (d.evaluate (c j)).1 = .ok v → InBounds (Buf.dims τ v) ix)

include hf hr hne ha hra hc hS hs hix

/-- Whatever the entries, the samples' values and all adjoints can be evaluated, and the batch's gradient is
the derivative of its value. -/
theorem C92_gradient (x : S → ℝ) :
    (∀ j, ∃ w y, (d.evaluate (setEntries (c j) S x)).1 = .ok w ∧ Buf.getU τ w ix = some y ∧
      alongAll d (c j) S ix x = y) ∧
    (∀ j p, ∃ a g, ((da p).evaluate (setEntries (c j) S x)).1 = .ok a ∧ Buf.getU _ a (ix ++ p.1.2) = some g ∧
      gradAll da (c j) ix x p = g) ∧
    HasFDerivAt (batchValue d c S ix) (linear (batchGrad da c ix x)) x := by
  have one : ∀ j, (∃ w y, (d.evaluate (setEntries (c j) S x)).1 = .ok w ∧ Buf.getU τ w ix = some y ∧
      alongAll d (c j) S ix x = y) ∧
      (∀ p, ∃ a g, ((da p).evaluate (setEntries (c j) S x)).1 = .ok a ∧ Buf.getU _ a (ix ++ p.1.2) = some g ∧
        gradAll da (c j) ix x p = g) ∧
      HasFDerivAt (alongAll d (c j) S ix) (linear (gradAll da (c j) ix x)) x := by
    intro j
    have hS' : ∀ p ∈ S, ∃ b, setEntries (c j) S x p.1 = some b ∧ InBounds (Buf.dims _ b) p.2 :=
      fun p hp => setEntries_inBounds (hS j p hp) x
    obtain ⟨w, hw, -, h⟩ := C63_total hf d hr hne ha da hra (setEntries (c j) S x)
      (fun i hi => setEntries_defined (hc j i hi) x) hS' (hs j x)
    have hdim : InBounds (Buf.dims τ w) ix := by
      obtain ⟨p, hp⟩ := hne
      obtain ⟨b, hb, -⟩ := hS j p hp
      obtain ⟨⟨v, hv⟩, -⟩ := eval_total (ha p hp) hf d (da ⟨p, hp⟩) hr (hra _) (c j) (hc j) (by simp [hb])
      have := hix j v hv
      rw [dims_of_eval hf d hr hv] at this
      rw [dims_of_eval hf d hr hw, envOf_setEntries (c j) (hS j)]
      rwa [den_dims_congr (ρ := perturbAll (envOf (c j)) S x) (ρ' := envOf (c j)) (fun _ => rfl) e]
    obtain ⟨h1, g, h2, h3⟩ := h ix hdim
    have ea : alongAll d (setEntries (c j) S x) S ix = alongAll d (c j) S ix := by
      funext y
      simp only [alongAll, setEntries_setEntries]
    rw [ea, entries_setEntries (c j) (hS j)] at h1 h3
    have eg : gradAll da (c j) ix x = g := by
      funext p
      obtain ⟨a, h4, h5⟩ := h2 p
      simp only [gradAll, h4, h5, Option.getD_some]
    refine ⟨⟨w, _, hw, h1, rfl⟩, fun p => ?_, by rw [eg]; exact h3⟩
    obtain ⟨a, h4, h5⟩ := h2 p
    exact ⟨a, g p, h4, h5, by rw [eg]⟩
  refine ⟨fun j => (one j).1, fun j => (one j).2.1, ?_⟩
  have hsum := HasFDerivAt.fun_sum (u := Finset.univ) fun j _ => (one j).2.2
  have el : linear (batchGrad da c ix x) = ∑ j, linear (gradAll da (c j) ix x) := by
    ext1 v
    rw [sum_apply]
    simp only [linear_apply, batchGrad, Finset.sum_mul]
    exact Finset.sum_comm
  rw [el]
  exact hsum

/-- The derivative along a line. -/
theorem c92_line (x y : S → ℝ) (s : ℝ) :
    HasDerivAt (fun t => batchValue d c S ix fun p => x p + t * (y p - x p))
      (∑ p, batchGrad da c ix (fun p => x p + s * (y p - x p)) p * (y p - x p)) s := by
  have h := (C92_gradient hf d hr hne ha da hra c hc hS hs hix fun p => x p + s * (y p - x p)).2.2
  have hγ : HasDerivAt (fun (t : ℝ) (p : S) => x p + t * (y p - x p)) (fun p => y p - x p) s :=
    hasDerivAt_pi.2 fun p => by
      have := ((hasDerivAt_id s).mul_const (y p - x p)).const_add (x p)
      simpa using this
  have := HasFDerivAt.comp_hasDerivAt (l := batchValue d c S ix) s h hγ
  rwa [linear_apply] at this

/-- Convexity of the batch's value. -/
theorem c92_convex (hk : ∀ j, Curved (envOf (c j)) (fun i => ∃ K, (i, K) ∈ S) .convex e) (x y : S → ℝ) (a b : ℝ)
    (h0 : 0 ≤ a) (h0' : 0 ≤ b) (hab : a + b = 1) : batchValue d c S ix (fun p => a * x p + b * y p) ≤
      a * batchValue d c S ix x + b * batchValue d c S ix y := by
  have hgr := C92_gradient hf d hr hne ha da hra c hc hS hs hix
  simp only [batchValue, Finset.mul_sum, ← Finset.sum_add_distrib]
  refine Finset.sum_le_sum fun j _ => ?_
  obtain ⟨u₁, y₁, hu₁, hy₁, e₁⟩ := (hgr x).1 j
  obtain ⟨u₂, y₂, hu₂, hy₂, e₂⟩ := (hgr y).1 j
  obtain ⟨u₃, y₃, hu₃, hy₃, e₃⟩ := (hgr fun p => a * x p + b * y p).1 j
  have hpow : PowSafe (envOf (c j)) e := by
    obtain ⟨p, hp⟩ := hne
    have := powSafe_of_smooth (hs j (entries (c j) S) p hp)
    rwa [envOf_entries (c j) (hS j)] at this
  obtain ⟨q₁, q₂, q₃, r₁, r₂, r₃, hrel⟩ := C91_shape hf d hr (c j) (hS j) hpow (hk j) h0 h0' hab hu₁ hu₂ hu₃
    (ix := ix) ((Buf.getU_isSome_iff _ _ _).1 (by rw [hy₃]; rfl))
  rw [hy₁] at r₁
  rw [hy₂] at r₂
  rw [hy₃] at r₃
  cases r₁
  cases r₂
  cases r₃
  rw [e₁, e₂, e₃]
  exact hrel

variable {L η : ℝ} (hη : 0 < η) (hL : 0 ≤ L) (hηL : η * L ≤ 1)
  (hl : ∀ x y : S → ℝ, ∑ p, (batchGrad da c ix x p - batchGrad da c ix y p) ^ 2 ≤
    L ^ 2 * ∑ p, (x p - y p) ^ 2) {x : ℕ → S → ℝ} (hx : Descends η (batchGrad da c ix) x)

include hη hL hηL hl hx

/-- When the evaluated gradient is Lipschitz and steps are at most the inverse of its constant, no step of
gradient descent makes the batch's value larger, and the squares of all gradients met add up to at most its
decrease: the value falls until the adjoints vanish. Nothing needs to be convex. -/
theorem C92_decrease (n : ℕ) : batchValue d c S ix (x (n + 1)) ≤ batchValue d c S ix (x n) ∧
    η / 2 * ∑ k ∈ Finset.range n, ∑ p, batchGrad da c ix (x k) p ^ 2 ≤
      batchValue d c S ix (x 0) - batchValue d c S ix (x n) := by
  have hp := Descent.parabola hL (c92_line hf d hr hne ha da hra c hc hS hs hix) hl
  refine ⟨?_, Descent.gradients hη hηL hp hx n⟩
  have := Descent.gradients hη hηL hp (x := fun k => x (n + k)) (fun k p => hx (n + k) p) 1
  have h0 : 0 ≤ η / 2 * ∑ k ∈ Finset.range 1, ∑ p, batchGrad da c ix (x (n + k)) p ^ 2 :=
    mul_nonneg (by positivity) (Finset.sum_nonneg fun _ _ => Finset.sum_nonneg fun _ _ => sq_nonneg _)
  simp only [add_zero] at this
  linarith

/-- For a convex expression, `n` steps bring the value to within the square of the distance covered over
`2 η n` of the value at any other setting `z` of the entries, in particular at the best one; and they come no
farther from a best one. -/
theorem C92_rate (hk : ∀ j, Curved (envOf (c j)) (fun i => ∃ K, (i, K) ∈ S) .convex e) (z : S → ℝ) (n : ℕ) :
    (0 < n → batchValue d c S ix (x n) ≤ batchValue d c S ix z + (∑ p, (x 0 p - z p) ^ 2) / (2 * η * n)) ∧
    ((∀ y, batchValue d c S ix z ≤ batchValue d c S ix y) →
      ∑ p, (x n p - z p) ^ 2 ≤ ∑ p, (x 0 p - z p) ^ 2) := by
  have hline := c92_line hf d hr hne ha da hra c hc hS hs hix
  have hp := Descent.parabola hL hline hl
  have ht := Descent.tangent hline (c92_convex hf d hr hne ha da hra c hc hS hs hix hk)
  have h := Descent.rate hη hηL hp ht hx z n
  have hx0 : 0 ≤ ∑ p, (x n p - z p) ^ 2 := Finset.sum_nonneg fun _ _ => sq_nonneg _
  refine ⟨fun hn => ?_, fun hz => ?_⟩
  · have hn' : (0 : ℝ) < n := by exact_mod_cast hn
    rw [← sub_le_iff_le_add', le_div_iff₀ (by positivity)]
    linarith
  · have : 0 ≤ 2 * η * n * (batchValue d c S ix (x n) - batchValue d c S ix z) :=
      mul_nonneg (by positivity) (sub_nonneg.2 (hz _))
    linarith

end Props

/-! ### A concrete case: the number closest to given numbers, by least squares -/

namespace Props

/-- All scalars. -/
def c92Ty : Id → BTy := fun _ => .scalar

/-- `(x - y)²` with `x = 0`, `y = 1`. -/
def c92E : Node ℝ := .un .square (.sub (.var 0) (.var 1))

/-- Its adjoint with respect to `x`. -/
def c92A : Node ℝ := .mul (.un .double (.sub (.var 0) (.var 1))) (.sub (.varAdj 0 0) (.varAdj 1 0))

/-- Evaluation of the value. -/
def c92D : FnImpl c92Ty c92E .scalar := .un .square (.sub (.var (Γ := c92Ty) 0) (.var (Γ := c92Ty) 1) .ss)

/-- Evaluation of the adjoint. -/
def c92DA : FnImpl c92Ty c92A .scalar :=
  .mul (.un .double (.sub (.var (Γ := c92Ty) 0) (.var (Γ := c92Ty) 1) .ss))
    (.sub (.varAdj (Γ := c92Ty) 0 0 .ss (by simp [c92Ty, BTy.rank]))
      (.varAdj (Γ := c92Ty) 1 0 .ss (by simp [c92Ty, BTy.rank])) .ss) .ss

/-- The sample `y`; `x` starts anywhere. -/
def c92C (y : ℝ) : Ctx ℝ c92Ty
  | 1 => some y
  | _ => some (0 : ℝ)

/-- The entry that is fitted. -/
def c92S : Finset (Id × Idx) := {(0, [])}

/-- Gradient descent on `Σⱼ (x - yⱼ)²` for `m` samples, with steps of at most `1 / 2m`. -/
example (m : ℕ) (y : Fin m → ℝ) (η : ℝ) (hη : 0 < η) (hm : η * (2 * m) ≤ 1) (x : ℕ → c92S → ℝ)
    (hx : Descends η (batchGrad (adj := fun _ => c92A) (σ := c92Ty) (fun _ => c92DA) (fun j => c92C (y j)) []) x) (z : c92S → ℝ) (n : ℕ)
    (hn : 0 < n) : batchValue c92D (fun j => c92C (y j)) c92S [] (x n) ≤
      batchValue c92D (fun j => c92C (y j)) c92S [] z + (∑ p, (x 0 p - z p) ^ 2) / (2 * η * n) := by
  have hS : ∀ p ∈ c92S, p = (0, []) := fun p hp => by simpa [c92S] using hp
  have hf : CacheFree c92E := by simp [CacheFree, c92E]
  have hr : FnImpl.Regular c92D := by simp [FnImpl.Regular, c92D, c92Ty]
  have hra : ∀ _ : c92S, FnImpl.Regular c92DA := fun _ => by simp [FnImpl.Regular, c92DA, c92Ty]
  have ha : ∀ p ∈ c92S, c92E.adjoint p.1 = some c92A := fun p hp => by rw [hS p hp]; rfl
  have hc : ∀ (j : Fin m) i, NeedsId c92E i → c92C (y j) i ≠ none := fun j i _ => by
    unfold c92C; split <;> simp
  have hb : ∀ (j : Fin m), ∀ p ∈ c92S, ∃ b, c92C (y j) p.1 = some b ∧ InBounds (Buf.dims _ b) p.2 :=
    fun j p hp => by rw [hS p hp]; exact ⟨(0 : ℝ), rfl, .nil⟩
  have hs : ∀ (j : Fin m) x, ∀ p ∈ c92S, Smooth (envOf (setEntries (c92C (y j)) c92S x)) p.1 c92E :=
    fun j x p _ => ⟨⟨trivial, trivial⟩, fun _ _ => trivial⟩
  have hix : ∀ (j : Fin m) v, (c92D.evaluate (c92C (y j))).1 = .ok v → InBounds (Buf.dims .scalar v) [] :=
    fun _ _ _ => .nil
  have hgr := C92_gradient (adj := fun _ => c92A) (σ := c92Ty) hf c92D hr ⟨(0, []), by simp [c92S]⟩ ha (fun _ => c92DA) hra
    (fun j => c92C (y j)) hc hb hs hix
  have hg : ∀ x p, batchGrad (adj := fun _ => c92A) (σ := c92Ty) (fun _ : c92S => c92DA) (fun j => c92C (y j)) [] x p =
      ∑ j, 2 * (x p - y j) := fun x p => by
    refine Finset.sum_congr rfl fun j _ => ?_
    obtain ⟨a, g, h1, h2, h3⟩ := (hgr x).2.1 j p
    rw [h3]
    have hp : p = ⟨(0, []), by simp [c92S]⟩ := Subtype.ext (hS p.1 p.2)
    subst hp
    have hd := den_of_eval (adjoint_cacheFree (ha (0, []) (by simp [c92S])) hf) c92DA (hra ⟨(0, []), by simp [c92S]⟩)
      (by simp [PowSafe, c92A]) h1
    have := hd.2 [] .nil
    simp only [List.append_nil] at h2
    have hg : g = _ := Option.some.inj (h2.symm.trans this)
    rw [hg, envOf_setEntries _ (hb j)]
    simp [den, c92A, perturbAll, c92S, envOf, c92C, Tensor.ofBuf, Tensor.delta, Buf.getU, c92Ty, Tensor.zip, Tensor.map,
      Buf.dims, Shp.dims, UnOp.apply, bIdx, one_add_one_eq_two]
  refine (C92_rate (adj := fun _ => c92A) (σ := c92Ty) hf c92D hr ⟨(0, []), by simp [c92S]⟩ ha (fun _ => c92DA) hra
    (fun j => c92C (y j)) hc hb hs hix hη (L := 2 * m) (by positivity) hm (fun u v => ?_) hx (fun j => ?_) z n).1 hn
  · rw [Finset.mul_sum]
    refine Finset.sum_le_sum fun p _ => ?_
    rw [hg, hg, ← Finset.sum_sub_distrib]
    have : ∑ j : Fin m, (2 * (u p - y j) - 2 * (v p - y j)) = 2 * m * (u p - v p) := by
      rw [Finset.sum_congr rfl fun j _ => show 2 * (u p - y j) - 2 * (v p - y j) = 2 * (u p - v p) by ring]
      simp
      ring
    rw [this, mul_pow]
  · refine .cup (by simp) (.sub (.var 0) (.fixed fun i hi ho => ?_))
    obtain ⟨K, hK⟩ := hi
    cases hS _ hK
    exact absurd (c91_var ho) (by decide)

end Props

/-! ### The programs in `aegir/examples`, on a batch -/

namespace Examples

variable {N m : Nat}

/-- The impl behind `sse.evaluate(&mut ctx)` (`linear.rs` L33; the program itself only evaluates the
adjoint). -/
def sseValue (N : Nat) : FnImpl (types N) (sse : Node ℝ) .scalar :=
  .un .square (.sub (.contract (.var (Γ := types N) X) (.var (Γ := types N) W) (.dot N))
    (.var (Γ := types N) Y) .ss)

/-- Its value is the squared error. -/
theorem C92_sse (s : Data ℝ N) : ((sseValue N).evaluate s.ctx).1 =
    .ok ((∑ i, s.x.elem i * s.w.elem i - s.y) ^ 2) := by
  have h := eval_of_denS s (sseValue N)
    (DenS.un (e := .sub (.contract 1 (.var X) (.var W)) (.var Y)) (zip_ss (den_dot s) (den_Y s)) .square)
    (by simp [CacheFree, sse])
    ⟨fun i _ => types_ne_vec i, fun τ b h => by simp [sse] at h, fun τ b h => by simp [sse] at h⟩
    (by simp [PowSafe, sse])
    (by simp [sseValue, FnImpl.ProductsInRange, types_X])
    (by simp [sseValue, FnImpl.Regular, types_X, types_Y, types_W])
    (fun i hi => by simp [sse, NeedsId] at hi; tauto)
  rw [h]
  simp only [UnOp.apply, dotXW, ScalarFns.pow, one_add_one_eq_two]
  rw [Real.rpow_two]

/-- Least squares: batch gradient descent with the gradient of `linear.rs`, on any samples and labels, has
after `n` steps a loss within the squared distance of the initial weights to `z` over `2 η n` of the loss at
`z`, for all weights `z`. -/
theorem C92_linear (s : Fin m → Data ℝ N) {η : ℝ} (hη : 0 < η)
    (hηL : η * (2 * ∑ j, ∑ k, (s j).x.elem k ^ 2) ≤ 1) {w : ℕ → NArr ℝ [N]}
    (hw : ∀ n, ∃ g : Fin m → NArr ℝ [N],
      (∀ j, ((sseImpl N).evaluate ({ s j with w := w n } : Data ℝ N).ctx).1 = .ok (g j)) ∧
      ∀ k, (w (n + 1)).elem k = (w n).elem k - η * ∑ j, (g j).elem k) (z : NArr ℝ [N]) {n : ℕ} (hn : 0 < n) :
    ∃ a b : Fin m → ℝ, (∀ j, ((sseValue N).evaluate ({ s j with w := w n } : Data ℝ N).ctx).1 = .ok (a j)) ∧
      (∀ j, ((sseValue N).evaluate ({ s j with w := z } : Data ℝ N).ctx).1 = .ok (b j)) ∧
      ∑ j, a j ≤ ∑ j, b j + (∑ k, ((w 0).elem k - z.elem k) ^ 2) / (2 * η * n) := by
  refine ⟨_, _, fun j => C92_sse _, fun j => C92_sse _, ?_⟩
  refine Descent.ridge_rate (K := 2) (by norm_num) hη (fun j => (s j).x.elem)
    (ψ := fun j t => (t - (s j).y) ^ 2) (φ := fun j t => 2 * (t - (s j).y)) (fun j t => ?_) (fun j t u h => ?_)
    (fun j t u => ?_) hηL (w := fun n => (w n).elem) (fun n k => ?_) z.elem hn
  · have := ((hasDerivAt_id t).sub_const (s j).y).fun_pow 2
    simpa using this
  · simp only
    linarith
  · rw [← mul_sub, abs_mul]
    simp
  · obtain ⟨g, hg, h⟩ := hw n
    rw [h]
    congr 2
    refine Finset.sum_congr rfl fun j _ => ?_
    obtain ⟨g', hg', h'⟩ := C53_gradient ({ s j with w := w n } : Data ℝ N)
    rw [hg j] at hg'
    cases hg'
    rw [h']
    rfl

/-- Maximum likelihood: batch gradient ascent with the gradient of `logistic.rs`, on any labelled samples. -/
theorem C92_logistic (x : Fin m → NArr ℝ [N]) (b : Fin m → Bool) {η : ℝ} (hη : 0 < η)
    (hηL : η * (1 / 4 * ∑ j, ∑ k, (x j).elem k ^ 2) ≤ 1) {w : ℕ → NArr ℝ [N]}
    (hw : ∀ n, ∃ g : Fin m → NArr ℝ [N],
      (∀ j, ((likelihoodImpl N).evaluate (Data.ctx ⟨x j, if b j then 1 else 0, w n⟩)).1 = .ok (g j)) ∧
      ∀ k, (w (n + 1)).elem k = (w n).elem k + η * ∑ j, (g j).elem k) (z : NArr ℝ [N]) {n : ℕ} (hn : 0 < n) :
    ∃ l l' : Fin m → ℝ,
      (∀ j, ((likelihoodValue N).evaluate (Data.ctx ⟨x j, if b j then 1 else 0, w n⟩)).1 = .ok (l j)) ∧
      (∀ j, ((likelihoodValue N).evaluate (Data.ctx ⟨x j, if b j then 1 else 0, z⟩)).1 = .ok (l' j)) ∧
      ∑ j, l' j - (∑ k, ((w 0).elem k - z.elem k) ^ 2) / (2 * η * n) ≤ ∑ j, l j := by
  refine ⟨_, _, fun j => C54_likelihood _ _ _, fun j => C54_likelihood _ _ _, ?_⟩
  have hlog : ∀ t, HasDerivAt (fun t => Real.log (logistic t)) (1 - logistic t) t := fun t => by
    have h1 : HasDerivAt (fun t : ℝ => 1 + Real.exp (-t)) (-Real.exp (-t)) t := by
      simpa using ((hasDerivAt_neg t).exp).const_add 1
    have hp : 0 < 1 + Real.exp (-t) := by positivity
    have := (h1.log hp.ne').fun_neg
    simp only [log_logistic]
    refine this.congr_deriv ?_
    rw [logistic]
    field_simp
    ring
  have hder : ∀ (b : Bool) t, HasDerivAt (fun t => -Real.log (if b then logistic t else 1 - logistic t))
      (logistic t - if b then 1 else 0) t := fun b t => by
    cases b with
    | true =>
      have := (hlog t).fun_neg
      simpa using this
    | false =>
      simp only [Bool.false_eq_true, if_false, one_sub_logistic, sub_zero]
      have h1 : HasDerivAt (fun t : ℝ => -t) (-1) t := hasDerivAt_neg t
      have := ((hlog (-t)).comp t h1).neg
      refine this.congr_deriv ?_
      rw [one_sub_logistic, neg_neg]
      ring
  have h := Descent.ridge_rate (K := 1 / 4) (by norm_num) hη (fun j => (x j).elem)
    (ψ := fun j t => -Real.log (if b j then logistic t else 1 - logistic t))
    (φ := fun j t => logistic t - if b j then 1 else 0) (fun j => hder (b j))
    (fun j t u h => by simpa using logistic_mono h)
    (fun j t u => ?_) hηL (w := fun n => (w n).elem) (fun n k => ?_) z.elem hn
  · simp only [Finset.sum_neg_distrib] at h
    simp only [pr, prod']
    linarith
  · rw [sub_sub_sub_cancel_right]
    rcases le_total u t with h | h
    · rw [abs_of_nonneg (sub_nonneg.2 (logistic_mono h)), abs_of_nonneg (sub_nonneg.2 h)]
      exact logistic_sub_le h
    · rw [abs_sub_comm, abs_sub_comm t u, abs_of_nonneg (sub_nonneg.2 (logistic_mono h)),
        abs_of_nonneg (sub_nonneg.2 h)]
      exact logistic_sub_le h
  · obtain ⟨g, hg, h⟩ := hw n
    rw [h, sub_eq_add_neg, ← mul_neg, ← Finset.sum_neg_distrib]
    congr 2
    refine Finset.sum_congr rfl fun j _ => ?_
    obtain ⟨g', hg', h'⟩ := C54_gradient (x j) (w n) (b j)
    rw [hg j] at hg'
    cases hg'
    rw [h']
    simp only [prod']
    ring

/-- The sequences of weights of `C92_linear` exist for all samples, step sizes and initial weights. -/
example (s : Fin m → Data ℝ N) (η : ℝ) (w₀ : NArr ℝ [N]) : ∃ w : ℕ → NArr ℝ [N], w 0 = w₀ ∧
    ∀ n, ∃ g : Fin m → NArr ℝ [N],
      (∀ j, ((sseImpl N).evaluate ({ s j with w := w n } : Data ℝ N).ctx).1 = .ok (g j)) ∧
      ∀ k, (w (n + 1)).elem k = (w n).elem k - η * ∑ j, (g j).elem k := by
  have step : ∀ v : NArr ℝ [N], ∃ v' : NArr ℝ [N], ∃ g : Fin m → NArr ℝ [N],
      (∀ j, ((sseImpl N).evaluate ({ s j with w := v } : Data ℝ N).ctx).1 = .ok (g j)) ∧
      ∀ k, v'.elem k = v.elem k - η * ∑ j, (g j).elem k := fun v => by
    choose g hg h using fun j => C53_gradient ({ s j with w := v } : Data ℝ N)
    exact ⟨NArr.mkRows (ds := []) fun k => v.elem k - η * ∑ j, (g j).elem k, g, hg, fun k =>
      NArr.row_mkRows _ k⟩
  choose next hnext using step
  exact ⟨fun n => n.rec w₀ fun _ v => next v, rfl, fun n => hnext _⟩

/-- And those of `C92_logistic`. -/
example (x : Fin m → NArr ℝ [N]) (b : Fin m → Bool) (η : ℝ) (w₀ : NArr ℝ [N]) :
    ∃ w : ℕ → NArr ℝ [N], w 0 = w₀ ∧ ∀ n, ∃ g : Fin m → NArr ℝ [N],
      (∀ j, ((likelihoodImpl N).evaluate (Data.ctx ⟨x j, if b j then 1 else 0, w n⟩)).1 = .ok (g j)) ∧
      ∀ k, (w (n + 1)).elem k = (w n).elem k + η * ∑ j, (g j).elem k := by
  have step : ∀ v : NArr ℝ [N], ∃ v' : NArr ℝ [N], ∃ g : Fin m → NArr ℝ [N],
      (∀ j, ((likelihoodImpl N).evaluate (Data.ctx ⟨x j, if b j then 1 else 0, v⟩)).1 = .ok (g j)) ∧
      ∀ k, v'.elem k = v.elem k + η * ∑ j, (g j).elem k := fun v => by
    choose g hg h using fun j => C54_gradient (x j) v (b j)
    exact ⟨NArr.mkRows (ds := []) fun k => v.elem k + η * ∑ j, (g j).elem k, g, hg, fun k =>
      NArr.row_mkRows _ k⟩
  choose next hnext using step
  exact ⟨fun n => n.rec w₀ fun _ v => next v, rfl, fun n => hnext _⟩

end Examples
end Aegir
