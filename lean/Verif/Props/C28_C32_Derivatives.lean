import Verif.Lemmas.EvalDeriv
/-!
# C28-C32: evaluating the adjoint gives the derivative of what the expression evaluates to

Over exact real arithmetic (Spec/Real). `along d c t b K ix` is entry `ix` of the value of `d` as a
function of entry `K` of the variable `t`, all other entries and variables as in the context `c`;
`Smooth` (Spec/Calculus) collects the side conditions, node by node.
-/

namespace Aegir.Props

open Aegir Aegir.Spec

variable {Γ : Id → BTy} {e e' : Node ℝ} {t : Id}

/-- The value is where the function starts from. -/
theorem C28_along_self {τ : BTy} (d : FnImpl Γ e τ) (c : Ctx ℝ Γ) {b : Buf ℝ (Γ t)}
    (hb : c t = some b) {K ix : Idx} {x : ℝ} (hx : Buf.getU _ b K = some x) {v : Buf ℝ τ}
    (hv : (d.evaluate c).1 = .ok v) {y : ℝ} (hy : Buf.getU τ v ix = some y) :
    along d c t b K ix x = y := by
  have h1 : setEntry b K x = b := by
    have := setEntry_self b K
    rwa [hx] at this
  have h2 : c.write t b = c := by
    funext i
    unfold Ctx.write
    split
    · subst_vars; exact hb.symm
    · rfl
  simp only [along, h1, h2, hv, hy, Option.getD_some]

/-! ## C28 -/

/-- Adjoints of scalar expressions can be evaluated. -/
theorem C28_evaluable_partial (h : e.adjoint t = some e') (hf : CacheFree e) (hsc : AllScalar Γ e)
    (ht : Γ t = .scalar) (d : FnImpl Γ e .scalar) : Nonempty (FnImpl Γ e' .scalar) :=
  scalar_adjoint_impl h hf hsc ht d

/-- For a scalar expression without `Cached` nodes, `evaluate` succeeds for every value of the
target, the adjoint evaluates, and its value is the derivative. Missing: `Cached` nodes, see
`C28_violation_cached`. -/
theorem C28_scalar_partial (h : e.adjoint t = some e') (hf : CacheFree e) (hsc : AllScalar Γ e)
    (ht : Γ t = .scalar) (d : FnImpl Γ e .scalar) (da : FnImpl Γ e' .scalar) (c : Ctx ℝ Γ)
    (hc : ∀ i, NeedsId e i → c i ≠ none) {b : Buf ℝ (Γ t)} (hb : c t = some b)
    (hs : Smooth (envOf c) t e) :
    (∀ s, ∃ v, (d.evaluate (c.write t (setEntry b [] s))).1 = .ok v) ∧
      ∃ a x : ℝ, (da.evaluate c).1 = .ok a ∧ Buf.getU _ b [] = some x ∧
        HasDerivAt (along d c t b [] []) a x := by
  have hr := (hsc.regular d).2
  have hra := ((AllScalar.adjoint h hf hsc ht).regular da).2
  have hK : InBounds (Buf.dims _ b) [] := by rw [dims_scalar ht]; exact .nil
  refine ⟨fun s => (eval_total h hf d da hr hra _ (ctx_write_needs hc _)
    (by simp [Ctx.write_self])).1, ?_⟩
  obtain ⟨⟨v, hv⟩, a, ha⟩ := eval_total h hf d da hr hra c hc (by simp [hb])
  obtain ⟨g, x, hg, hx, hd⟩ := (eval_deriv h hf d da hr hra c hc hb hs hv ha hK).2 [] .nil
  cases hg
  exact ⟨a, x, ha, hx, hd⟩

/-- `σ(x·y)^2 / ln(x)` with respect to `x`, at `x = 2`, `y = -1`. -/
def c28E : Node ℝ := .div (.un .square (.un .sigmoid (.mul (.var 0) (.var 1)))) (.un .ln (.var 0))

/-- All variables are scalars. -/
abbrev c28Ty : Id → BTy := fun _ => .scalar

/-- Evaluation of `c28E`. -/
def c28D : FnImpl c28Ty c28E .scalar :=
  .div (.un _ (.un _ (.mul (.var (Γ := c28Ty) 0) (.var (Γ := c28Ty) 1) .ss)))
    (.un _ (.var (Γ := c28Ty) 0)) .ss

/-- `x = 2`, everything else `-1`. -/
def c28Ctx : Ctx ℝ c28Ty := fun i => some (if i = 0 then (2 : ℝ) else -1)

example : ∃ (e' : Node ℝ) (da : FnImpl c28Ty e' .scalar) (a x : ℝ), c28E.adjoint 0 = some e' ∧
    (da.evaluate c28Ctx).1 = .ok a ∧ x = 2 ∧
    HasDerivAt (along c28D c28Ctx 0 (2 : ℝ) [] []) a x := by
  have hsc : AllScalar c28Ty c28E :=
    ⟨fun _ _ => rfl, fun τ b h => by simp [c28E] at h, fun τ b h => by simp [c28E] at h⟩
  have hf : CacheFree c28E := by simp [CacheFree, c28E]
  obtain ⟨da⟩ := C28_evaluable_partial (e := c28E) (t := 0) rfl hf hsc rfl c28D
  obtain ⟨-, a, x, ha, hx, hd⟩ := C28_scalar_partial (b := (2 : ℝ)) rfl hf hsc rfl c28D da c28Ctx
    (fun i _ => by simp [c28Ctx]) (by simp [c28Ctx]) (by
      have h2 : (0 : ℝ) < 2 := two_pos
      refine ⟨⟨⟨⟨trivial, trivial⟩, fun _ _ => trivial⟩, fun _ _ => trivial⟩,
        ⟨trivial, fun ix _ => ?_⟩, fun ix hix => ?_⟩
      · cases ix with
        | nil => exact h2
        | cons i ix => cases ‹InBounds _ _›
      · cases hix
        exact (Real.log_pos one_lt_two).ne')
  cases hx
  exact ⟨_, da, a, 2, rfl, ha, rfl, hd⟩

/-- `Cached` (`meta/cached.rs` L54-60) is differentiable with respect to its own identifier only,
and then its adjoint ignores that the value is read from the context: `Cached(x, t)` has derivative
`1` with respect to `t` when `t` is set, but its adjoint evaluates to `0`. -/
theorem C28_violation_cached :
    ∃ (e e' : Node ℝ) (d : FnImpl c28Ty e .scalar) (da : FnImpl c28Ty e' .scalar)
      (c : Ctx ℝ c28Ty) (a : ℝ), e.adjoint 1 = some e' ∧ (∀ i, c i ≠ none) ∧
      Smooth (envOf c) 1 e ∧ (da.evaluate c).1 = .ok a ∧
      HasDerivAt (along d c 1 (5 : ℝ) [] []) 1 5 ∧ a ≠ 1 := by
  refine ⟨.cached (.var 0) 1, _, .cached (Γ := c28Ty) 1 (.var (Γ := c28Ty) 0),
    .varAdj 0 1 .ss (Nat.zero_le _), fun _ => some (5 : ℝ), 0, rfl, by simp, trivial, rfl, ?_,
    zero_ne_one⟩
  have : along (FnImpl.cached (Γ := c28Ty) 1 (.var (Γ := c28Ty) 0)) (fun _ => some (5 : ℝ)) 1
      (5 : ℝ) [] [] = fun s => s := by
    funext s
    rfl
  rw [this]
  exact hasDerivAt_id' 5

/-! ## C30 -/

/-- With respect to a scalar, the adjoint of a tensor expression has the type and shape of the value,
and its entries are the derivatives of the entries. Missing: `Cached` and `Sum` nodes (C28, C31), and
the irregular forms for which `evaluate` itself is wrong (C19). -/
theorem C30_tensor_partial (h : e.adjoint t = some e') (hf : CacheFree e) (hsf : SumFree e)
    (ht : Γ t = .scalar) {τ σ : BTy} (d : FnImpl Γ e τ) (da : FnImpl Γ e' σ)
    (hr : FnImpl.Regular d) (c : Ctx ℝ Γ) (hc : ∀ i, NeedsId e i → c i ≠ none) {b : Buf ℝ (Γ t)}
    (hb : c t = some b) (hs : Smooth (envOf c) t e) :
    σ = τ ∧ (∀ s, ∃ v, (d.evaluate (c.write t (setEntry b [] s))).1 = .ok v) ∧
      ∃ v a, (d.evaluate c).1 = .ok v ∧ (da.evaluate c).1 = .ok a ∧ Buf.dims σ a = Buf.dims τ v ∧
        ∀ ix, InBounds (Buf.dims τ v) ix → ∃ g x, Buf.getU σ a ix = some g ∧
          Buf.getU _ b [] = some x ∧ HasDerivAt (along d c t b [] ix) g x := by
  obtain ⟨hστ, hra⟩ := adjoint_regular h ht hsf hr da
  have hbd := dims_scalar ht b
  refine ⟨hστ, fun s => (eval_total h hf d da hr hra _ (ctx_write_needs hc _)
    (by simp [Ctx.write_self])).1, ?_⟩
  obtain ⟨⟨v, hv⟩, a, ha⟩ := eval_total h hf d da hr hra c hc (by simp [hb])
  obtain ⟨h1, h2⟩ := eval_deriv h hf d da hr hra c hc hb hs hv ha (K := []) (by
    rw [hbd]; exact .nil)
  refine ⟨v, a, hv, ha, by rw [h1, hbd, List.append_nil], fun ix hix => ?_⟩
  obtain ⟨g, x, hg, hx, hd⟩ := h2 ix hix
  rw [List.append_nil] at hg
  exact ⟨g, x, hg, hx, hd⟩

/-- `0` is a 2x2 matrix, `1` a vector, `2` a scalar. -/
def c30Ty : Id → BTy
  | 0 => .array [2, 2]
  | 1 => .array [2]
  | _ => .scalar

/-- `A·(exp(s ⊗ x))` -/
def c30E : Node ℝ := .contract 1 (.var 0) (.un .exp (.contract 0 (.var 2) (.var 1)))

/-- Evaluation of `c30E`. -/
def c30D : FnImpl c30Ty c30E (.array [2]) :=
  .contract (.var (Γ := c30Ty) 0) (.un .exp (.contract (.var (Γ := c30Ty) 2)
    (.var (Γ := c30Ty) 1) (.sv0 2))) (.mv 2 2)

/-- Evaluation of the adjoint of `c30E`. -/
def c30DA : FnImpl c30Ty (.add (.contract 1 (.var 0)
      (.mul (.un .exp (.contract 0 (.var 2) (.var 1)))
        (.add (.contract 0 (.var 2) (.varAdj 1 2)) (.contract 0 (.varAdj 2 2) (.var 1)))))
    (.contract 1 (.varAdj 0 2) (.un .exp (.contract 0 (.var 2) (.var 1)))) : Node ℝ) (.array [2]) :=
  .add (.contract (.var (Γ := c30Ty) 0) (.mul (.un .exp (.contract (.var (Γ := c30Ty) 2)
      (.var (Γ := c30Ty) 1) (.sv0 2)))
      (.add (.contract (.var (Γ := c30Ty) 2) (.varAdj 1 2 (.as [2]) (by decide)) (.sv0 2))
        (.contract (.varAdj 2 2 .ss (by decide)) (.var (Γ := c30Ty) 1) (.sv0 2)) (.aa [2]))
        (.aa [2])) (.mv 2 2))
    (.contract (.varAdj 0 2 (.as [2, 2]) (by decide)) (.un .exp (.contract (.var (Γ := c30Ty) 2)
      (.var (Γ := c30Ty) 1) (.sv0 2))) (.mv 2 2)) (.aa [2])

/-- `A` and `x` all ones, `s = 3`. -/
def c30Ctx : Ctx ℝ c30Ty := fun i => match i with
  | 0 => some (Buf.full (.array [2, 2]) () (1 : ℝ))
  | 1 => some (Buf.full (.array [2]) () (1 : ℝ))
  | _ + 2 => some (3 : ℝ)

example : ∃ v a, (c30D.evaluate c30Ctx).1 = .ok v ∧ (c30DA.evaluate c30Ctx).1 = .ok a ∧
    ∀ ix, InBounds (Buf.dims (.array [2]) v) ix → ∃ g x, Buf.getU (.array [2]) a ix = some g ∧
      Buf.getU (c30Ty 2) (3 : ℝ) [] = some x ∧
      HasDerivAt (along c30D c30Ctx 2 (3 : ℝ) [] ix) g x := by
  obtain ⟨-, -, v, a, hv, ha, -, h⟩ := C30_tensor_partial (e := c30E) (t := 2) (b := (3 : ℝ)) rfl
    (by simp [CacheFree, c30E]) (by simp [SumFree, c30E]) rfl c30D c30DA
    ⟨trivial, ⟨trivial, trivial, by simp [c30Ty], by simp⟩, by simp [c30Ty], by simp [c30Ty]⟩ c30Ctx
    (fun i _ => by unfold c30Ctx; split <;> simp) rfl
    ⟨trivial, ⟨⟨trivial, trivial, .inl rfl⟩, fun _ _ => trivial⟩, .inl rfl⟩
  exact ⟨v, a, hv, ha, h⟩

/-! ## C29 -/

/-- For a scalar expression over scalars and vectors of one length `n`, the adjoint with respect to
a vector is the vector of partial derivatives. `Smooth` asks that the left factor of every dot
product is affine in the target. -/
theorem C29_gradient {n : Nat} (h : e.adjoint t = some e') (hf : CacheFree e) (hsf : SumFree e)
    (ht : Γ t = .array [n]) (hm : VectorModel Γ n e) {σ : BTy} (d : FnImpl Γ e .scalar)
    (da : FnImpl Γ e' σ) (c : Ctx ℝ Γ) (hc : ∀ i, NeedsId e i → c i ≠ none) {b : Buf ℝ (Γ t)}
    (hb : c t = some b) (hs : Smooth (envOf c) t e) :
    σ = .array [n] ∧ (∀ k s, ∃ v, (d.evaluate (c.write t (setEntry b [k] s))).1 = .ok v) ∧
      ∃ a, (da.evaluate c).1 = .ok a ∧ ∀ k, k < n → ∃ g x, Buf.getU σ a [k] = some g ∧
        Buf.getU _ b [k] = some x ∧ HasDerivAt (along d c t b [k] []) g x := by
  obtain ⟨hty, hr, hra⟩ := adjoint_regular_vec h ht hf hsf hm d da
  have hσ : σ = .array [n] := by
    rcases hty with ⟨-, h⟩ | ⟨h, -⟩
    · exact h
    · cases h
  refine ⟨hσ, fun k s => (eval_total h hf d da hr hra _ (ctx_write_needs hc _)
    (by simp [Ctx.write_self])).1, ?_⟩
  obtain ⟨⟨v, hv⟩, a, ha⟩ := eval_total h hf d da hr hra c hc (by simp [hb])
  refine ⟨a, ha, fun k hk => ?_⟩
  exact (eval_deriv h hf d da hr hra c hc hb hs hv ha (K := [k]) (by
    rw [dims_array ht]; exact .cons hk .nil)).2 [] .nil

/-- The same for operands of any types, given that `evaluate` is right on them (`Regular`, C19).
Arrays of any rank as target. -/
theorem C29_array_target (h : e.adjoint t = some e') (hf : CacheFree e) {σ : BTy}
    (d : FnImpl Γ e .scalar) (da : FnImpl Γ e' σ) (hr : FnImpl.Regular d)
    (hra : FnImpl.Regular da) (c : Ctx ℝ Γ) (hc : ∀ i, NeedsId e i → c i ≠ none) {b : Buf ℝ (Γ t)}
    (hb : c t = some b) (hs : Smooth (envOf c) t e) :
    ∃ a, (da.evaluate c).1 = .ok a ∧ ∀ K, InBounds (Buf.dims _ b) K →
      Buf.dims σ a = Buf.dims _ b ∧ ∃ g x, Buf.getU σ a K = some g ∧
        Buf.getU _ b K = some x ∧ HasDerivAt (along d c t b K []) g x := by
  obtain ⟨⟨v, hv⟩, a, ha⟩ := eval_total h hf d da hr hra c hc (by simp [hb])
  refine ⟨a, ha, fun K hK => ?_⟩
  obtain ⟨h1, h2⟩ := eval_deriv h hf d da hr hra c hc hb hs hv ha hK
  exact ⟨h1, h2 [] .nil⟩

/-- `0` and `1` are vectors of length `n`, the rest scalars. -/
def c29Ty (n : Nat) : Id → BTy
  | 0 => .array [n]
  | 1 => .array [n]
  | _ => .scalar

/-- The squared error `(⟨w, x⟩ - y)²` of a linear model (`examples/linear.rs`). -/
def c29E : Node ℝ := .un .square (.sub (.contract 1 (.var 0) (.var 1)) (.var 2))

/-- Evaluation of `c29E`. -/
def c29D (n : Nat) : FnImpl (c29Ty n) c29E .scalar :=
  .un .square (.sub (.contract (.var (Γ := c29Ty n) 0) (.var (Γ := c29Ty n) 1) (.dot n))
    (.var (Γ := c29Ty n) 2) .ss)

/-- Evaluation of its adjoint with respect to the weights. -/
def c29DA (n : Nat) : FnImpl (c29Ty n) (.mul (.un .double (.sub (.contract 1 (.var 0) (.var 1)) (.var 2)))
    (.sub (.add (.contract 1 (.var 0) (.varAdj 1 0)) (.contract 1 (.varAdj 0 0) (.var 1)))
      (.varAdj 2 0)) : Node ℝ) (.array [n]) :=
  .mul (.un .double (.sub (.contract (.var (Γ := c29Ty n) 0) (.var (Γ := c29Ty n) 1) (.dot n))
    (.var (Γ := c29Ty n) 2) .ss)) (.sub (.add (.contract (.var (Γ := c29Ty n) 0)
      (.varAdj 1 0 (.aa [n] [n] (by simp)) (by simp [c29Ty, BTy.rank])) (.vm n n))
      (.contract (.varAdj 0 0 (.aa [n] [n] (by simp)) (by simp [c29Ty, BTy.rank]))
        (.var (Γ := c29Ty n) 1)
        (.mv n n)) (.aa [n])) (.varAdj 2 0 (.sa [n]) (by simp [c29Ty, BTy.rank])) (.aa [n])) (.sa [n])

/-- For every number of weights, every weight vector `w`, every sample `x` and every label `y`. -/
example (n : Nat) (w x : NArr ℝ [n]) (y : ℝ) :
    ∃ a, ((c29DA n).evaluate (fun i => match i with | 0 => some w | 1 => some x | _ + 2 => some y)).1
        = .ok a ∧
      ∀ k, k < n → ∃ g x', Buf.getU (.array [n]) a [k] = some g ∧
        Buf.getU (.array [n]) w [k] = some x' ∧
        HasDerivAt (along (c29D n) (fun i => match i with
          | 0 => some w | 1 => some x | _ + 2 => some y) 0 w [k] []) g x' := by
  obtain ⟨-, -, h⟩ := C29_gradient (e := c29E) (t := 0) (Γ := c29Ty n) (b := w) rfl
    (by simp [CacheFree, c29E]) (by simp [SumFree, c29E]) rfl
    ⟨fun i hi => by simp [c29E] at hi; rcases hi with (rfl | rfl) | rfl <;> simp [c29Ty],
      fun τ b h => by simp [c29E] at h, fun i j h => by simp [c29E] at h⟩
    (c29D n) (c29DA n) (fun i => match i with | 0 => some w | 1 => some x | _ + 2 => some y)
    (fun i _ => by split <;> simp) rfl
    ⟨⟨⟨trivial, trivial, .inr (.inr (.inr ⟨rfl, ⟨n, rfl, rfl, rfl⟩, .var 0⟩))⟩, trivial⟩,
      fun _ _ => trivial⟩
  exact h

/-- Products with a matrix are not a counterexample: their adjoint with respect to a vector does not
implement `Function`, because `A'` has rank three and no impl contracts it with a vector. -/
theorem C29_matrix_not_evaluable {m n : Nat} {i j : Id} {σ : BTy} (hi : Γ i = .array [m, n])
    (hj : Γ j = .array [n]) (h : (Node.contract 1 (.var i) (.var j) : Node ℝ).adjoint j = some e')
    (da : FnImpl Γ e' σ) : False := by
  cases h
  cases da with | add d1 d2 z =>
  cases d2 with | contract d3 d4 z' =>
  cases d3 with | varAdj _ _ k _ =>
  cases d4 with | var =>
  rw [hi, hj] at k
  rw [hj] at z'
  cases k with | aa _ _ _ => cases z'

/-- The vector `[x, y]`. -/
def vec2 (x y : ℝ) : Buf ℝ (.array [2]) :=
  Buf.build (.array [2]) () fun ix => if ix = [0] then x else y

/-- `w = [1, 0]`, `x = [0, 1]`, `y = [1, 0]`. -/
def c29Ctx : Ctx ℝ fun _ => .array [2] := fun i => match i with
  | 0 => some (vec2 1 0)
  | 1 => some (vec2 0 1)
  | _ => some (vec2 1 0)

theorem sumOver_two (f : Idx → ℝ) : sumOver [2] f = f [0] + f [1] := by
  simp [sumOver, Finset.sum_range_succ]

theorem tensor_vec2 (x y : ℝ) : Tensor.ofBuf (vec2 x y) =
    ⟨[2], fun ix => if ix = [0] then x else if ix = [1] then y else 0⟩ := by
  unfold Tensor.ofBuf
  congr 1
  funext ix
  by_cases hix : InBounds [2] ix
  · rw [show Buf.getU (.array [2]) (vec2 x y) ix = some _ from
      Buf.getU_build (.array [2]) () _ ix hix]
    cases hix with
    | cons hi hr =>
      cases hr
      rename_i i
      have : i = 0 ∨ i = 1 := by omega
      rcases this with rfl | rfl <;> simp
  · have h0 : ix ≠ [0] := by rintro rfl; exact hix (.cons (by omega) .nil)
    have h1 : ix ≠ [1] := by rintro rfl; exact hix (.cons (by omega) .nil)
    have h3 : Buf.getU (.array [2]) (vec2 x y) ix = none := by
      by_contra h
      exact hix ((Buf.getU_isSome_iff _ _ _).1 (Option.isSome_iff_ne_none.2 h))
    rw [h3]
    simp [h0, h1]

/-- Why the left factor has to be affine: for `⟨w ⊗ ⟨w, x⟩, y⟩` the code multiplies the Jacobian of the
left factor with `y` instead of its transpose (`ops/linalg/mod.rs` L78-90 adds the contraction
`l' · r`), and the result is not the gradient. -/
theorem C29_limit_not_affine :
    ∃ (Γ : Id → BTy) (e e' : Node ℝ) (d : FnImpl Γ e .scalar) (da : FnImpl Γ e' (.array [2]))
      (c : Ctx ℝ Γ) (b : Buf ℝ (Γ 0)) (a : Buf ℝ (.array [2])), e.adjoint 0 = some e' ∧
      CacheFree e ∧ FnImpl.Regular d ∧ FnImpl.Regular da ∧ c 0 = some b ∧
      (da.evaluate c).1 = .ok a ∧ Buf.getU (.array [2]) a [1] = some 0 ∧
      HasDerivAt (along d c 0 b [1] []) 1 0 ∧ Buf.getU _ b [1] = some 0 := by
  let Γ : Id → BTy := fun _ => .array [2]
  let va (i : Id) : FnImpl Γ (.varAdj i 0 : Node ℝ) (.array [2, 2]) :=
    .varAdj i 0 (.aa [2] [2] (by simp)) (by simp [Γ, BTy.rank])
  let v (i : Id) : FnImpl Γ (.var i : Node ℝ) (.array [2]) := .var (Γ := Γ) i
  let S : FnImpl Γ (.contract 1 (.var 0) (.var 1) : Node ℝ) .scalar := .contract (v 0) (v 1) (.dot 2)
  let d : FnImpl Γ (.contract 1 (.contract 0 (.var 0) (.contract 1 (.var 0) (.var 1))) (.var 2) :
    Node ℝ) .scalar := .contract (.contract (v 0) S (.vs0 2)) (v 2) (.dot 2)
  let S' := FnImpl.add (.contract (v 0) (va 1) (.vm 2 2)) (.contract (va 0) (v 1) (.mv 2 2)) (.aa [2])
  let da := FnImpl.add (.contract (.contract (v 0) S (.vs0 2)) (va 2) (.vm 2 2))
    (.contract (.add (.contract (v 0) S' (.vv0 2 2)) (.contract (va 0) S (.ms0 2 2)) (.aa [2, 2]))
      (v 2) (.mv 2 2)) (.aa [2])
  have hf : CacheFree (.contract 1 (.contract 0 (.var 0) (.contract 1 (.var 0) (.var 1))) (.var 2) :
    Node ℝ) := by simp [CacheFree]
  have hr : FnImpl.Regular d := by simp [d, v, S, FnImpl.Regular]
  have hra : FnImpl.Regular da := by simp [da, v, va, S, S', FnImpl.Regular]
  have hc : ∀ i, c29Ctx i ≠ none := fun i => by unfold c29Ctx; split <;> simp
  have hρ : envOf c29Ctx = fun i => Tensor.mk [2] fun ix =>
      if i = 1 then if ix = [0] then 0 else if ix = [1] then 1 else 0
      else if ix = [0] then 1 else if ix = [1] then 0 else 0 := by
    funext i
    match i with
    | 0 => exact tensor_vec2 1 0
    | 1 => exact tensor_vec2 0 1
    | i + 2 => exact tensor_vec2 1 0
  obtain ⟨-, a, ha⟩ := eval_total (t := 0) rfl hf d da hr hra c29Ctx (fun i _ => hc i) (hc 0)
  have hda := den_of_eval (c := c29Ctx) (by simp [CacheFree]) da hra (by simp [PowSafe]) ha
  refine ⟨Γ, _, _, d, da, c29Ctx, vec2 1 0, a, rfl, hf, hr, hra, rfl, ha, ?_, ?_, rfl⟩
  · rw [hda.2 [1] (.cons (by omega) .nil), hρ]
    simp [den, Tensor.zip, Tensor.contract, Tensor.delta, sumOver_two, bIdx, sumOver]
  · have : along d c29Ctx 0 (vec2 1 0) [1] [] = fun s => s := by
      funext s
      rw [along_eq_den (e' := _) (t := 0) rfl hf d da hr hra c29Ctx (fun i _ => hc i) rfl
        (.cons (by decide) .nil) (by simp [PowSafe]) .nil, hρ]
      simp [den, Tensor.contract, sumOver_two, sumOver, perturb]
    rw [this]
    exact hasDerivAt_id' 0

/-! ## C31 -/

section
open Topology Filter

/-- What the adjoint of `Sum` does compute (`ops/arithmetic/unary.rs`, `Sum::adjoint`): the adjoint of
the operand, not reduced. Reducing it over the axes of the operand gives the derivative of the sum.
Missing: the code does not reduce, see `C31_violation`; and the operand must be smooth and free of
`Cached` nodes (C28). -/
theorem C31_unreduced_partial {n n' : Node ℝ} (h : (Node.sum n).adjoint t = some n')
    (hf : CacheFree n) {τ σ : BTy} (d : FnImpl Γ n τ) (da : FnImpl Γ n' σ) (hr : FnImpl.Regular d)
    (hra : FnImpl.Regular da) (c : Ctx ℝ Γ) (hc : ∀ i, NeedsId n i → c i ≠ none) {b : Buf ℝ (Γ t)}
    (hb : c t = some b) (hs : Smooth (envOf c) t n) :
    (∀ K s, ∃ v, ((FnImpl.sum d).evaluate (c.write t (setEntry b K s))).1 = .ok v) ∧
      ∃ v a, (d.evaluate c).1 = .ok v ∧ (da.evaluate c).1 = .ok a ∧
        ∀ K, InBounds (Buf.dims _ b) K → Buf.dims σ a = Buf.dims τ v ++ Buf.dims _ b ∧
          ∃ x, Buf.getU _ b K = some x ∧ HasDerivAt (along (.sum d) c t b K [])
            (sumOver (Buf.dims τ v) fun ix => (Buf.getU σ a (ix ++ K)).getD 0) x := by
  have hn : n.adjoint t = some n' := h
  have hf' : CacheFree (.sum n) := by simpa [CacheFree] using hf
  have hc' : ∀ i, NeedsId (.sum n) i → c i ≠ none := fun i hi => hc i (by simpa [NeedsId] using hi)
  obtain ⟨⟨v, hv⟩, a, ha⟩ := eval_total hn hf d da hr hra c hc (by simp [hb])
  refine ⟨fun K s => (eval_total h hf' (.sum d) da hr hra _ (ctx_write_needs hc' _)
    (by simp [Ctx.write_self])).1, v, a, hv, ha, fun K hK => ?_⟩
  obtain ⟨h1, h2⟩ := eval_deriv hn hf d da hr hra c hc hb hs hv ha hK
  obtain ⟨x, hx⟩ := Buf.getU_some _ b K hK
  refine ⟨h1, x, hx, ?_⟩
  have hD : HasDerivAt (fun s => sumOver (Buf.dims τ v) fun ix => along d c t b K ix s)
      (sumOver (Buf.dims τ v) fun ix => (Buf.getU σ a (ix ++ K)).getD 0) x := by
    refine hasDerivAt_sumOver fun ix hix => ?_
    obtain ⟨g, x', hg, hx', hd⟩ := h2 ix hix
    obtain rfl := Option.some.inj (hx.symm.trans hx')
    rwa [hg]
  refine hD.congr_of_eventuallyEq ?_
  have hbt : envOf c t = .ofBuf b := by simp only [envOf, hb]
  have hK' : InBounds (envOf c t).dims K := by rw [hbt]; exact hK
  have hev := smooth_eventually hn (compat_of_eval hf d hr hv)
    (compat_of_eval (adjoint_cacheFree hn hf) da hra ha) hs hK'
  have hxv : (envOf c t).val K = x := by rw [hbt]; simp only [Tensor.ofBuf, hx]; rfl
  rw [hxv] at hev
  have hvd := (den_of_eval hf d hr (powSafe_of_smooth hs) hv).1
  filter_upwards [hev] with s hs'
  have hp := powSafe_of_smooth hs'
  rw [along_eq_den h hf' (.sum d) da hr hra c hc' hb hK (by simpa [PowSafe] using hp) .nil]
  simp only [den]
  rw [den_perturb_dims, ← hvd]
  refine sumOver_congr fun ix hix => ?_
  rw [along_eq_den hn hf d da hr hra c hc hb hK hp (by rw [← hvd]; exact hix)]

end

/-- If the operand is a scalar the adjoint of `Sum` is right. -/
theorem C31_scalar_partial {n n' : Node ℝ} (h : (Node.sum n).adjoint t = some n')
    (hf : CacheFree n) {σ : BTy} (d : FnImpl Γ n .scalar) (da : FnImpl Γ n' σ)
    (hr : FnImpl.Regular d) (hra : FnImpl.Regular da) (c : Ctx ℝ Γ)
    (hc : ∀ i, NeedsId n i → c i ≠ none) {b : Buf ℝ (Γ t)} (hb : c t = some b)
    (hs : Smooth (envOf c) t n) :
    ∃ a, (da.evaluate c).1 = .ok a ∧ ∀ K, InBounds (Buf.dims _ b) K → Buf.dims σ a = Buf.dims _ b ∧
      ∃ g x, Buf.getU σ a K = some g ∧ Buf.getU _ b K = some x ∧
        HasDerivAt (along (.sum d) c t b K []) g x := by
  obtain ⟨-, v, a, -, ha, h1⟩ := C31_unreduced_partial h hf d da hr hra c hc hb hs
  refine ⟨a, ha, fun K hK => ?_⟩
  obtain ⟨h2, x, hx, hd⟩ := h1 K hK
  have h3 : Buf.dims σ a = Buf.dims _ b := h2
  obtain ⟨g, hg⟩ := Buf.getU_some σ a K (by rw [h3]; exact hK)
  have h4 : HasDerivAt (along (.sum d) c t b K []) ((Buf.getU σ a K).getD 0) x := hd
  rw [hg] at h4
  exact ⟨h3, g, x, hg, hx, h4⟩

/-- `Σ exp(s ⊗ x)` with respect to `s`, for a vector `x`: the entries of the vector that the adjoint
evaluates to add up to the derivative of the sum. -/
example : ∃ (n' : Node ℝ) (d : FnImpl c30Ty (.un .exp (.contract 0 (.var 2) (.var 1))) (.array [2]))
    (da : FnImpl c30Ty n' (.array [2])) (a : Buf ℝ (.array [2])) (x : ℝ),
    (Node.sum (.un .exp (.contract 0 (.var 2) (.var 1)))).adjoint 2 = some n' ∧
    (da.evaluate c30Ctx).1 = .ok a ∧
    HasDerivAt (along (.sum d) c30Ctx 2 (3 : ℝ) [] [])
      (sumOver [2] fun ix => (Buf.getU (.array [2]) a ix).getD 0) x := by
  obtain ⟨-, v, a, -, ha, h⟩ := C31_unreduced_partial (Γ := c30Ty) (t := 2) (b := (3 : ℝ)) rfl
    (n := .un .exp (.contract 0 (.var 2) (.var 1))) (by simp [CacheFree])
    (.un .exp (.contract (.var (Γ := c30Ty) 2) (.var (Γ := c30Ty) 1) (.sv0 2)))
    (.mul (.un .exp (.contract (.var (Γ := c30Ty) 2) (.var (Γ := c30Ty) 1) (.sv0 2)))
      (.add (.contract (.var (Γ := c30Ty) 2) (.varAdj 1 2 (.as [2]) (by decide)) (.sv0 2))
        (.contract (.varAdj 2 2 .ss (by decide)) (.var (Γ := c30Ty) 1) (.sv0 2)) (.aa [2]))
        (.aa [2]))
    (by simp [FnImpl.Regular]) (by simp [FnImpl.Regular]) c30Ctx
    (fun i _ => by unfold c30Ctx; split <;> simp) rfl
    ⟨⟨trivial, trivial, .inl rfl⟩, fun _ _ => trivial⟩
  obtain ⟨-, x, -, hd⟩ := h [] .nil
  simp only [List.append_nil] at hd
  exact ⟨_, _, _, a, x, rfl, ha, hd⟩

/-- `Σ exp(s)` for a scalar `s`. -/
example (s : ℝ) : ∃ (n' : Node ℝ) (da : FnImpl c28Ty n' .scalar) (a : ℝ),
    (Node.sum (.un .exp (.var 0))).adjoint 0 = some n' ∧
    (da.evaluate (fun _ => some s)).1 = .ok a ∧
    HasDerivAt (along (.sum (.un .exp (.var (Γ := c28Ty) 0))) (fun _ => some s) 0 s [] []) a s := by
  obtain ⟨a, ha, h⟩ := C31_scalar_partial (Γ := c28Ty) (t := 0) (b := s) (n := .un .exp (.var 0)) rfl
    (by simp [CacheFree]) (.un .exp (.var (Γ := c28Ty) 0))
    (.mul (.un .exp (.var (Γ := c28Ty) 0)) (.varAdj 0 0 .ss (by decide)) .ss) trivial
    (by simp [FnImpl.Regular]) (fun _ => some s) (by simp) rfl ⟨trivial, fun _ _ => trivial⟩
  obtain ⟨-, g, x, hg, hx, hd⟩ := h [] .nil
  cases hg
  cases hx
  exact ⟨_, _, a, rfl, ha, hd⟩

/-- Summing a vector of length two and differentiating with respect to that vector gives a two by two
matrix instead of a vector. -/
theorem C31_violation :
    ∃ (Γ : Id → BTy) (n n' : Node ℝ) (τ σ : BTy) (d : FnImpl Γ n τ) (da : FnImpl Γ n' σ)
      (c : Ctx ℝ Γ) (b : Buf ℝ (Γ 0)) (a : Buf ℝ σ), (Node.sum n).adjoint 0 = some n' ∧
      CacheFree n ∧ FnImpl.Regular d ∧ FnImpl.Regular da ∧ Smooth (envOf c) 0 n ∧ c 0 = some b ∧
      (da.evaluate c).1 = .ok a ∧ Buf.dims σ a ≠ Buf.dims _ b :=
  ⟨fun _ => .array [2], .var 0, _, _, .array [2, 2], .var (Γ := fun _ => .array [2]) 0,
    .varAdj 0 0 (.aa [2] [2] (by simp)) (by simp [BTy.rank]), fun _ => some (vec2 1 2), vec2 1 2, _,
    rfl, by simp [CacheFree], trivial, by simp [FnImpl.Regular], trivial, rfl, rfl, by decide⟩

/-! ## C32 -/

section
open Topology Filter

/-- Entry `[i.., j.., k..]` of the adjoint of `l ⊗ r` is the derivative of `l_i * r_j` with respect to
entry `k` of the target, if the target is a scalar, or `r` is, or the target does not occur in `l`
(these are the conditions of `Smooth` for a tensor product). Missing: all other products, see
`C32_violation`; and `Cached` nodes (C28). -/
theorem C32_axis_order_partial {l r : Node ℝ} (h : (Node.contract 0 l r).adjoint t = some e')
    (hf : CacheFree (.contract 0 l r)) {α β τ σ : BTy} (dl : FnImpl Γ l α) (dr : FnImpl Γ r β)
    (z : ContractImpl 0 α β τ) (da : FnImpl Γ e' σ) (hrl : FnImpl.Regular dl)
    (hrr : FnImpl.Regular dr) (hra : FnImpl.Regular da) (c : Ctx ℝ Γ)
    (hc : ∀ i, NeedsId (.contract 0 l r) i → c i ≠ none) {b : Buf ℝ (Γ t)} (hb : c t = some b)
    (hs : Smooth (envOf c) t (.contract 0 l r)) :
    ∃ vl vr a, (dl.evaluate c).1 = .ok vl ∧ (dr.evaluate c).1 = .ok vr ∧
      (da.evaluate c).1 = .ok a ∧ ∀ K, InBounds (Buf.dims _ b) K →
        Buf.dims σ a = Buf.dims α vl ++ Buf.dims β vr ++ Buf.dims _ b ∧
        ∀ ix jx, InBounds (Buf.dims α vl) ix → InBounds (Buf.dims β vr) jx →
          ∃ g x, Buf.getU σ a (ix ++ jx ++ K) = some g ∧ Buf.getU _ b K = some x ∧
            HasDerivAt (fun s => along dl c t b K ix s * along dr c t b K jx s) g x := by
  obtain ⟨l', hl, r', hr, he⟩ : ∃ l', l.adjoint t = some l' ∧ ∃ r', r.adjoint t = some r' ∧
      e' = .add (.contract 0 l r') (.contract 0 l' r) := by
    simp only [Node.adjoint, Option.bind_eq_some_iff, Option.map_eq_some_iff] at h
    obtain ⟨l', hl, r', hr, h⟩ := h
    exact ⟨l', hl, r', hr, h.symm⟩
  subst he
  cases da with | add d1 d2 z1 =>
  cases d1 with | contract dl1 dr' z2 =>
  cases d2 with | contract dl' dr1 z3 =>
  have hra' := hra
  simp only [FnImpl.Regular] at hra'
  have hR : FnImpl.Regular (.contract dl dr z) := by
    simp only [FnImpl.Regular]
    exact ⟨hrl, hrr, by simp, by simp⟩
  have hfl : CacheFree l := fun n i hn => hf n i (.step (by simp [children]) hn)
  have hfr : CacheFree r := fun n i hn => hf n i (.step (by simp [children]) hn)
  have hcl : ∀ i, NeedsId l i → c i ≠ none := fun i hi => hc i (hi.child (by simp [children]))
  have hcr : ∀ i, NeedsId r i → c i ≠ none := fun i hi => hc i (hi.child (by simp [children]))
  have htn : c t ≠ none := by simp [hb]
  obtain ⟨⟨v, hv⟩, a, ha⟩ := eval_total h hf (.contract dl dr z) _ hR hra c hc htn
  obtain ⟨⟨vl, hvl⟩, al, hal⟩ := eval_total hl hfl dl dl' hrl hra'.2.1 c hcl htn
  obtain ⟨⟨vr, hvr⟩, ar, har⟩ := eval_total hr hfr dr dr' hrr hra'.1.2.1 c hcr htn
  refine ⟨vl, vr, a, hvl, hvr, ha, fun K hK => ?_⟩
  obtain ⟨h1, h2⟩ := eval_deriv h hf (.contract dl dr z) _ hR hra c hc hb hs hv ha hK
  have hpl := powSafe_of_smooth hs.1
  have hpr := powSafe_of_smooth hs.2.1
  have hL := (den_of_eval hfl dl hrl hpl hvl).1
  have hRd := (den_of_eval hfr dr hrr hpr hvr).1
  have hV := (den_of_eval hf _ hR (powSafe_of_smooth hs) hv).1
  have hV' : Buf.dims τ v = Buf.dims α vl ++ Buf.dims β vr := by
    rw [hV, hL, hRd]
    simp [den, Tensor.contract]
  refine ⟨by rw [h1, hV'], fun ix jx hix hjx => ?_⟩
  obtain ⟨g, x, hg, hx, hd⟩ := h2 (ix ++ jx) (by
    rw [hV']; exact inBounds_append.2 ⟨_, _, hix, hjx, rfl⟩)
  refine ⟨g, x, hg, hx, hd.congr_of_eventuallyEq ?_⟩
  have hbt : envOf c t = .ofBuf b := by simp only [envOf, hb]
  have hK' : InBounds (envOf c t).dims K := by rw [hbt]; exact hK
  have hev := smooth_eventually h (compat_of_eval hf _ hR hv)
    (compat_of_eval (adjoint_cacheFree h hf) _ hra ha) hs hK'
  have hxv : (envOf c t).val K = x := by rw [hbt]; simp only [Tensor.ofBuf, hx]; rfl
  rw [hxv] at hev
  filter_upwards [hev] with s hs'
  rw [hL] at hix
  rw [hRd] at hjx
  rw [along_eq_den hl hfl dl dl' hrl hra'.2.1 c hcl hb hK (powSafe_of_smooth hs'.1) hix,
    along_eq_den hr hfr dr dr' hrr hra'.1.2.1 c hcr hb hK (powSafe_of_smooth hs'.2.1) hjx,
    along_eq_den h hf _ _ hR hra c hc hb hK (powSafe_of_smooth hs') (by
      rw [← hV, hV', hL, hRd]; exact inBounds_append.2 ⟨_, _, hix, hjx, rfl⟩)]
  have hlen := inBounds_length hix
  simp [den, Tensor.contract, sumOver, den_perturb_dims, ← hlen]

end

/-- `x ⊗ ⟨w, x⟩` with respect to `x`, for vectors of any length: the Jacobian is
`⟨w, x⟩ I + x wᵀ`. -/
example (n : Nat) (w x : NArr ℝ [n]) :
    ∃ (e' : Node ℝ) (dl : FnImpl (fun _ => .array [n]) (.var 0 : Node ℝ) (.array [n]))
      (dr : FnImpl (fun _ => .array [n]) (.contract 1 (.var 1) (.var 0) : Node ℝ) .scalar)
      (da : FnImpl (fun _ => .array [n]) e' (.array [n, n])) (a : NArr ℝ [n, n]),
      (Node.contract 0 (.var 0) (.contract 1 (.var 1) (.var 0))).adjoint 0 = some e' ∧
      (da.evaluate (fun i => some (if i = 0 then x else w))).1 = .ok a ∧
      ∀ i k, i < n → k < n → ∃ g x', Buf.getU (.array [n, n]) a [i, k] = some g ∧
        Buf.getU (.array [n]) x [k] = some x' ∧
        HasDerivAt (fun s => along dl (fun i => some (if i = 0 then x else w)) 0 x [k] [i] s *
          along dr (fun i => some (if i = 0 then x else w)) 0 x [k] [] s) g x' := by
  let Γ : Id → BTy := fun _ => .array [n]
  let va (i : Id) : FnImpl Γ (.varAdj i 0 : Node ℝ) (.array [n, n]) :=
    .varAdj i 0 (.aa [n] [n] (by simp)) (by simp [Γ, BTy.rank])
  let v (i : Id) : FnImpl Γ (.var i : Node ℝ) (.array [n]) := .var (Γ := Γ) i
  let S : FnImpl Γ (.contract 1 (.var 1) (.var 0) : Node ℝ) .scalar := .contract (v 1) (v 0) (.dot n)
  obtain ⟨vl, vr, a, hl, -, ha, h⟩ := C32_axis_order_partial (Γ := Γ) (t := 0) (b := x) rfl
    (by simp [CacheFree]) (v 0) S (.vs0 n)
    (.add (.contract (v 0) (.add (.contract (v 1) (va 0) (.vm n n)) (.contract (va 1) (v 0) (.mv n n))
      (.aa [n])) (.vv0 n n)) (.contract (va 0) S (.ms0 n n)) (.aa [n, n]))
    trivial (by simp [S, v, FnImpl.Regular]) (by simp [v, va, S, FnImpl.Regular])
    (fun i => some (if i = 0 then x else w)) (by simp) rfl
    ⟨trivial, ⟨trivial, trivial, .inr (.inr (.inr ⟨rfl, ⟨n, rfl, rfl, rfl⟩, .var 1⟩))⟩,
      .inr (.inl ⟨rfl, rfl⟩)⟩
  refine ⟨_, v 0, S, _, a, rfl, ha, fun i k hi hk => ?_⟩
  exact (h [k] (.cons hk .nil)).2 [i] [] (.cons hi .nil) .nil

/-- `⟨y, x⟩ ⊗ x` with respect to `x`: the code evaluates `⟨y, x⟩ I + y xᵀ`, the transpose of the
Jacobian. At `x = [1, 2]`, `y = [1, 0]` entry `[0, 1]` is `2` instead of `0`. -/
theorem C32_violation :
    ∃ (Γ : Id → BTy) (l r e' : Node ℝ) (d : FnImpl Γ (.contract 0 l r) (.array [2]))
      (da : FnImpl Γ e' (.array [2, 2])) (c : Ctx ℝ Γ) (b : Buf ℝ (Γ 0)) (a : Buf ℝ (.array [2, 2])),
      (Node.contract 0 l r).adjoint 0 = some e' ∧ CacheFree (.contract 0 l r) ∧ FnImpl.Regular d ∧
      FnImpl.Regular da ∧ c 0 = some b ∧ (da.evaluate c).1 = .ok a ∧
      Buf.getU (.array [2, 2]) a [0, 1] = some 2 ∧
      HasDerivAt (along d c 0 b [1] [0]) 0 2 ∧ Buf.getU _ b [1] = some 2 := by
  let Γ : Id → BTy := fun _ => .array [2]
  let va (i : Id) : FnImpl Γ (.varAdj i 0 : Node ℝ) (.array [2, 2]) :=
    .varAdj i 0 (.aa [2] [2] (by simp)) (by simp [Γ, BTy.rank])
  let v (i : Id) : FnImpl Γ (.var i : Node ℝ) (.array [2]) := .var (Γ := Γ) i
  let S : FnImpl Γ (.contract 1 (.var 1) (.var 0) : Node ℝ) .scalar := .contract (v 1) (v 0) (.dot 2)
  let d : FnImpl Γ (.contract 0 (.contract 1 (.var 1) (.var 0)) (.var 0) : Node ℝ) (.array [2]) :=
    .contract S (v 0) (.sv0 2)
  let S' := FnImpl.add (.contract (v 1) (va 0) (.vm 2 2)) (.contract (va 1) (v 0) (.mv 2 2)) (.aa [2])
  let da := FnImpl.add (.contract S (va 0) (.sm0 2 2)) (.contract S' (v 0) (.vv0 2 2)) (.aa [2, 2])
  let c : Ctx ℝ Γ := fun i => match i with | 0 => some (vec2 1 2) | _ => some (vec2 1 0)
  have hf : CacheFree (.contract 0 (.contract 1 (.var 1) (.var 0)) (.var 0) : Node ℝ) := by
    simp [CacheFree]
  have hr : FnImpl.Regular d := by simp [d, v, S, FnImpl.Regular]
  have hra : FnImpl.Regular da := by simp [da, v, va, S, S', FnImpl.Regular]
  have hc : ∀ i, c i ≠ none := fun i => by simp only [c]; split <;> simp
  have hρ : envOf c = fun i => Tensor.mk [2] fun ix =>
      if i = 0 then if ix = [0] then 1 else if ix = [1] then 2 else 0
      else if ix = [0] then 1 else if ix = [1] then 0 else 0 := by
    funext i
    match i with
    | 0 => exact tensor_vec2 1 2
    | i + 1 => exact tensor_vec2 1 0
  obtain ⟨-, a, ha⟩ := eval_total (t := 0) rfl hf d da hr hra c (fun i _ => hc i) (hc 0)
  have hda := den_of_eval (c := c) (by simp [CacheFree]) da hra (by simp [PowSafe]) ha
  refine ⟨Γ, _, _, _, d, da, c, vec2 1 2, a, rfl, hf, hr, hra, rfl, ha, ?_, ?_, rfl⟩
  · rw [hda.2 [0, 1] (.cons (by omega) (.cons (by omega) .nil)), hρ]
    simp [den, Tensor.zip, Tensor.contract, Tensor.delta, sumOver_two, bIdx, sumOver]
  · have : along d c 0 (vec2 1 2) [1] [0] = fun _ => 1 := by
      funext s
      rw [along_eq_den (e' := _) (t := 0) rfl hf d da hr hra c (fun i _ => hc i) rfl
        (.cons (by decide) .nil) (by simp [PowSafe]) (.cons (by decide) .nil), hρ]
      simp [den, Tensor.contract, sumOver_two, sumOver, perturb]
    rw [this]
    exact hasDerivAt_const _ _

end Aegir.Props
