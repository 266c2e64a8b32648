import Verif.Model.Examples
import Verif.Lemmas.Contract
import Verif.Props.C19_Tensor
import Verif.Props.C20_C22_Errors
import Verif.Spec.Real
/-!
# What the pieces of the example programs compute
-/

namespace Aegir.Examples
open Aegir.Spec

variable {F : Type} {N : Nat}

theorem update_elem (step : F → F → F) (w g : NArr F [N]) (k : Fin N) :
    (update step w g).elem k = step (w.elem k) (g.elem k) := by
  have h : update step w g = NArr.zipMapSelf [N] w g step :=
    (show update step w g = NArr.zipMutSelf [N] w g step from rfl).trans (NArr.zipMutSelf_eq w g step)
  rw [h]
  exact NArr.row_mkRows _ k

theorem label_eq (x tw : NArr ℝ [N]) : label x tw = ∑ i, x.elem i * tw.elem i := by
  rw [label, ← List.sum_ofFn, List.ofFn_eq_map, ← List.foldl_map (f := fun i => x.elem i * tw.elem i)
    (g := fun acc (y : ℝ) => acc + y), List.sum_eq_foldl]

section
variable (s : Data ℝ N)

/-- Entry of a stored vector. -/
theorem getD_elem (a : NArr ℝ [N]) (i : Nat) (h : i < N) :
    (Buf.getU (.array [N]) a [i]).getD 0 = a.elem ⟨i, h⟩ := by
  rw [show Buf.getU (.array [N]) a [i] = _ from NArr.getU_elem a i h]; rfl

theorem dot_range (a b : NArr ℝ [N]) :
    ∑ t ∈ Finset.range N, (Buf.getU (.array [N]) a [t]).getD 0 * (Buf.getU (.array [N]) b [t]).getD 0
      = ∑ i, a.elem i * b.elem i := by
  rw [Finset.sum_range]
  exact Finset.sum_congr rfl fun i _ => by rw [getD_elem a i i.2, getD_elem b i i.2]

theorem env_X : envOf s.ctx X = ⟨[N], fun ix => (Buf.getU (.array [N]) s.x ix).getD 0⟩ := rfl
theorem env_Y : envOf s.ctx Y = ⟨[], fun ix => (Buf.getU .scalar s.y ix).getD 0⟩ := rfl
theorem env_W : envOf s.ctx W = ⟨[N], fun ix => (Buf.getU (.array [N]) s.w ix).getD 0⟩ := rfl

/-- The product `⟨x, w⟩`. -/
def dotXW : ℝ := ∑ i, s.x.elem i * s.w.elem i

/-- The expression denotes the scalar `a`. -/
def DenS (e : Node ℝ) (a : ℝ) : Prop :=
  (den (envOf s.ctx) e).dims = [] ∧ (den (envOf s.ctx) e).val [] = a

/-- The expression denotes the vector `f`. -/
def DenV (e : Node ℝ) (f : Fin N → ℝ) : Prop :=
  (den (envOf s.ctx) e).dims = [N] ∧
    ∀ k : Fin N, (den (envOf s.ctx) e).val [k.val] = f k

variable {s}

theorem zip_ss {g : ℝ → ℝ → ℝ} {S T : Tensor ℝ} {a b : ℝ} (hS : S.dims = [] ∧ S.val [] = a)
    (hT : T.dims = [] ∧ T.val [] = b) :
    (Tensor.zip g S T).dims = [] ∧ (Tensor.zip g S T).val [] = g a b := by
  simp [Tensor.zip, bIdx, hS, hT]

theorem zip_vs {g : ℝ → ℝ → ℝ} {S T : Tensor ℝ} {f : Fin N → ℝ} {b : ℝ}
    (hS : S.dims = [N] ∧ ∀ k : Fin N, S.val [k.val] = f k) (hT : T.dims = [] ∧ T.val [] = b) :
    (Tensor.zip g S T).dims = [N] ∧ ∀ k : Fin N, (Tensor.zip g S T).val [k.val] = g (f k) b := by
  simp [Tensor.zip, bIdx, hS, hT]

theorem zip_sv {g : ℝ → ℝ → ℝ} {S T : Tensor ℝ} {f : Fin N → ℝ} {a : ℝ}
    (hS : S.dims = [] ∧ S.val [] = a) (hT : T.dims = [N] ∧ ∀ k : Fin N, T.val [k.val] = f k) :
    (Tensor.zip g S T).dims = [N] ∧ ∀ k : Fin N, (Tensor.zip g S T).val [k.val] = g a (f k) := by
  simp [Tensor.zip, bIdx, hS, hT]

theorem zip_vv {g : ℝ → ℝ → ℝ} {S T : Tensor ℝ} {f f' : Fin N → ℝ}
    (hS : S.dims = [N] ∧ ∀ k : Fin N, S.val [k.val] = f k)
    (hT : T.dims = [N] ∧ ∀ k : Fin N, T.val [k.val] = f' k) :
    (Tensor.zip g S T).dims = [N] ∧ ∀ k : Fin N, (Tensor.zip g S T).val [k.val] = g (f k) (f' k) := by
  simp [Tensor.zip, bIdx, hS, hT]

theorem DenS.un {e : Node ℝ} {a : ℝ} (h : DenS s e a) (op : UnOp) : DenS s (.un op e) (op.apply a) :=
  ⟨h.1, congrArg op.apply h.2⟩

theorem DenV.un {e : Node ℝ} {f : Fin N → ℝ} (h : DenV s e f) (op : UnOp) :
    DenV s (.un op e) fun k => op.apply (f k) :=
  ⟨h.1, fun k => congrArg op.apply (h.2 k)⟩

variable (s)

theorem den_Y : DenS s (.var Y) s.y := ⟨rfl, rfl⟩

theorem den_dot : DenS s (.contract 1 (.var X) (.var W)) (dotXW s) := by
  refine ⟨by simp [den, env_X, env_W, Tensor.contract], ?_⟩
  simp only [den, env_X, env_W, Tensor.contract]
  simpa [sumOver, dotXW] using dot_range s.x s.w

/-- The derivative of `⟨x, w⟩` with respect to `w` denotes `x`. -/
theorem den_dotAdj : DenV s (.add (.contract 1 (.var X) (.varAdj W W))
    (.contract 1 (.varAdj X W) (.var W))) s.x.elem := by
  refine ⟨by simp [den, env_X, env_W, Tensor.contract, Tensor.zip, Tensor.delta], fun k => ?_⟩
  simp only [den, env_X, env_W, Tensor.contract, Tensor.zip, Tensor.delta, bIdx]
  simp [sumOver, getD_elem s.x k k.2]

theorem den_yAdj : DenV s (.varAdj Y W) fun _ => 0 := by
  simp [DenV, den, env_Y, env_W, Tensor.delta]

theorem types_X : types N X = .array [N] := rfl
theorem types_Y : types N Y = .scalar := rfl
theorem types_W : types N W = .array [N] := rfl

theorem types_ne_vec (i : Id) : types N i ≠ .vec := by
  match i with
  | 0 | 1 | 2 | _ + 3 => simp [types]

theorem ctx_ne_none {e : Node ℝ} (he : ∀ i, NeedsId e i → i = X ∨ i = Y ∨ i = W) :
    ∀ i, NeedsId e i → s.ctx i ≠ none := by
  intro i hi
  rcases he i hi with rfl | rfl | rfl <;> simp [Data.ctx]

/-- An impl of a vector-valued expression returns the vector it denotes. -/
theorem eval_of_den {e : Node ℝ} {f : Fin N → ℝ} (d : FnImpl (types N) e (.array [N]))
    (hd : DenV s e f) (hc : CacheFree e) (hf : FixedSize (types N) e) (hp : PowSafe (envOf s.ctx) e)
    (hq : FnImpl.ProductsInRange d) (hr : FnImpl.Regular d)
    (he : ∀ i, NeedsId e i → i = X ∨ i = Y ∨ i = W) :
    ∃ g : NArr ℝ [N], (d.evaluate s.ctx).1 = .ok g ∧ ∀ k, g.elem k = f k := by
  obtain ⟨⟨g, c', h⟩, -⟩ := C21_total_partial (fun n => by simp [ScalarFns.fromUsize]) d hf hq s.ctx
    (ctx_ne_none s he)
  refine ⟨g, by rw [h], fun k => ?_⟩
  have ht := Props.C19_value_cache_free_partial d hc s.ctx hp hr g (by rw [h])
  have hv := ht.2 [k] (by rw [hd.1]; exact .cons k.2 .nil)
  rw [show Buf.getU (.array [N]) g [k] = _ from NArr.getU_elem g k k.2, Option.some_inj, hd.2] at hv
  exact hv

/-- An impl of a scalar-valued expression returns the scalar it denotes. -/
theorem eval_of_denS {e : Node ℝ} {a : ℝ} (d : FnImpl (types N) e .scalar)
    (hd : DenS s e a) (hc : CacheFree e) (hf : FixedSize (types N) e) (hp : PowSafe (envOf s.ctx) e)
    (hq : FnImpl.ProductsInRange d) (hr : FnImpl.Regular d)
    (he : ∀ i, NeedsId e i → i = X ∨ i = Y ∨ i = W) : (d.evaluate s.ctx).1 = .ok a := by
  obtain ⟨⟨g, c', h⟩, -⟩ := C21_total_partial (fun n => by simp [ScalarFns.fromUsize]) d hf hq s.ctx
    (ctx_ne_none s he)
  have ht := Props.C19_value_cache_free_partial d hc s.ctx hp hr g (by rw [h])
  have hv := ht.2 [] (by rw [hd.1]; exact .nil)
  rw [hd.2, show Buf.getU .scalar g [] = some g from rfl, Option.some_inj] at hv
  rw [h, ← hv]

theorem sse_eval : ∃ g : NArr ℝ [N], ((sseImpl N).evaluate s.ctx).1 = .ok g ∧
    ∀ k, g.elem k = 2 * (dotXW s - s.y) * s.x.elem k := by
  have hden : DenV s sseAdj _ :=
    zip_sv (DenS.un (e := .sub (.contract 1 (.var X) (.var W)) (.var Y))
      (zip_ss (den_dot s) (den_Y s)) .double)
      (zip_vv (den_dotAdj s) (den_yAdj s))
  obtain ⟨g, hg, h⟩ := eval_of_den s (sseImpl N) hden (by simp [CacheFree, sseAdj])
    ⟨fun i _ => types_ne_vec i, fun τ b h => by simp [sseAdj] at h,
      fun τ b h => by simp [sseAdj] at h⟩ (by simp [PowSafe, sseAdj])
    (by simp [sseImpl, FnImpl.ProductsInRange, types_X])
    (by simp [sseImpl, FnImpl.Regular, types_X, types_Y, types_W])
    (fun i hi => by simp [sseAdj, NeedsId] at hi; tauto)
  refine ⟨g, hg, fun k => ?_⟩
  rw [h]
  simp only [UnOp.apply]
  ring

/-- What is inside the logarithm. -/
theorem den_prob : DenS s prob (sigmoid (dotXW s)) := (den_dot s).un .sigmoid

theorem den_mix : DenS s (.add (.mul prob (.var Y)) (.mul (.un .oneSub prob) (.un .oneSub (.var Y))))
    (sigmoid (dotXW s) * s.y + (1 - sigmoid (dotXW s)) * (1 - s.y)) :=
  zip_ss (zip_ss (den_prob s) (den_Y s))
    (zip_ss ((den_prob s).un .oneSub) ((den_Y s).un .oneSub))

theorem den_probAdj : DenV s probAdj fun k =>
    s.x.elem k * (sigmoid (dotXW s) * (1 - sigmoid (dotXW s))) :=
  zip_vs (den_dotAdj s) ((den_prob s).un .rabbit)

/-- The value of the likelihood. -/
theorem likelihood_value : ((likelihoodValue N).evaluate s.ctx).1 =
    .ok (Real.log (sigmoid (dotXW s) * s.y + (1 - sigmoid (dotXW s)) * (1 - s.y))) :=
  eval_of_denS s (likelihoodValue N) ((den_mix s).un .ln)
    (by simp [CacheFree, likelihood, prob])
    ⟨fun i _ => types_ne_vec i, fun τ b h => by simp [likelihood, prob] at h,
      fun τ b h => by simp [likelihood, prob] at h⟩
    (by simp [PowSafe, likelihood, prob])
    (by simp [likelihoodValue, probImpl, mixImpl, FnImpl.ProductsInRange, types_X])
    (by simp [likelihoodValue, probImpl, mixImpl, FnImpl.Regular, types_X, types_W])
    (fun i hi => by simp [likelihood, prob, NeedsId] at hi; tauto)

theorem likelihood_eval : ∃ g : NArr ℝ [N], ((likelihoodImpl N).evaluate s.ctx).1 = .ok g ∧
    ∀ k, g.elem k = s.x.elem k * (sigmoid (dotXW s) * (1 - sigmoid (dotXW s))) * (2 * s.y - 1) /
      (sigmoid (dotXW s) * s.y + (1 - sigmoid (dotXW s)) * (1 - s.y)) := by
  have hden : DenV s likelihoodAdj _ :=
    zip_vs (zip_vv
      (zip_vv (zip_vs (den_probAdj s) (den_Y s)) (zip_vs (den_yAdj s) (den_prob s)))
      (zip_vv (zip_vs ((den_probAdj s).un .negate) ((den_Y s).un .oneSub))
        (zip_vs ((den_yAdj s).un .negate) ((den_prob s).un .oneSub)))) (den_mix s)
  obtain ⟨g, hg, h⟩ := eval_of_den s (likelihoodImpl N) hden
    (by simp [CacheFree, likelihoodAdj, probAdj, prob])
    ⟨fun i _ => types_ne_vec i, fun τ b h => by simp [likelihoodAdj, probAdj, prob] at h,
      fun τ b h => by simp [likelihoodAdj, probAdj, prob] at h⟩
    (by simp [PowSafe, likelihoodAdj, probAdj, prob])
    (by simp [likelihoodImpl, probAdjImpl, probImpl, mixImpl, FnImpl.ProductsInRange, types_X])
    (by simp [likelihoodImpl, probAdjImpl, probImpl, mixImpl, FnImpl.Regular, types_X, types_W])
    (fun i hi => by simp [likelihoodAdj, probAdj, prob, NeedsId] at hi; tauto)
  refine ⟨g, hg, fun k => ?_⟩
  rw [h]
  simp only [UnOp.apply]
  congr 1
  ring

end

end Aegir.Examples
