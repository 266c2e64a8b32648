import Verif.Model.Benches
import Verif.Props.C53_LinearExample
import Verif.Props.C54_LogisticExample
/-!
# C58: the benchmark programs compare like with like

The variants that each benchmark times compute the same thing (over exact reals): the adjoint made by
the library, the adjoint written out by hand, and the plain loop.
-/

namespace Aegir.Benches
open Aegir.Spec Aegir.Examples

variable {N : Nat}

theorem elem_ext {a b : NArr ℝ [N]} (h : ∀ k, a.elem k = b.elem k) : a = b := by
  refine NArr.ext_rows (ds := []) fun k => h k

/-- The label is the inner product with the first entries of the table. -/
theorem benchLabel_eq (x : NArr ℝ [N]) (tw : List ℝ) (h : N ≤ tw.length) :
    benchLabel x tw = inner' x.elem fun k => tw[k] := by
  have hz : (List.ofFn x.elem).zip (tw.take N) =
      List.ofFn fun k : Fin N => (x.elem k, tw[k]) := by
    apply List.ext_getElem
    · simp [h]
    · intro i h1 h2
      simp
  rw [benchLabel, hz, inner', ← List.sum_ofFn, List.sum_eq_foldl, List.ofFn_eq_map, List.ofFn_eq_map,
    List.foldl_map, List.foldl_map]

theorem den_X (s : Data ℝ N) : DenV s (.var X) s.x.elem :=
  ⟨rfl, fun k => getD_elem s.x k k.2⟩

/-! ## `linear.rs` -/

theorem linearManual_eval (s : Data ℝ N) : ∃ g : NArr ℝ [N],
    ((linearManualImpl N).evaluate s.ctx).1 = .ok g ∧
      ∀ k, g.elem k = 2 * (dotXW s - s.y) * s.x.elem k := by
  have hden : DenV s linearManual _ :=
    zip_sv (DenS.un (e := .sub (.contract 1 (.var X) (.var W)) (.var Y))
      (zip_ss (den_dot s) (den_Y s)) .double) (den_X s)
  obtain ⟨g, hg, h⟩ := eval_of_den s (linearManualImpl N) hden (by simp [CacheFree, linearManual])
    ⟨fun i _ => types_ne_vec i, fun τ b h => by simp [linearManual] at h,
      fun τ b h => by simp [linearManual] at h⟩ (by simp [PowSafe, linearManual])
    (by simp [linearManualImpl, FnImpl.ProductsInRange, types_X])
    (by simp [linearManualImpl, FnImpl.Regular, types_X, types_Y, types_W])
    (fun i hi => by simp [linearManual, NeedsId] at hi; tauto)
  refine ⟨g, hg, fun k => ?_⟩
  rw [h]
  simp only [UnOp.apply]
  ring

/-- The three gradients of `linear.rs` agree in every state, and none of them panics. -/
theorem C58_linear_gradient (s : Data ℝ N) : ∃ g : NArr ℝ [N],
    ((sseImpl N).evaluate s.ctx).1 = .ok g ∧ ((linearManualImpl N).evaluate s.ctx).1 = .ok g ∧
      rawAdjoint s.ctx = .ok g ∧ ∀ k, g.elem k = 2 * (inner' s.x.elem s.w.elem - s.y) * s.x.elem k := by
  obtain ⟨g, hg, h⟩ := sse_eval s
  obtain ⟨g', hg', h'⟩ := linearManual_eval s
  have hgg : g' = g := elem_ext fun k => by rw [h, h']
  subst hgg
  refine ⟨g', hg, hg', ?_, h⟩
  simp only [rawAdjoint, Data.ctx]
  refine congrArg _ (elem_ext fun k => ?_)
  have he : ∀ f : Fin N → ℝ, (NArr.ofElems f).elem k = f k := fun f => NArr.row_mkRows (ds := []) f k
  rw [h, he, show (List.finRange N).foldl (fun p i => p + s.x.elem i * s.w.elem i) 0 = label s.x s.w from rfl,
    label_eq, dotXW]
  ring

/-- The three runs of `linear.rs` end in the same state, for any number of samples, and do not
panic. -/
theorem C58_linear (η : ℝ) (tw : List ℝ) (xs : List (NArr ℝ [N])) (s : Data ℝ N) :
    ∃ s', linearAuto η tw s xs = .ok s' ∧ linearByHand η tw s xs = .ok s' ∧
      linearRaw η tw s xs = .ok s' := by
  induction xs generalizing s with
  | nil => exact ⟨s, rfl, rfl, rfl⟩
  | cons x xs ih =>
    obtain ⟨g, h1, h2, h3, -⟩ := C58_linear_gradient ⟨x, benchLabel x tw, s.w⟩
    obtain ⟨s', i1, i2, i3⟩ := ih ⟨x, benchLabel x tw, update (fun w g => w - η * g) s.w g⟩
    refine ⟨s', ?_, ?_, ?_⟩
    · rw [linearAuto, linearSolve, h1]; exact i1
    · rw [linearByHand, linearSolve, h2]; exact i2
    · rw [linearRaw, linearSolve, h3]; exact i3

/-- What they compute: gradient descent (the specification of C53), if the table of true weights is
long enough. -/
theorem C58_linear_descent (η : ℝ) (tw : List ℝ) (h : N ≤ tw.length) (xs : List (NArr ℝ [N]))
    (s : Data ℝ N) : ∃ s', linearRaw η tw s xs = .ok s' ∧
      s'.w.elem = lms η (fun k => tw[k]) s.w.elem (xs.map NArr.elem) := by
  induction xs generalizing s with
  | nil => exact ⟨s, rfl, rfl⟩
  | cons x xs ih =>
    obtain ⟨g, -, -, h3, hk⟩ := C58_linear_gradient ⟨x, benchLabel x tw, s.w⟩
    obtain ⟨s', i1, i2⟩ := ih ⟨x, benchLabel x tw, update (fun w g => w - η * g) s.w g⟩
    refine ⟨s', by rw [linearRaw, linearSolve, h3]; exact i1, ?_⟩
    rw [i2, List.map_cons, lms]
    congr 1
    funext k
    rw [update_elem, hk, benchLabel_eq x tw h]
    rfl

/-- Where a value is missing the plain loop panics (its error type has no values), while the other
two report an error to the caller (here they would be unwrapped). -/
theorem C58_raw_panics (c : Ctx ℝ (types N)) (h : c X = none ∨ c W = none ∨ c Y = none) :
    rawAdjoint c = .panic := by
  simp only [rawAdjoint]
  rcases h with h | h | h
  · rw [h]
  · rw [h]
    split
    · simp_all
    · rfl
  · rw [h]
    split
    · simp_all
    · rfl

/-! ## `logistic.rs` -/

theorem logisticManual_eval (s : Data ℝ N) : ∃ g : NArr ℝ [N],
    ((logisticManualImpl N).evaluate s.ctx).1 = .ok g ∧
      ∀ k, g.elem k = (s.y - logistic (dotXW s)) * s.x.elem k := by
  have hden : DenV s logisticManual _ :=
    zip_sv (zip_ss (zip_ss (den_Y s) ((den_prob s).un .oneSub))
      (zip_ss ((den_Y s).un .oneSub) (den_prob s))) (den_X s)
  obtain ⟨g, hg, h⟩ := eval_of_den s (logisticManualImpl N) hden
    (by simp [CacheFree, logisticManual, prob])
    ⟨fun i _ => types_ne_vec i, fun τ b h => by simp [logisticManual, prob] at h,
      fun τ b h => by simp [logisticManual, prob] at h⟩ (by simp [PowSafe, logisticManual, prob])
    (by simp [logisticManualImpl, probImpl, FnImpl.ProductsInRange, types_X])
    (by simp [logisticManualImpl, probImpl, FnImpl.Regular, types_X, types_Y, types_W])
    (fun i hi => by simp [logisticManual, prob, NeedsId] at hi; tauto)
  refine ⟨g, hg, fun k => ?_⟩
  rw [h, sigmoid_eq]
  simp only [UnOp.apply]
  ring

/-- The two gradients of `logistic.rs` agree for labels zero and one. -/
theorem C58_logistic_gradient (x w : NArr ℝ [N]) (b : Bool) : ∃ g : NArr ℝ [N],
    ((likelihoodImpl N).evaluate (Data.ctx ⟨x, if b then 1 else 0, w⟩)).1 = .ok g ∧
      ((logisticManualImpl N).evaluate (Data.ctx ⟨x, if b then 1 else 0, w⟩)).1 = .ok g ∧
      ∀ k, g.elem k = ((if b then 1 else 0) - logistic (prod' x.elem w.elem)) * x.elem k := by
  obtain ⟨g, hg, h⟩ := C54_gradient x w b
  obtain ⟨g', hg', h'⟩ := logisticManual_eval ⟨x, if b then 1 else 0, w⟩
  have hgg : g' = g := elem_ext fun k => by rw [h, h']; rfl
  subst hgg
  exact ⟨g', hg, hg', h⟩

/-- The two runs of `logistic.rs` end in the same state, for any draws, and do not panic; the weights
are those of gradient ascent (the specification of C54). -/
theorem C58_logistic (η : ℝ) (tw : List ℝ) (ds : List (NArr ℝ [N] × Bool)) (s : Data ℝ N) :
    ∃ s', logisticAuto η tw s ds = .ok s' ∧ logisticByHand η tw s ds = .ok s' ∧
      s'.w.elem = ascents η s.w.elem (ds.map fun d => (d.1.elem, d.2)) := by
  induction ds generalizing s with
  | nil => exact ⟨s, rfl, rfl, rfl⟩
  | cons d ds ih =>
    obtain ⟨x, b⟩ := d
    obtain ⟨g, h1, h2, hk⟩ := C58_logistic_gradient x s.w b
    obtain ⟨s', i1, i2, i3⟩ := ih ⟨x, if b then 1 else 0, update (fun w g => w + η * g) s.w g⟩
    refine ⟨s', ?_, ?_, ?_⟩
    · rw [logisticAuto, logisticSolve]
      simp only [C54_gen_bool, Res.bind]
      rw [h1]; exact i1
    · rw [logisticByHand, logisticSolve]
      simp only [C54_gen_bool, Res.bind]
      rw [h2]; exact i2
    · rw [i3, List.map_cons, ascents]
      congr 1
      funext k
      rw [update_elem, hk]
      rfl

/-- For other labels the two gradients differ: with label one half the library's is zero, the other
is not. -/
theorem C58_logistic_caveat : ∃ (s : Data ℝ 1) (g g' : NArr ℝ [1]),
    ((likelihoodImpl 1).evaluate s.ctx).1 = .ok g ∧
      ((logisticManualImpl 1).evaluate s.ctx).1 = .ok g' ∧ g.elem 0 = 0 ∧ g'.elem 0 ≠ 0 := by
  let s : Data ℝ 1 := ⟨NArr.ofElems fun _ => 1, 1 / 2, NArr.ofElems fun _ => 1⟩
  have he : (NArr.ofElems fun _ : Fin 1 => (1 : ℝ)).elem 0 = 1 := NArr.row_mkRows (ds := []) _ 0
  obtain ⟨g, hg, h⟩ := likelihood_eval s
  obtain ⟨g', hg', h'⟩ := logisticManual_eval s
  refine ⟨s, g, g', hg, hg', ?_, ?_⟩
  · rw [h]
    simp [s]
  · have hd : dotXW s = 1 := by simp [dotXW, s, he]
    have hl : logistic 1 ≠ 1 / 2 := by
      unfold logistic
      have : Real.exp (-1) < 1 := by rw [Real.exp_lt_one_iff]; norm_num
      have := Real.exp_pos (-1)
      intro hc
      rw [div_eq_div_iff (by positivity) (by norm_num)] at hc
      linarith
    rw [h', hd]
    simp only [s, he, mul_one]
    exact sub_ne_zero.2 hl.symm

/-! ### Concrete cases -/

/-- The table of the benchmarks has twenty entries and is used with at most twenty weights; with a
table that is too short the labels come from the part that there is. -/
example : benchLabel (NArr.ofElems ![2, 3] : NArr ℝ [2]) [10] = 20 := by
  have h0 : (NArr.ofElems ![2, 3] : NArr ℝ [2]).elem 0 = 2 := NArr.row_mkRows (ds := []) _ 0
  simp [benchLabel, h0]
  norm_num

/-- One weight at zero, table `[1]`, one sample `1`, rate `1/4`: the weight becomes one half. -/
example : ∃ s', linearRaw (1 / 4) [1] (init 1) [NArr.ofElems fun _ => (1 : ℝ)] = .ok s' ∧
    s'.w.elem 0 = 1 / 2 := by
  obtain ⟨s', h, hw⟩ := C58_linear_descent (N := 1) (1 / 4) [1] (by simp)
    [NArr.ofElems fun _ => (1 : ℝ)] (init 1)
  refine ⟨s', h, ?_⟩
  have he : (NArr.ofElems fun _ : Fin 1 => (1 : ℝ)).elem 0 = 1 := NArr.row_mkRows (ds := []) _ 0
  have h0 : (init (F := ℝ) 1).w.elem 0 = 0 := NArr.row_mkRows (ds := []) _ 0
  rw [hw]
  simp [lms, lmsStep, err, inner', he, h0]
  norm_num

end Aegir.Benches
