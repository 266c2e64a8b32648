import Verif.Model.Examples
import Verif.Spec.Instances
import Verif.Lemmas.OpSpec
import Verif.Lemmas.EvalShape
import Verif.Lemmas.Buffer
import Verif.Props.C23_C27_Contexts
import Mathlib.Algebra.BigOperators.Group.List.Basic
import Mathlib.Tactic.Ring
/-!
# C55: the caching example (`aegir/examples/caching.rs`)
-/

namespace Aegir.Examples
open Aegir.Spec

variable {F : Type} [CommRing F] [Div F] [ScalarFns F]

theorem sum_neg_double (x : List F) (a : F) :
    ((x.map (UnOp.double.apply)).map (UnOp.negate.apply)).foldl (· + ·) a = a - 2 * x.sum := by
  induction x generalizing a with
  | nil => simp
  | cons y ys ih =>
    simp only [List.map_cons, List.foldl_cons, List.sum_cons]
    rw [ih]
    simp only [UnOp.apply]
    ring

variable [LawfulScalar F]

omit [LawfulScalar F] in
/-- `basic` evaluates to `-2 Σ x` for every vector and changes nothing. -/
theorem C55_basic (x : List F) (c : Ctx F cacheTypes) (hx : c X = some x) :
    (basicImpl (F := F)).evaluate c = (.ok (-(2 * x.sum)), c) := by
  have h := sum_neg_double x 0
  rw [zero_sub] at h
  have h1 : (basicImpl (F := F)).evaluate c = (.ok (Buf.sum .vec (Buf.mutate .vec (Buf.mutate .vec x
      UnOp.double.apply) UnOp.negate.apply)), c) := by
    have h2 : (FnImpl.var (F := F) (Γ := cacheTypes) X).evaluate c = (.ok x, c) := by
      change EvalM.read X c = _
      simp only [EvalM.read, hx]
    exact (EvalM.map_ok_iff _ _ _ _ _).2 ⟨_, (EvalM.map_ok_iff _ _ _ _ _).2 ⟨_,
      (EvalM.map_ok_iff _ _ _ _ _).2 ⟨_, h2, rfl⟩, rfl⟩, rfl⟩
  rw [h1, Buf.mutate_eq_map, Buf.mutate_eq_map, ← h]
  rfl

/-- Evaluation of a sum of two scalars. -/
theorem add_eval {l r : Node F} (dl : FnImpl cacheTypes l .scalar) (dr : FnImpl cacheTypes r .scalar)
    (c c1 c2 : Ctx F cacheTypes) (u v : F) (hl : dl.evaluate c = (.ok u, c1))
    (hr : dr.evaluate c1 = (.ok v, c2)) : (FnImpl.add dl dr .ss).evaluate c = (.ok (u + v), c2) := by
  have el : dl.evaluate = dl.fn.evaluateSpec.map BSpec.unwrap := dl.evaluate_eq
  have er : dr.evaluate = dr.fn.evaluateSpec.map BSpec.unwrap := dr.evaluate_eq
  have e : (FnImpl.add dl dr .ss).evaluate = (FnImpl.add dl dr .ss).fn.evaluateSpec.map BSpec.unwrap :=
    (FnImpl.add dl dr .ss).evaluate_eq
  rw [el] at hl
  rw [er] at hr
  obtain ⟨x, hx, rfl⟩ := (EvalM.map_ok_iff _ _ _ _ _).1 hl
  obtain ⟨y, hy, rfl⟩ := (EvalM.map_ok_iff _ _ _ _ _).1 hr
  obtain ⟨s, hs, hu⟩ := (addSpec_sameOk .ss x y (x.unwrap + y.unwrap)).2 rfl
  rw [e]
  exact (EvalM.map_ok_iff _ _ _ _ _).2 ⟨s, (binM_ok_iff _ _ _ _ _ _).2 ⟨x, c1, y, hx, hy, hs⟩, hu⟩

/-- Eight terms of an expression that leaves the context alone from the second evaluation on. -/
theorem repeated_eval {node : Node F} (d : FnImpl cacheTypes node .scalar) (c c' : Ctx F cacheTypes)
    (v : F) (h : d.evaluate c = (.ok v, c')) (h' : d.evaluate c' = (.ok v, c')) :
    (repeatedImpl d).evaluate c = (.ok (8 * v), c') := by
  have := add_eval _ _ _ _ _ _ _ (add_eval _ _ _ _ _ _ _ (add_eval _ _ _ _ _ _ _ (add_eval _ _ _ _ _ _ _
    (add_eval _ _ _ _ _ _ _ (add_eval _ _ _ _ _ _ _ (add_eval _ _ _ _ _ _ _ h h') h') h') h') h') h') h'
  rw [show (8 : F) * v = v + v + v + v + v + v + v + v by ring]
  exact this

/-- The first measurement: `-16 Σ x`, and the context is unchanged. -/
theorem C55_plain (x : List F) :
    (repeatedImpl basicImpl).evaluate (cacheCtx x) = (.ok (-(16 * x.sum)), cacheCtx x) := by
  rw [repeated_eval basicImpl _ _ _ (C55_basic x _ rfl) (C55_basic x _ rfl)]
  congr 2
  ring

/-- The second measurement: the same value, and afterwards the cache holds the value of `basic`. -/
theorem C55_cached (x : List F) : ∃ c', (repeatedImpl cachedImpl).evaluate (cacheCtx x) =
    (.ok (-(16 * x.sum)), c') ∧ c' 1 = some (-(2 * x.sum)) ∧ ∀ j, j ≠ 1 → c' j = cacheCtx x j := by
  obtain ⟨c', h, h1, h2⟩ := C27_miss (Γ := cacheTypes) 1 basicImpl (cacheCtx x) _ _ rfl
    (C55_basic x _ rfl)
  refine ⟨c', ?_, h1, h2⟩
  rw [repeated_eval cachedImpl _ _ _ h (C27_hit (Γ := cacheTypes) 1 basicImpl c' _ h1).1]
  congr 2
  ring

/-- With a filled cache the vector is not looked at: any other vector, or none at all, gives the
same result, so `basic` is evaluated for the first of the eight terms only. -/
theorem C55_reuse (v : F) (c : Ctx F cacheTypes) (h : c 1 = some v) :
    (repeatedImpl cachedImpl).evaluate c = (.ok (8 * v), c) :=
  have hh := (C27_hit (Γ := cacheTypes) 1 basicImpl c v h).1
  repeated_eval cachedImpl c c v hh hh

/-! ### Concrete cases -/

/-- `x = [1, 2, 3]`: both measurements compute `-96`, and the cache holds `-12`. -/
example : ((repeatedImpl basicImpl).evaluate (cacheCtx [(1 : ℤ), 2, 3])).1 = .ok (-96) ∧
    ((repeatedImpl cachedImpl).evaluate (cacheCtx [(1 : ℤ), 2, 3])).1 = .ok (-96) ∧
    ((repeatedImpl cachedImpl).evaluate (cacheCtx [(1 : ℤ), 2, 3])).2 1 = some (-12 : ℤ) :=
  ⟨rfl, rfl, rfl⟩

/-- A context without the vector: the plain expression fails, the cached one does not. -/
example : let c : Ctx ℤ cacheTypes := fun i => match i with | 0 => none | _ + 1 => some (-12 : ℤ)
    (∃ e, ((repeatedImpl basicImpl).evaluate c).1 = .err e) ∧
      ((repeatedImpl cachedImpl).evaluate c).1 = .ok (-96) :=
  ⟨⟨_, rfl⟩, rfl⟩

end Aegir.Examples
