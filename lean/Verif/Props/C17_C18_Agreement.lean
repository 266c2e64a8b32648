import Verif.Lemmas.EvalShape
import Verif.Spec.Instances
/-!
# C17-C18: the three evaluation methods agree
-/

namespace Aegir.Props

open Spec

variable {F : Type} {Γ : Id → BTy}

/-! ## C17 evaluate and evaluate_spec agree -/

/-- `evaluate` is `evaluate_spec` followed by `unwrap`: same value, error or panic, same context
left behind, for every expression and context, in commutative-ring arithmetic. -/
theorem C17_evaluate_eq_spec_unwrap [CommRing F] [Div F] [ScalarFns F] [LawfulScalar F]
    {e : Node F} {τ : BTy} (d : FnImpl Γ e τ) (c : Ctx F Γ) :
    (d.evaluate c).1 = (d.evaluateSpec c).1.map BSpec.unwrap ∧
      (d.evaluate c).2 = (d.evaluateSpec c).2 := by
  have h := congrFun d.evaluate_eq c
  exact ⟨congrArg Prod.fst h, congrArg Prod.snd h⟩

/-- The same without any arithmetic law (so also for floats), for expressions without `Sum`. -/
theorem C17_evaluate_eq_spec_unwrap_no_laws [Zero F] [One F] [Add F] [Sub F] [Mul F] [Div F] [Neg F]
    [ScalarFns F] {e : Node F} {τ : BTy} (d : FnImpl Γ e τ) (h : SumFree e) (c : Ctx F Γ) :
    (d.evaluate c).1 = (d.evaluateSpec c).1.map BSpec.unwrap ∧
      (d.evaluate c).2 = (d.evaluateSpec c).2 := by
  have h := congrFun (d.evaluate_eq_of (.inl h)) c
  exact ⟨congrArg Prod.fst h, congrArg Prod.snd h⟩

/-! `Sum` over a 2-vector of ones, given as a compressed constant: `evaluate` adds the entries,
`evaluate_spec` multiplies by the length. -/
section
def exSum : FnImpl (F := ℤ) (fun _ => .scalar) (.sum (.constSpec (.array [2]) (.full () 3))) .scalar :=
  .sum (.constSpec _ _)
example : (exSum.evaluateSpec (fun _ => none)).1 = .ok (.full () 6) := rfl
example : (exSum.evaluate (fun _ => none)).1 = .ok (6 : ℤ) := rfl
def exAdd : FnImpl (F := ℤ) (fun _ => .scalar) (.add (.var 0) (.varAdj 0 1)) .scalar :=
  .add (.var 0) (.varAdj 0 1 .ss (by decide)) .ss
example : (exAdd.evaluate (fun _ => some (4 : ℤ))).1 = .ok (4 : ℤ) := rfl
example : SumFree (Node.add (.var 0) (.varAdj 0 1) : Node ℤ) := by
  intro n h
  cases h with
  | step hc h' =>
    simp only [children, List.mem_cons, List.not_mem_nil, or_false] at hc
    rcases hc with rfl | rfl <;> · cases h' with | step hc _ => cases hc
end

/-! ## C18 evaluate_shape predicts the shape of evaluate

Full statement: if `evaluate` succeeds with `v` then `evaluate_shape` in the same context succeeds
with the shape of `v`. -/

section
variable [Zero F] [One F] [Add F] [Sub F] [Mul F] [Div F] [Neg F] [ScalarFns F]

/-- The shape is predicted, and the same cache entries are filled, for every expression in which no
`Sum` or `Power` contains a `Cached` node. Missing: those expressions, where the claim is false
(`C18_violation_error`, `C18_violation_shape`), because `evaluate_shape` of `Sum` and `Power` does
not evaluate the operand and so does not fill its caches. -/
theorem C18_shape_partial {e : Node F} {τ : BTy} (d : FnImpl Γ e τ) (h : ShapeSafe e)
    (c c' : Ctx F Γ) (v : Buf F τ) (hv : d.evaluate c = (.ok v, c')) :
    d.evaluateShape c = (.ok (Buf.shape τ v), c') := (d.shape_spec h).1 c v c' hv

/-- The same for `evaluate_spec`. -/
theorem C18_shape_of_spec_partial {e : Node F} {τ : BTy} (d : FnImpl Γ e τ) (h : ShapeSafe e)
    (c c' : Ctx F Γ) (s : BSpec F τ) (hs : d.evaluateSpec c = (.ok s, c')) :
    d.evaluateShape c = (.ok s.shape, c') := (d.shape_spec h).2 c s c' hs

/-- In particular for every expression without `Cached` nodes. -/
theorem C18_shape_cache_free_partial {e : Node F} {τ : BTy} (d : FnImpl Γ e τ) (h : CacheFree e)
    (c c' : Ctx F Γ) (v : Buf F τ) (hv : d.evaluate c = (.ok v, c')) :
    d.evaluateShape c = (.ok (Buf.shape τ v), c') := by
  refine C18_shape_partial d ⟨fun n hn m i hm => ?_, fun l r hs m i hm => ?_⟩ c c' v hv
  · exact h m i (SubExpr.trans (.step (by simp [children]) hm) hn)
  · exact h m i (SubExpr.trans hm hs)

end

/-- Types of the witnesses: identifier 0 a scalar, the others vectors of run-time length. -/
def ΓV : Id → BTy
  | 0 => .scalar
  | _ + 1 => .vec

/-- The code violates C18: `sum(x.cached(C)) + C` evaluates, but `evaluate_shape` reports `C` as
undefined. -/
theorem C18_violation_error :
    ∃ (e : Node ℤ) (d : FnImpl (fun _ => .scalar) e .scalar) (c c' : Ctx ℤ (fun _ => .scalar))
      (v : ℤ), d.evaluate c = (.ok v, c') ∧
        (d.evaluateShape c).1 = .err (.right (.undefined 1)) :=
  ⟨.add (.sum (.cached (.var 0) 1)) (.var 1),
    .add (.sum (.cached 1 (.var 0))) (.var 1) .ss,
    (fun i => if i = 0 then some (3 : ℤ) else none), _, 6, Prod.ext rfl rfl, rfl⟩

/-- The code violates C18: `sum(x.cached(C)) + y.cached(C)` has the length of `x`, but
`evaluate_shape` returns the length of `y`. -/
theorem C18_violation_shape :
    ∃ (e : Node ℤ) (d : FnImpl ΓV e .vec) (c c' : Ctx ℤ ΓV) (v : List ℤ),
      d.evaluate c = (.ok v, c') ∧ v.length = 1 ∧ (d.evaluateShape c).1 = .ok (2 : Nat) :=
  ⟨.add (.sum (.cached (.var 1) 3)) (.cached (.var 2) 3),
    .add (.sum (.cached 3 (.var 1))) (.cached 3 (.var 2)) .sv,
    (fun | 0 => none | 1 => some [5] | 2 => some [7, 8] | _ + 3 => none), _, [10],
    Prod.ext rfl rfl, rfl, rfl⟩

example : (exAdd.evaluateShape (fun _ => some (4 : ℤ))).1 = .ok () := rfl
def exShape : FnImpl (F := ℤ) ΓV (.mul (.var 0) (.sub (.var 1) (.var 2))) .vec :=
  .mul (.var 0) (.sub (.var 1) (.var 2) .vv) .sv
example : (exShape.evaluate
    (fun | 0 => some (2 : ℤ) | 1 => some [5, 1] | 2 => some [7, 8] | _ + 3 => none)).1
      = .ok [-4, -14] := rfl
example : (exShape.evaluateShape
    (fun | 0 => some (2 : ℤ) | 1 => some [5, 1] | 2 => some [7, 8] | _ + 3 => none)).1
      = .ok (2 : Nat) := rfl

end Aegir.Props
