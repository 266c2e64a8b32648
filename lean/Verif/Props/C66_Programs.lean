import Verif.Lemmas.Program
import Verif.Props.C34_C35_Adjoints
/-!
# C66: scalar programs from source to derivative

From the text inside `aegir!` to numbers: the macro expands, the tokens are read, the builder methods
construct a node, the impls are resolved, and `evaluate`, `evaluate_adjoint` and `evaluate_dual`
return the value of the function that the source means and its partial derivatives.
-/

namespace Aegir

open Spec Compile Props

/-- Names that stand for variables: `let x = X.into_var();`. -/
def varEnv {F : Type} (names : String → Option Id) : String → Option (Node F) :=
  fun p => (names p).map .var

/-- The meaning of such names: coordinates. -/
def coords (names : String → Option Id) : String → Option Meaning :=
  fun p => (names p).map fun i => ⟨fun v => v i, fun _ => True⟩

private theorem envFor_vars (names : String → Option Id) : EnvFor (coords names) (varEnv names) := by
  intro p m hp
  obtain ⟨i, hi, rfl⟩ := Option.map_eq_some_iff.1 hp
  exact ⟨.var i, by rw [varEnv, hi]; rfl, .var i⟩

/-- Every program with a meaning compiles. -/
theorem C66_compiles {num : String → ℝ} (h2 : num "2.0" = 2)
    (names : String → Option Id) {bs : List (String × Compile.Expr)} {ρ : String → Option Meaning}
    (hb : Binds num (coords names) bs ρ) {e : Compile.Expr} {m : Meaning} (he : Computes num ρ e m) :
    ∃ env n, Compiles (floats num) (varEnv names) bs env ∧ Constructs env (floats num) e n := by
  obtain ⟨env, h1, hρ⟩ := compiles_of_binds h2 hb (envFor_vars names)
  obtain ⟨n, hn, -⟩ := constructs_of_computes h2 hρ he
  exact ⟨env, n, h1, hn⟩

/-- The node has the meaning of its source. -/
theorem compiles_represents {num : String → ℝ} (h2 : num "2.0" = 2)
    (names : String → Option Id) {bs : List (String × Compile.Expr)} {ρ : String → Option Meaning}
    (hb : Binds num (coords names) bs ρ) {e : Compile.Expr} {m : Meaning} (he : Computes num ρ e m)
    {env : String → Option (Node ℝ)} (hc : Compiles (floats num) (varEnv names) bs env) {n : Node ℝ}
    (hn : Constructs env (floats num) e n) : Represents n m := by
  obtain ⟨env', h1, hρ⟩ := compiles_of_binds h2 hb (envFor_vars names)
  obtain rfl := compiles_unique hc h1
  obtain ⟨n', hn', hr⟩ := constructs_of_computes h2 hρ he
  rwa [constructs_unique hn hn']

/-- Evaluating the node that the compiler makes of a program returns the number that the source
denotes, at every point. -/
theorem C66_value {num : String → ℝ} (h2 : num "2.0" = 2)
    (names : String → Option Id) {bs : List (String × Compile.Expr)} {ρ : String → Option Meaning}
    (hb : Binds num (coords names) bs ρ) {e : Compile.Expr} {m : Meaning} (he : Computes num ρ e m)
    {env : String → Option (Node ℝ)} (hc : Compiles (floats num) (varEnv names) bs env) {n : Node ℝ}
    (hn : Constructs env (floats num) e n) (v : Point) :
    run n (pointCtx v) = some ⟨.scalar, .ok (m.fn v)⟩ := by
  have hr := compiles_represents h2 names hb he hc hn
  obtain ⟨d⟩ := hr.plain.impl
  rw [(C48_run n (pointCtx v)).2 d, hr.evaluates v d]

/-- At the points where the rules of calculus apply, `evaluate_adjoint` returns the partial derivative
of the function that the source denotes, and `evaluate_dual` returns both. -/
theorem C66_derivative {num : String → ℝ} (h2 : num "2.0" = 2)
    (names : String → Option Id) {bs : List (String × Compile.Expr)} {ρ : String → Option Meaning}
    (hb : Binds num (coords names) bs ρ) {e : Compile.Expr} {m : Meaning} (he : Computes num ρ e m)
    {env : String → Option (Node ℝ)} (hc : Compiles (floats num) (varEnv names) bs env) {n : Node ℝ}
    (hn : Constructs env (floats num) e n) (v : Point) (hv : m.dom v) (t : Id) :
    ∃ a : ℝ, HasDerivAt (fun s => m.fn (Function.update v t s)) a (v t) ∧
      runAdjoint n t (pointCtx v) = some ⟨.scalar, .ok a⟩ ∧
      runDual n t (pointCtx v) = some ⟨.scalar, .scalar, .ok (m.fn v, a)⟩ := by
  have hr := compiles_represents h2 names hb he hc hn
  obtain ⟨d⟩ := hr.plain.impl
  obtain ⟨n', hn'⟩ := hr.plain.adjoint t
  obtain ⟨da⟩ := C28_evaluable_partial hn' hr.plain.cacheFree hr.plain.allScalar rfl d
  obtain ⟨a, ha, hd⟩ := hr.differentiates t hn' v hv da
  refine ⟨a, hd, ?_, ?_⟩
  · rw [(C48_runs n (pointCtx v) t).2.1 da hn', ha]
  · rw [(C48_runs n (pointCtx v) t).2.2.1 d da hn']
    rw [(C35_cache_free hn' hr.plain.cacheFree d da _ _ _).2 ⟨hr.evaluates v d, ha⟩]

/-! ### A program

```
let s = aegir!(x * y + 1.5);
let e = aegir!((s - y) ^ 2);
```
-/

private noncomputable def num66 : String → ℝ := fun t => if t = "2.0" then 2 else 1.5

private def names66 : String → Option Id :=
  fun p => if p = "x" then some 0 else if p = "y" then some 1 else none

private def binds66 : List (String × Compile.Expr) :=
  [("s", .binary .add (.binary .mul (.path "x") (.path "y")) (.lit (.float "1.5")))]

private def expr66 : Compile.Expr :=
  .binary .bitXor (.paren (.binary .sub (.path "s") (.path "y"))) (.lit (.int "2"))

private noncomputable def meaning66 : Meaning :=
  ⟨fun v => (v 0 * v 1 + 1.5 - v 1) ^ 2, fun _ => ((True ∧ True) ∧ True) ∧ True⟩

private theorem means66 : ∃ ρ, Binds num66 (coords names66) binds66 ρ ∧
    Computes num66 ρ expr66 meaning66 := by
  have hx : coords names66 "x" = some ⟨fun v => v 0, fun _ => True⟩ := rfl
  have hy : coords names66 "y" = some ⟨fun v => v 1, fun _ => True⟩ := rfl
  have hn : num66 "1.5" = 1.5 := if_neg (by decide)
  refine ⟨_, .cons (.add (.mul (.path hx) (.path hy)) (.float _)) (.nil _), ?_⟩
  have := Computes.square (num := num66) (.paren (.sub
    (.path (ρ := fun q => if q = "s" then some ⟨fun v => v 0 * v 1 + num66 "1.5",
      fun _ => (True ∧ True) ∧ True⟩ else coords names66 q) (p := "s") (if_pos rfl))
    (.path (p := "y") ((if_neg (by decide)).trans hy)))) (r := .lit (.int "2")) (.inl rfl)
  rw [hn] at this ⊢
  exact this

/-- It compiles, and at `x = 2`, `y = 3` its value is `4.5² = 20.25`, its derivative in `x` is
`2 · 4.5 · 3 = 27` and its derivative in `y` is `2 · 4.5 · (2 - 1) = 9`. -/
example : ∃ env n, Compiles (floats num66) (varEnv names66) binds66 env ∧
    Constructs env (floats num66) expr66 n ∧
    ∀ v : Point, v 0 = 2 → v 1 = 3 →
      run n (pointCtx v) = some ⟨.scalar, .ok (20.25 : ℝ)⟩ ∧
      runAdjoint n 0 (pointCtx v) = some ⟨.scalar, .ok (27 : ℝ)⟩ ∧
      runAdjoint n 1 (pointCtx v) = some ⟨.scalar, .ok (9 : ℝ)⟩ := by
  have h2 : num66 "2.0" = 2 := if_pos rfl
  obtain ⟨ρ, hb, he⟩ := means66
  obtain ⟨env, n, hc, hn⟩ := C66_compiles h2 names66 hb he
  refine ⟨env, n, hc, hn, fun v h0 h1 => ⟨?_, ?_, ?_⟩⟩
  · rw [C66_value h2 names66 hb he hc hn v]
    have : meaning66.fn v = 20.25 := by
      show (v 0 * v 1 + 1.5 - v 1) ^ 2 = _
      rw [h0, h1]
      norm_num
    rw [this]
  · obtain ⟨a, ha, hr, -⟩ := C66_derivative h2 names66 hb he hc hn v (by simp [meaning66]) 0
    have h : HasDerivAt (fun s => (s * v 1 + 1.5 - v 1) ^ 2) (2 * (2 * v 1 + 1.5 - v 1) * v 1) (v 0) := by
      have := ((((hasDerivAt_id (v 0)).mul_const (v 1)).add_const 1.5).sub_const (v 1)).pow 2
      exact this.congr_deriv (by simp [h0])
    have ha' : HasDerivAt (fun s => (s * v 1 + 1.5 - v 1) ^ 2) a (v 0) := by
      simpa [meaning66, Function.update_apply] using ha
    rw [hr, ha'.unique h, h1]
    norm_num
  · obtain ⟨a, ha, hr, -⟩ := C66_derivative h2 names66 hb he hc hn v (by simp [meaning66]) 1
    have h : HasDerivAt (fun s => (v 0 * s + 1.5 - s) ^ 2) (2 * (v 0 * 3 + 1.5 - 3) * (v 0 - 1)) (v 1) := by
      have := ((((hasDerivAt_id (v 1)).const_mul (v 0)).add_const 1.5).sub (hasDerivAt_id (v 1))).pow 2
      exact this.congr_deriv (by simp [h1])
    have ha' : HasDerivAt (fun s => (v 0 * s + 1.5 - s) ^ 2) a (v 1) := by
      simpa [meaning66, Function.update_apply] using ha
    rw [hr, ha'.unique h, h0]
    norm_num

end Aegir
