import Verif.Lemmas.VecProgram
import Verif.Props.C34_C35_Adjoints
import Verif.Props.C66_Programs
import Verif.Model.Examples
/-!
# C70: programs with vectors from source to gradient

As C66, for programs over numbers and vectors of a common length `N`: sums, differences, negatives and
dot products of vectors, and everything C66 allows for numbers. `evaluate_adjoint` with respect to a
vector returns the gradient, with respect to a number the partial derivative.
-/

namespace Aegir.Props

open Spec Compile
open scoped BigOperators

variable {N : ℕ} {K : Id → Bool} {num : String → ℝ} {names : String → Option Id}
  {bs : List (String × Compile.Expr)} {ρ : String → Option VMeaning} {e : Compile.Expr}
  {env : String → Option (Node ℝ)} {n : Node ℝ}

private theorem venvFor_vars (N : ℕ) (K : Id → Bool) (names : String → Option Id) :
    VEnvFor N K (vcoords K names) (varEnv names) := by
  intro p m hp
  obtain ⟨i, hi, rfl⟩ := Option.map_eq_some_iff.1 hp
  refine ⟨.var i, by rw [varEnv, hi]; rfl, ?_⟩
  split
  · exact VRep.var (by assumption)
  · exact SRep.var (by simpa using ‹¬ K i = true›)

/-- Every program with a meaning compiles. -/
theorem C70_compiles (h2 : num "2.0" = 2) (hb : BindsV N num (vcoords K names) bs ρ) {m : VMeaning}
    (he : ComputesV N num ρ e m) :
    ∃ env n, Compiles (floats num) (varEnv names) bs env ∧ Constructs env (floats num) e n := by
  obtain ⟨env, h1, hρ⟩ := compiles_of_bindsV h2 hb (venvFor_vars N K names)
  obtain ⟨n, hn, -⟩ := constructs_of_computesV h2 hρ he
  exact ⟨env, n, h1, hn⟩

private theorem rep (h2 : num "2.0" = 2) (hb : BindsV N num (vcoords K names) bs ρ) {m : VMeaning}
    (he : ComputesV N num ρ e m) (hc : Compiles (floats num) (varEnv names) bs env)
    (hn : Constructs env (floats num) e n) : Rep N K n m := by
  obtain ⟨env', h1, hρ⟩ := compiles_of_bindsV h2 hb (venvFor_vars N K names)
  obtain rfl := compiles_unique hc h1
  obtain ⟨n', hn', hr⟩ := constructs_of_computesV h2 hρ he
  rwa [constructs_unique hn hn']

/-- Evaluating the node that the compiler makes of a program returns the number that the source
denotes, at every point where no power is `0 ^ 0`. -/
theorem C70_value (h2 : num "2.0" = 2) (hb : BindsV N num (vcoords K names) bs ρ) {f : VPoint → ℝ}
    {A D : VPoint → Prop} (he : ComputesV N num ρ e (.num f A D))
    (hc : Compiles (floats num) (varEnv names) bs env) (hn : Constructs env (floats num) e n)
    (p : VPoint) (hp : A p) : run n (vpointCtx N K p) = some ⟨.scalar, .ok (f p)⟩ := by
  have hr : SRep N K n f A D := rep h2 hb he hc hn
  obtain ⟨d, hd⟩ := hr.has
  rw [(C48_run n (vpointCtx N K p)).2 d, hr.evaluates p (hr.safe p hp) d hd]

/-- A vector expression evaluates to the vector it denotes, at every point. -/
theorem C70_vector (h2 : num "2.0" = 2) (hb : BindsV N num (vcoords K names) bs ρ)
    {f : VPoint → ℕ → ℝ} (he : ComputesV N num ρ e (.vec f))
    (hc : Compiles (floats num) (varEnv names) bs env) (hn : Constructs env (floats num) e n)
    (p : VPoint) :
    run n (vpointCtx N K p) =
      some ⟨.array [N], .ok (Buf.build (.array [N]) () fun ix => f p (ix.headD 0))⟩ := by
  have hr : VRep N K n f := rep h2 hb he hc hn
  obtain ⟨d, hd⟩ := hr.has
  rw [(C48_run n (vpointCtx N K p)).2 d, hr.evaluates p d hd]

private theorem buf_eq (a : Buf ℝ (.array [N])) {g : ℕ → ℝ}
    (h : ∀ k < N, Buf.getU (.array [N]) a [k] = some (g k)) :
    a = Buf.build (.array [N]) () fun ix => g (ix.headD 0) := by
  refine Buf.ext _ _ _ rfl fun ix hix => ?_
  have hix' : InBounds [N] ix := hix
  rw [Buf.getU_build (.array [N]) () _ ix hix']
  cases hix' with
  | cons hk h' =>
    cases h'
    exact h _ hk

/-- Where the rules of calculus apply, `evaluate_adjoint` with respect to a vector returns the vector
of the partial derivatives in its entries, and `evaluate_dual` returns the value with it. -/
theorem C70_gradient (h2 : num "2.0" = 2) (hb : BindsV N num (vcoords K names) bs ρ)
    {f : VPoint → ℝ} {A D : VPoint → Prop} (he : ComputesV N num ρ e (.num f A D))
    (hc : Compiles (floats num) (varEnv names) bs env) (hn : Constructs env (floats num) e n)
    (p : VPoint) (hp : D p) {t : Id} (ht : K t = true) :
    ∃ g : ℕ → ℝ, (∀ k < N, HasDerivAt (fun s => f (p.setVec t k s)) (g k) (p.vec t k)) ∧
      runAdjoint n t (vpointCtx N K p) =
        some ⟨.array [N], .ok (Buf.build (.array [N]) () fun ix => g (ix.headD 0))⟩ ∧
      runDual n t (vpointCtx N K p) = some ⟨.scalar, .array [N],
        .ok (f p, Buf.build (.array [N]) () fun ix => g (ix.headD 0))⟩ := by
  have hr : SRep N K n f A D := rep h2 hb he hc hn
  obtain ⟨d, hd⟩ := hr.has
  obtain ⟨n', hn', h'⟩ := hr.adj t
  rw [ht] at h'
  obtain ⟨da, hda⟩ : Has (kinds N K) n' (.array [N]) := h'
  obtain ⟨a, ha, hg⟩ := hr.gradient ht hn' hp da hda
  choose! g hg using hg
  have hae := buf_eq a fun k hk => (hg k hk).1
  refine ⟨g, fun k hk => (hg k hk).2, ?_, ?_⟩
  · rw [(C48_runs n (vpointCtx N K p) t).2.1 da hn', ha, hae]
  · rw [(C48_runs n (vpointCtx N K p) t).2.2.1 d da hn', (C35_cache_free hn' hr.free d da _ _ _).2
      ⟨hr.evaluates p (powSafe_of_smooth (hr.smooth p t hp)) d hd, ha⟩, hae]

/-- With respect to a number, they return the partial derivative. -/
theorem C70_derivative (h2 : num "2.0" = 2) (hb : BindsV N num (vcoords K names) bs ρ)
    {f : VPoint → ℝ} {A D : VPoint → Prop} (he : ComputesV N num ρ e (.num f A D))
    (hc : Compiles (floats num) (varEnv names) bs env) (hn : Constructs env (floats num) e n)
    (p : VPoint) (hp : D p) {t : Id} (ht : K t = false) :
    ∃ g : ℝ, HasDerivAt (fun s => f (p.setNum t s)) g (p.num t) ∧
      runAdjoint n t (vpointCtx N K p) = some ⟨.scalar, .ok g⟩ ∧
      runDual n t (vpointCtx N K p) = some ⟨.scalar, .scalar, .ok (f p, g)⟩ := by
  have hr : SRep N K n f A D := rep h2 hb he hc hn
  obtain ⟨d, hd⟩ := hr.has
  obtain ⟨n', hn', h'⟩ := hr.adj t
  rw [ht] at h'
  obtain ⟨da, hda⟩ : Has (kinds N K) n' .scalar := h'
  obtain ⟨a, g, ha, hg, hdg⟩ := hr.derivative ht hn' hp da hda
  obtain rfl : a = g := Option.some.inj hg
  refine ⟨a, hdg, ?_, ?_⟩
  · rw [(C48_runs n (vpointCtx N K p) t).2.1 da hn', ha]
  · rw [(C48_runs n (vpointCtx N K p) t).2.2.1 d da hn', (C35_cache_free hn' hr.free d da _ _ _).2
      ⟨hr.evaluates p (powSafe_of_smooth (hr.smooth p t hp)) d hd, ha⟩]

/-! ### The program of the README

```
ctx_type!(Ctx {x: X, y: Y, w: W});
let model = x.dot(w);
let sse = aegir!((model - y) ^ 2);
```
-/

/-- `x` and `w` are vectors, `y` is a number (README.md L37-45). -/
def c70Kind : Id → Bool := fun i => i == Examples.X || i == Examples.W

/-- `let x = X.into_var();` and so on (README.md L47-49). -/
def c70Names : String → Option Id := fun p =>
  if p = "x" then some Examples.X else if p = "y" then some Examples.Y
  else if p = "w" then some Examples.W else none

/-- `let model = x.dot(w);` (README.md L51). -/
def c70Binds : List (String × Compile.Expr) :=
  [("model", .methodCall (.path "x") "dot" [.path "w"])]

/-- `aegir!((model - y) ^ 2)` (README.md L58). -/
def c70Sse : Compile.Expr :=
  .binary .bitXor (.paren (.binary .sub (.path "model") (.path "y"))) (.lit (.int "2"))

/-- The squared error. -/
noncomputable def c70Error (N : ℕ) (p : VPoint) : ℝ :=
  (∑ k ∈ Finset.range N, p.vec Examples.X k * p.vec Examples.W k - p.num Examples.Y) ^ 2

private theorem c70Means (N : ℕ) (num : String → ℝ) : ∃ ρ,
    BindsV N num (vcoords c70Kind c70Names) c70Binds ρ ∧
    ComputesV N num ρ c70Sse (.num (c70Error N) (fun _ => True ∧ True) fun _ => True ∧ True) := by
  have hx : vcoords c70Kind c70Names "x" = some (.vec fun p => p.vec Examples.X) := rfl
  have hw : vcoords c70Kind c70Names "w" = some (.vec fun p => p.vec Examples.W) := rfl
  have hy : vcoords c70Kind c70Names "y" =
      some (.num (fun p => p.num Examples.Y) (fun _ => True) fun _ => True) := rfl
  refine ⟨_, .cons (.dot (.path hx) (.path hw)) (.nil _), ?_⟩
  exact .square (.paren (.sub (.path (if_pos rfl)) (.path ((if_neg (by decide)).trans hy)))) (.inl rfl)

/-- For every number of features: the README's program compiles to the node of `Examples.sse` (C53),
its value is the squared error, and its adjoint in `w` is `2 (⟨x, w⟩ - y) x`. -/
theorem C70_readme (N : ℕ) (num : String → ℝ) (h2 : num "2.0" = 2) : ∃ env,
    Compiles (floats num) (varEnv c70Names) c70Binds env ∧
    Constructs env (floats num) c70Sse Examples.sse ∧
    ∀ p : VPoint, run Examples.sse (vpointCtx N c70Kind p) = some ⟨.scalar, .ok (c70Error N p)⟩ ∧
      runAdjoint Examples.sse Examples.W (vpointCtx N c70Kind p) = some ⟨.array [N],
        .ok (Buf.build (.array [N]) () fun ix =>
          2 * (∑ k ∈ Finset.range N, p.vec Examples.X k * p.vec Examples.W k - p.num Examples.Y) *
            p.vec Examples.X (ix.headD 0))⟩ := by
  obtain ⟨ρ, hb, he⟩ := c70Means N num
  have hc1 : Constructs (varEnv c70Names) (floats num)
      (.methodCall (.path "x") "dot" [.path "w"]) (.contract 1 (.var Examples.X) (.var Examples.W)) :=
    C41_expansion _ _ _ _ (.dot (.path rfl) (.path rfl))
  have hc := Compiles.cons (p := "model") hc1 (.nil _)
  have hn : Constructs (fun q => if q = "model" then some (.contract 1 (.var Examples.X)
      (.var Examples.W)) else varEnv c70Names q) (floats num) c70Sse Examples.sse :=
    C41_expansion _ _ _ _ (.square (.paren (.sub (.path rfl) (.path rfl))) (.inl rfl))
  refine ⟨_, hc, hn, fun p => ⟨C70_value h2 hb he hc hn p ⟨trivial, trivial⟩, ?_⟩⟩
  obtain ⟨g, hg, hr, -⟩ := C70_gradient h2 hb he hc hn p ⟨trivial, trivial⟩ (t := Examples.W) rfl
  rw [hr]
  refine congrArg (fun b => some (⟨.array [N], .ok b⟩ : Σ τ, Res _ (Buf ℝ τ))) ?_
  refine buf_eq (g := fun j => 2 * (∑ k ∈ Finset.range N, p.vec Examples.X k * p.vec Examples.W k -
    p.num Examples.Y) * p.vec Examples.X j) _ fun k hk => ?_
  rw [Buf.getU_build (.array [N]) () _ [k] (.cons hk .nil)]
  refine congrArg some ((hg k hk).unique ?_)
  have hsum : HasDerivAt (fun s => ∑ j ∈ Finset.range N, p.vec Examples.X j *
      (p.setVec Examples.W k s).vec Examples.W j) (p.vec Examples.X k) (p.vec Examples.W k) := by
    have : ∀ j ∈ Finset.range N, HasDerivAt (fun s => p.vec Examples.X j *
        (p.setVec Examples.W k s).vec Examples.W j) (if j = k then p.vec Examples.X k else 0)
        (p.vec Examples.W k) := fun j _ => by
      by_cases hj : j = k
      · subst hj
        simpa [VPoint.setVec] using (hasDerivAt_id (p.vec Examples.W j)).const_mul (p.vec Examples.X j)
      · simpa [VPoint.setVec, hj] using
          hasDerivAt_const (p.vec Examples.W k) (p.vec Examples.X j * p.vec Examples.W j)
    refine (HasDerivAt.fun_sum this).congr_deriv ?_
    simp [hk]
  have := (hsum.sub_const (p.num Examples.Y)).pow 2
  refine this.congr_deriv ?_
  have hself : p.setVec Examples.W k (p.vec Examples.W k) = p := by
    have : (fun i j => if i = Examples.W ∧ j = k then p.vec Examples.W k else p.vec i j) = p.vec := by
      funext i j
      split
      · rename_i h
        rw [h.1, h.2]
      · rfl
    rw [VPoint.setVec, this]
  rw [hself]
  simp

/-! ### Another program: a mean squared distance with a penalty

```
let d = aegir!(x - w);
aegir!(d.dot(d).div(y) + y.ln())
```
-/

/-- `let d = aegir!(x - w);` -/
def c70Dist : List (String × Compile.Expr) := [("d", .binary .sub (.path "x") (.path "w"))]

/-- `aegir!(d.dot(d).div(y) + y.ln())` -/
def c70Cost : Compile.Expr :=
  .binary .add (.methodCall (.methodCall (.path "d") "dot" [.path "d"]) "div" [.path "y"])
    (.methodCall (.path "y") "ln" [])

/-- The same as a function. -/
noncomputable def c70CostFn (N : ℕ) (p : VPoint) : ℝ :=
  (∑ k ∈ Finset.range N, (p.vec 0 k - p.vec 2 k) * (p.vec 0 k - p.vec 2 k)) / p.num 1 +
    Real.log (p.num 1)

private theorem c70CostMeans (N : ℕ) (num : String → ℝ) : ∃ ρ A D,
    BindsV N num (vcoords c70Kind c70Names) c70Dist ρ ∧
    ComputesV N num ρ (.path "d") (.vec fun p k => p.vec 0 k - p.vec 2 k) ∧
    ComputesV N num ρ c70Cost (.num (c70CostFn N) A D) ∧ (∀ p, A p) ∧ ∀ p, 0 < p.num 1 → D p := by
  have hx : vcoords c70Kind c70Names "x" = some (.vec fun p => p.vec Examples.X) := rfl
  have hw : vcoords c70Kind c70Names "w" = some (.vec fun p => p.vec Examples.W) := rfl
  have hy : vcoords c70Kind c70Names "y" =
      some (.num (fun p => p.num Examples.Y) (fun _ => True) fun _ => True) := rfl
  have hd : (fun q => if q = "d" then some (.vec fun p k => p.vec Examples.X k - p.vec Examples.W k)
      else vcoords c70Kind c70Names q) "d" =
      some (VMeaning.vec fun p k => p.vec Examples.X k - p.vec Examples.W k) := if_pos rfl
  have hy' : (fun q => if q = "d" then some (.vec fun p k => p.vec Examples.X k - p.vec Examples.W k)
      else vcoords c70Kind c70Names q) "y" =
      some (.num (fun p => p.num Examples.Y) (fun _ => True) fun _ => True) :=
    (if_neg (by decide)).trans hy
  exact ⟨_, _, _, .cons (.subV (.path hx) (.path hw)) (.nil _), .path hd,
    .add (.div (.dot (.path hd) (.path hd)) (.path hy')) (.ln (.path hy')),
    fun _ => ⟨⟨trivial, trivial⟩, trivial⟩,
    fun _ h => ⟨⟨trivial, trivial, ne_of_gt h⟩, trivial, h⟩⟩

/-- It compiles, evaluates where `y = 0` too, and has a gradient in `w` and a derivative in `y` where
`y` is positive. -/
example (N : ℕ) (num : String → ℝ) (h2 : num "2.0" = 2) : ∃ env n,
    Compiles (floats num) (varEnv c70Names) c70Dist env ∧ Constructs env (floats num) c70Cost n ∧
    (∀ p, run n (vpointCtx N c70Kind p) = some ⟨.scalar, .ok (c70CostFn N p)⟩) ∧
    ∀ p, 0 < p.num 1 → (∃ g : ℕ → ℝ,
      (∀ k < N, HasDerivAt (fun s => c70CostFn N (p.setVec 2 k s)) (g k) (p.vec 2 k)) ∧
      runAdjoint n 2 (vpointCtx N c70Kind p) =
        some ⟨.array [N], .ok (Buf.build (.array [N]) () fun ix => g (ix.headD 0))⟩) ∧
      ∃ g : ℝ, HasDerivAt (fun s => c70CostFn N (p.setNum 1 s)) g (p.num 1) ∧
        runAdjoint n 1 (vpointCtx N c70Kind p) = some ⟨.scalar, .ok g⟩ := by
  obtain ⟨ρ, A, D, hb, -, he, hA, hD⟩ := c70CostMeans N num
  obtain ⟨env, n, hc, hn⟩ := C70_compiles h2 hb he
  refine ⟨env, n, hc, hn, fun p => C70_value h2 hb he hc hn p (hA p), fun p hp => ⟨?_, ?_⟩⟩
  · obtain ⟨g, h1, h3, -⟩ := C70_gradient h2 hb he hc hn p (hD p hp) (t := 2) rfl
    exact ⟨g, h1, h3⟩
  · obtain ⟨g, h1, h3, -⟩ := C70_derivative h2 hb he hc hn p (hD p hp) (t := 1) rfl
    exact ⟨g, h1, h3⟩

/-- Its vector `d`. -/
example (N : ℕ) (num : String → ℝ) (h2 : num "2.0" = 2) : ∃ env n,
    Compiles (floats num) (varEnv c70Names) c70Dist env ∧ Constructs env (floats num) (.path "d") n ∧
    ∀ p : VPoint, run n (vpointCtx N c70Kind p) = some ⟨.array [N], .ok
      (Buf.build (.array [N]) () fun ix => p.vec 0 (ix.headD 0) - p.vec 2 (ix.headD 0))⟩ := by
  obtain ⟨ρ, A, D, hb, he, -⟩ := c70CostMeans N num
  obtain ⟨env, n, hc, hn⟩ := C70_compiles h2 hb he
  exact ⟨env, n, hc, hn, fun p => C70_vector h2 hb he hc hn p⟩

end Aegir.Props
