import Verif.Model.Eval
/-!
# The example programs (`aegir/examples/{linear,logistic,caching}.rs`)

Random numbers are inputs: a run of a program takes the values drawn by the generator as a list.
Printing and timing are left out. The literals `0.01` and `0.0005` are parameters `η`.
-/

namespace Aegir.Examples

variable {F : Type}

/-- `ids::X` (`linear.rs` L6, `logistic.rs` L6). -/
abbrev X : Id := 0

/-- `ids::Y`. -/
abbrev Y : Id := 1

/-- `ids::W`. -/
abbrev W : Id := 2

/-- `ctx_type!(Ctx { x: X, y: Y, w: W })` with the buffer types of the struct expression
(`linear.rs` L16-24, `logistic.rs` L17-25). -/
structure Data (F : Type) (N : Nat) where
  /-- `x` -/
  x : NArr F [N]
  /-- `y` -/
  y : F
  /-- `w` -/
  w : NArr F [N]

/-- The buffer types of the identifiers (`linear.rs` L16-24, `logistic.rs` L17-25). Identifiers
without field have none; `.scalar` is a placeholder. -/
def types (N : Nat) : Id → BTy
  | 0 => .array [N]
  | 1 => .scalar
  | 2 => .array [N]
  | _ => .scalar

/-- The derived `Read` impls (C42). -/
def Data.ctx {N : Nat} (s : Data F N) : Ctx F (types N)
  | 0 => some s.x
  | 1 => some s.y
  | 2 => some s.w
  | _ + 3 => none

/-- `ctx.x.iter().zip(true_weights.iter()).map(|(x, tw)| x * tw).sum()` (`linear.rs` L41,
`logistic.rs` L42). -/
def label [Zero F] [Add F] [Mul F] {N : Nat} (x tw : NArr F [N]) : F :=
  (List.finRange N).foldl (fun acc i => acc + x.elem i * tw.elem i) 0

/-- `for i in 0..N { ctx.w[i] -= η * g[i]; }` (`linear.rs` L46-48); with `+=` and the other sign in
`logistic.rs` L49-51. -/
def update {N : Nat} (step : F → F → F) (w g : NArr F [N]) : NArr F [N] :=
  (List.finRange N).foldl (fun (w : NArr F [N]) i =>
    NArr.setRow (ds := []) w i (step (w.elem i) (g.elem i))) w

/-! ### `linear.rs` -/

/-- `model.sub(y).squared()` with `model = x.dot(w)` (`linear.rs` L28-33). -/
def sse : Node F := .un .square (.sub (.contract 1 (.var X) (.var W)) (.var Y))

/-- `sse.adjoint(W)` (`linear.rs` L34). -/
def sseAdj : Node F :=
  .mul (.un .double (.sub (.contract 1 (.var X) (.var W)) (.var Y)))
    (.sub (.add (.contract 1 (.var X) (.varAdj W W)) (.contract 1 (.varAdj X W) (.var W)))
      (.varAdj Y W))

/-- The impl behind `adj.evaluate(&mut ctx)` with the result type `[f64; N]` (`linear.rs` L44). -/
def sseImpl (N : Nat) : FnImpl (F := F) (types N) sseAdj (.array [N]) :=
  .mul (.un .double (.sub (.contract (.var (Γ := types N) X) (.var (Γ := types N) W) (.dot N))
    (.var (Γ := types N) Y) .ss))
    (.sub (.add
      (.contract (.var (Γ := types N) X)
        (.varAdj W W (.aa [N] [N] (by simp)) (by simp [types, BTy.rank])) (.vm N N))
      (.contract (.varAdj X W (.aa [N] [N] (by simp)) (by simp [types, BTy.rank]))
        (.var (Γ := types N) W) (.mv N N)) (.aa [N]))
      (.varAdj Y W (.sa [N]) (by simp [types, BTy.rank])) (.aa [N])) (.sa [N])

section
variable [Zero F] [One F] [Add F] [Sub F] [Mul F] [Div F] [Neg F] [ScalarFns F] {N : Nat}

/-- The body of the loop (`linear.rs` L37-48), given the drawn `x`. The expression has no `Cached`
nodes, so evaluating does not change `ctx` (C23). -/
def linearStep (η : F) (tw : NArr F [N]) (s : Data F N) (x : NArr F [N]) :
    Res Empty (Data F N) :=
  let s : Data F N := { s with x := x }
  let s : Data F N := { s with y := label s.x tw }
  ((sseImpl N).evaluate s.ctx).1.unwrap.map fun g =>
    { s with w := update (fun w g => w - η * g) s.w g }

/-- The loop (`linear.rs` L36-49), for the drawn `xs`. -/
def linearRun (η : F) (tw : NArr F [N]) : Data F N → List (NArr F [N]) → Res Empty (Data F N)
  | s, [] => .ok s
  | s, x :: xs => (linearStep η tw s x).bind fun s' => linearRun η tw s' xs

end

/-- The initial context (`linear.rs` L20-24). -/
def linearInit [Zero F] (N : Nat) : Data F N := ⟨NArr.full [N] 0, 0, NArr.full [N] 0⟩

/-! ### `logistic.rs` -/

/-- `x.dot(w).sigmoid()` (`logistic.rs` L33). -/
def prob : Node F := .un .sigmoid (.contract 1 (.var X) (.var W))

/-- `model.mul(y).add(OneSub(model).mul(OneSub(y))).ln()` (`logistic.rs` L34). -/
def likelihood : Node F :=
  .un .ln (.add (.mul prob (.var Y)) (.mul (.un .oneSub prob) (.un .oneSub (.var Y))))

/-- The adjoint of `prob` (as part of `logistic.rs` L35). -/
def probAdj : Node F :=
  .mul (.add (.contract 1 (.var X) (.varAdj W W)) (.contract 1 (.varAdj X W) (.var W)))
    (.un .rabbit prob)

/-- `likelihood.adjoint(W)` (`logistic.rs` L35). -/
def likelihoodAdj : Node F :=
  .div (.add (.add (.mul probAdj (.var Y)) (.mul (.varAdj Y W) prob))
      (.add (.mul (.un .negate probAdj) (.un .oneSub (.var Y)))
        (.mul (.un .negate (.varAdj Y W)) (.un .oneSub prob))))
    (.add (.mul prob (.var Y)) (.mul (.un .oneSub prob) (.un .oneSub (.var Y))))

/-- The impl for `prob`. -/
def probImpl (N : Nat) : FnImpl (F := F) (types N) prob .scalar :=
  .un .sigmoid (.contract (.var (Γ := types N) X) (.var (Γ := types N) W) (.dot N))

/-- The impl for `probAdj`. -/
def probAdjImpl (N : Nat) : FnImpl (F := F) (types N) probAdj (.array [N]) :=
  .mul (.add
      (.contract (.var (Γ := types N) X)
        (.varAdj W W (.aa [N] [N] (by simp)) (by simp [types, BTy.rank])) (.vm N N))
      (.contract (.varAdj X W (.aa [N] [N] (by simp)) (by simp [types, BTy.rank]))
        (.var (Γ := types N) W) (.mv N N)) (.aa [N]))
    (.un .rabbit (probImpl N)) (.as [N])

/-- The impl for the sum inside the logarithm. -/
def mixImpl (N : Nat) : FnImpl (F := F) (types N)
    (.add (.mul prob (.var Y)) (.mul (.un .oneSub prob) (.un .oneSub (.var Y)))) .scalar :=
  .add (.mul (probImpl N) (.var (Γ := types N) Y) .ss)
    (.mul (.un .oneSub (probImpl N)) (.un .oneSub (.var (Γ := types N) Y)) .ss) .ss

/-- The impl behind `likelihood.evaluate(&mut ctx)` (`logistic.rs` L34; the program itself only
evaluates the adjoint). -/
def likelihoodValue (N : Nat) : FnImpl (F := F) (types N) likelihood .scalar := .un .ln (mixImpl N)

/-- The impl behind `adj.evaluate(&mut ctx)` (`logistic.rs` L47). -/
def likelihoodImpl (N : Nat) : FnImpl (F := F) (types N) likelihoodAdj (.array [N]) :=
  .div (.add (.add (.mul (probAdjImpl N) (.var (Γ := types N) Y) (.as [N]))
        (.mul (.varAdj Y W (.sa [N]) (by simp [types, BTy.rank])) (probImpl N) (.as [N])) (.aa [N]))
      (.add (.mul (.un .negate (probAdjImpl N)) (.un .oneSub (.var (Γ := types N) Y)) (.as [N]))
        (.mul (.un .negate (.varAdj Y W (.sa [N]) (by simp [types, BTy.rank])))
          (.un .oneSub (probImpl N)) (.as [N])) (.aa [N])) (.aa [N]))
    (mixImpl N) (.as [N])

section
variable [Zero F] [One F] [Add F] [Sub F] [Mul F] [Div F] [Neg F] [ScalarFns F] {N : Nat}

/-- `rng.gen_bool(p)` (`logistic.rs` L44) when the generator decides for `b`: panics unless
`0 <= p <= 1`. -/
def genBool (p : F) (b : Bool) : Res Empty Bool :=
  if ScalarFns.leb 0 p && ScalarFns.leb p 1 then .ok b else .panic

/-- The body of the loop (`logistic.rs` L38-51), given the drawn `x` and `b`. -/
def logisticStep (η : F) (tw : NArr F [N]) (s : Data F N) (draw : NArr F [N] × Bool) :
    Res Empty (Data F N) :=
  let s : Data F N := { s with x := draw.1 }
  let yy := label s.x tw
  (genBool (Aegir.sigmoid yy) draw.2).bind fun b =>
    let s : Data F N := { s with y := if b then 1 else 0 }
    ((likelihoodImpl N).evaluate s.ctx).1.unwrap.map fun g =>
      { s with w := update (fun w g => w + η * g) s.w g }

/-- The loop (`logistic.rs` L37-52). -/
def logisticRun (η : F) (tw : NArr F [N]) :
    Data F N → List (NArr F [N] × Bool) → Res Empty (Data F N)
  | s, [] => .ok s
  | s, d :: ds => (logisticStep η tw s d).bind fun s' => logisticRun η tw s' ds

end

/-- The initial context (`logistic.rs` L21-25). -/
def logisticInit [Zero F] [One F] (N : Nat) : Data F N := ⟨NArr.full [N] 1, 0, NArr.full [N] 0⟩

/-! ### `caching.rs` -/

/-- `Sum(Negate(Double(x)))` (`caching.rs` L53). -/
def basic : Node F := .sum (.un .negate (.un .double (.var X)))

/-- `basic.clone().cached(C)` (`caching.rs` L54); `C` is identifier `1`. -/
def cached : Node F := .cached basic 1

/-- `$node.add($node.clone())..`, seven times (`caching.rs` L31-38). -/
def repeated (node : Node F) : Node F :=
  .add (.add (.add (.add (.add (.add (.add node node) node) node) node) node) node) node

/-- `ctx_type!(Ctx { x: X, cache cc: C })` for `Ctx<Vec<f64>, f64>` (`caching.rs` L18-23). -/
def cacheTypes : Id → BTy
  | 0 => .vec
  | _ => .scalar

/-- `Ctx::new` (`caching.rs` L24-26). -/
def cacheCtx (x : List F) : Ctx F cacheTypes
  | 0 => some x
  | _ + 1 => none

/-- The impl for `basic`. -/
def basicImpl : FnImpl (F := F) cacheTypes basic .scalar :=
  .sum (.un .negate (.un .double (.var (Γ := cacheTypes) X)))

/-- The impl for `cached`. -/
def cachedImpl : FnImpl (F := F) cacheTypes cached .scalar := .cached (Γ := cacheTypes) 1 basicImpl

/-- The impl for the repeated sum (`caching.rs` L44). -/
def repeatedImpl {node : Node F} (d : FnImpl cacheTypes node .scalar) :
    FnImpl cacheTypes (repeated node) .scalar :=
  .add (.add (.add (.add (.add (.add (.add d d .ss) d .ss) d .ss) d .ss) d .ss) d .ss) d .ss

end Aegir.Examples
