import Verif.Model.Examples
/-!
# The benchmark programs (`aegir/benches/{linear,logistic}.rs`)

As for the examples, the values drawn by the random generator are inputs and the literals `0.01` and
`0.001` are parameters. The context struct is that of the examples (`linear.rs` L41, `logistic.rs`
L41), hence `Examples.Data`. The timing harness is left out.
-/

namespace Aegir.Benches
open Aegir.Examples

variable {F : Type} {N : Nat}

/-- `xs.iter().zip(TW.iter().take($n)).fold(0.0, |acc, (x, y)| acc + x * y)` (`linear.rs` L76, L95,
L140) and the `map`/`sum` form (`logistic.rs` L78, L103). `zip` stops at the end of the shorter
sequence. -/
def benchLabel [Zero F] [Add F] [Mul F] (x : NArr F [N]) (tw : List F) : F :=
  ((List.ofFn x.elem).zip (tw.take N)).foldl (fun acc p => acc + p.1 * p.2) 0

/-- The initial context (`linear.rs` L46-50, `logistic.rs` L46-50). -/
def init [Zero F] (N : Nat) : Data F N := ⟨NArr.full [N] 0, 0, NArr.full [N] 0⟩

/-! ### `linear.rs` -/

/-- `ops::Mul(ops::Double(ops::Sub(ops::TensorDot::new(x, w), y)), x)` (`linear.rs` L91). -/
def linearManual : Node F :=
  .mul (.un .double (.sub (.contract 1 (.var X) (.var W)) (.var Y))) (.var X)

/-- The impl behind `adj.evaluate(&mut ctx)` (`linear.rs` L98). -/
def linearManualImpl (N : Nat) : FnImpl (F := F) (types N) linearManual (.array [N]) :=
  .mul (.un .double (.sub (.contract (.var (Γ := types N) X) (.var (Γ := types N) W) (.dot N))
    (.var (Γ := types N) Y) .ss)) (.var (Γ := types N) X) (.sa [N])

section
variable [Zero F] [One F] [Add F] [Sub F] [Mul F] [Div F] [Neg F] [ScalarFns F]

/-- `RawAdjoint::evaluate` (`linear.rs` L115-131), for a context `c` that may lack values: the three
`read(..).unwrap()` panic then. The loop over `0..N` is a fold. -/
def rawAdjoint (c : Ctx F (types N)) : Res Empty (NArr F [N]) :=
  match c X, c W, c Y with
  | some xs, some ws, some y =>
      let xs : NArr F [N] := xs
      let ws : NArr F [N] := ws
      let y : F := y
      let p : F := (List.finRange N).foldl (fun p i => p + xs.elem i * ws.elem i) 0
      let e : F := (1 + 1) * (p - y)
      .ok (NArr.ofElems fun i => xs.elem i * e)
  | _, _, _ => .panic

/-- `solve!` with one of the gradient blocks (`linear.rs` L52-58, and L75-80, L94-99, L139-144):
first `y` and `x` are stored, then the gradient is computed in the new context, then the weights are
moved. -/
def linearSolve (grad : Ctx F (types N) → Res Empty (NArr F [N])) (η : F) (tw : List F) :
    Data F N → List (NArr F [N]) → Res Empty (Data F N)
  | s, [] => .ok s
  | s, x :: xs =>
      let s : Data F N := { s with y := benchLabel x tw }
      let s : Data F N := { s with x := x }
      (grad s.ctx).bind fun g =>
        linearSolve grad η tw { s with w := update (fun w g => w - η * g) s.w g } xs

/-- `solve_auto!` (`linear.rs` L64-83); the differentiated expression is that of the example. -/
def linearAuto (η : F) (tw : List F) : Data F N → List (NArr F [N]) → Res Empty (Data F N) :=
  linearSolve (fun c => ((sseImpl N).evaluate c).1.unwrap) η tw

/-- `solve_manual!` (`linear.rs` L85-102). -/
def linearByHand (η : F) (tw : List F) : Data F N → List (NArr F [N]) → Res Empty (Data F N) :=
  linearSolve (fun c => ((linearManualImpl N).evaluate c).1.unwrap) η tw

/-- `solve_raw!` (`linear.rs` L134-147). -/
def linearRaw (η : F) (tw : List F) : Data F N → List (NArr F [N]) → Res Empty (Data F N) :=
  linearSolve rawAdjoint η tw

end

/-! ### `logistic.rs` -/

/-- `l.sub(r).mul(x)` with `l = y.mul(OneSub(model))`, `r = OneSub(y).mul(model)` (`logistic.rs`
L94-97). -/
def logisticManual : Node F :=
  .mul (.sub (.mul (.var Y) (.un .oneSub prob)) (.mul (.un .oneSub (.var Y)) prob)) (.var X)

/-- The impl behind `adj.evaluate(&mut ctx)` (`logistic.rs` L107). -/
def logisticManualImpl (N : Nat) : FnImpl (F := F) (types N) logisticManual (.array [N]) :=
  .mul (.sub (.mul (.var (Γ := types N) Y) (.un .oneSub (probImpl N)) .ss)
    (.mul (.un .oneSub (.var (Γ := types N) Y)) (probImpl N) .ss) .ss)
    (.var (Γ := types N) X) (.sa [N])

section
variable [Zero F] [One F] [Add F] [Sub F] [Mul F] [Div F] [Neg F] [ScalarFns F]

/-- `solve!` with one of the gradient blocks (`logistic.rs` L52-58, and L75-83, L100-108), for the
drawn samples and coin flips. `rng.gen_bool(..) as u8 as f64` is one or zero. -/
def logisticSolve (grad : Ctx F (types N) → Res Empty (NArr F [N])) (η : F) (tw : List F) :
    Data F N → List (NArr F [N] × Bool) → Res Empty (Data F N)
  | s, [] => .ok s
  | s, (x, b) :: ds =>
      let s : Data F N := { s with x := x }
      let yy := benchLabel s.x tw
      (genBool (Aegir.sigmoid yy) b).bind fun b =>
        let s : Data F N := { s with y := if b then 1 else 0 }
        (grad s.ctx).bind fun g =>
          logisticSolve grad η tw { s with w := update (fun w g => w + η * g) s.w g } ds

/-- `solve_auto!` (`logistic.rs` L64-86). -/
def logisticAuto (η : F) (tw : List F) :
    Data F N → List (NArr F [N] × Bool) → Res Empty (Data F N) :=
  logisticSolve (fun c => ((likelihoodImpl N).evaluate c).1.unwrap) η tw

/-- `solve_manual!` (`logistic.rs` L88-111). -/
def logisticByHand (η : F) (tw : List F) :
    Data F N → List (NArr F [N] × Bool) → Res Empty (Data F N) :=
  logisticSolve (fun c => ((logisticManualImpl N).evaluate c).1.unwrap) η tw

end

end Aegir.Benches
