import Verif.Model.Resolve
import Verif.Model.Dual
import Verif.Model.Fmt
import Verif.Model.Compile
import Verif.Spec.Instances
/-!
# The tests of the repository, run on the model

Every assertion of the unit tests and of the documentation of `/repo` that does not need
transcendental functions, evaluated by the model (with integers in place of floats, all numbers in
these tests being whole). These are tests of the translation, not proofs of properties.
-/

namespace Aegir.Tests

open Aegir Aegir.Spec

/-- Infinity as a number that no other computation of the tests gives. -/
local instance (priority := high) : ScalarFns ℤ :=
  { (inferInstance : ScalarFns ℤ) with infinity := 1000000 }

/-- An array of numbers. -/
def arr (l : List ℤ) : NArr ℤ [l.length] := NArr.ofElems fun i => l[i]

/-- A matrix by rows of length `m`. -/
def mat (m : Nat) (l : List (List ℤ)) : NArr ℤ [l.length, m] :=
  NArr.mkRows fun i => NArr.ofElems fun j => (l[i])[j.1]!

/-- All variables are scalars. -/
abbrev ss : Id → BTy := fun _ => .scalar

/-- `ctx!{X = x, Y = y}` with scalars. -/
def ctx (x y : ℤ) : Ctx ℤ ss := fun i => match i with | 0 => some x | 1 => some y | _ => none

/-- The value and the adjoint of `f` with respect to `t` at `X = x`, `Y = y`. -/
def dual (f : Node ℤ) (t : Id) (x y : ℤ) : Option (Σ τ σ, Res EvalErr (Buf ℤ τ × Buf ℤ σ)) :=
  runDual f t (ctx x y)

/-- `dual!(v, a)` as a result. -/
def gives (v a : ℤ) : Option (Σ τ σ, Res EvalErr (Buf ℤ τ × Buf ℤ σ)) :=
  some ⟨.scalar, .scalar, .ok (v, a)⟩

/-- `X.into_var()` -/
abbrev X : Node ℤ := .var 0
/-- `Y.into_var()` -/
abbrev Y : Node ℤ := .var 1
/-- `x.into_constant()` -/
abbrev num (x : ℤ) : Node ℤ := .const .scalar x

/-! ## `buffers/mod.rs` -/

-- L65-66
example : Buf.full (.array [3]) () (1 : ℤ) = arr [1, 1, 1] := rfl
example : Buf.full (.array [2, 1]) () (0 : ℤ) = mat 1 [[0], [0]] := rfl
-- L100-106
example : Buf.build (.array [3, 3]) () (fun ix => ((ix[0]! * 3 + ix[1]! : Nat) : ℤ)) =
    mat 3 [[0, 1, 2], [3, 4, 5], [6, 7, 8]] := rfl
-- L124-141
example : Buf.buildSubset (.array [3, 3]) () (0 : ℤ)
    ((Shape.indices [3, 3]).filter fun ix => (ix[0]! = 0 || ix[0]! = 2) && (ix[1]! = 0 || ix[1]! = 2))
    (fun ix => ((ix[0]! + ix[1]! : Nat) : ℤ)) =
    some (mat 3 [[0, 0, 2], [0, 0, 0], [2, 0, 4]]) := rfl
-- L166-167, L178, L189
example : Buf.full .tuple () (0 : ℤ) = (0, 0) ∧ Buf.full .tuple () (1 : ℤ) = (1, 1) := ⟨rfl, rfl⟩
example : Buf.zeroes (F := ℤ) .tuple () = Buf.full .tuple () 0 := rfl
example : Buf.ones (F := ℤ) .tuple () = Buf.full .tuple () 1 := rfl
-- L210-213, L240-245
example : Buf.diagonal (.array [2, 2]) () (5 : ℤ) = mat 2 [[5, 0], [0, 5]] := rfl
example : Buf.identity (F := ℤ) (.array [2, 2]) () = mat 2 [[1, 0], [0, 1]] := rfl
-- L272-280, L296-304
example : let b : Buf ℤ (.array [2, 2]) := mat 2 [[1, 0], [0, 1]]
    Buf.get (.array [2, 2]) b [0, 0] = some (some 1) ∧
    Buf.get (.array [2, 2]) b [0, 1] = some (some 0) ∧
    Buf.get (.array [2, 2]) b [1, 0] = some (some 0) ∧
    Buf.get (.array [2, 2]) b [1, 1] = some (some 1) := ⟨rfl, rfl, rfl, rfl⟩
-- L314-320
example : Buf.map .vec [0, 1, 2, 3] (fun x : ℤ => x.toNat * 2) = [0, 2, 4, 6] := rfl
-- L341-348
example : Buf.mutate .vec [0, 1, 2, 3] (fun x : ℤ => -x) = [0, -1, -2, -3] := rfl
-- L358-360
example : Buf.fold .vec [0, 1, 2, 3] (0 : ℤ) (fun i e : ℤ => i + 2 * e) = 12 := rfl
-- L374-377
example : Buf.sum .vec ([0, 1, 2, 3] : List ℤ) = 6 := rfl
example : Buf.sum .vec (Buf.map .vec [0, 1, 2, 3] (fun e : ℤ => 2 * e)) = (12 : ℤ) := rfl
-- L418-421
example : Buf.zipFold (.aa [3]) (arr [1, 2, 3]) (arr [-1, 0, 1]) (0 : ℤ)
    (fun acc p => acc + p.1 * p.2) = .ok 2 := rfl
-- L444-447
example : Buf.zipMap (.aa [3]) (arr [1, 2, 3]) (arr [-1, 0, 1]) (· * ·) = .ok (arr [-1, 0, 3]) := rfl
-- L481-484
example : Buf.zipShape (.sa [3]) (1 : ℤ) () = .ok (arr [1, 1, 1]) := rfl
-- L533-536
example : Buf.contract (.dot 3) (arr [1, 2, 3]) (arr [-1, 0, 1]) = .ok (2 : ℤ) := rfl
-- L554-557
example : BSpec.contract (.mm 3 3 3) (.full () (1 : ℤ)) (.full () 2) = .ok (.full () 6) := rfl

/-! ## `buffers/spec.rs` -/

-- L106-109
example : (BSpec.full () 0 : BSpec ℤ (.array [20])).map (· + 5) = .full () 5 := rfl
-- L138-143
example : BSpec.zipMap (.aa [10]) (.full () (0 : ℤ)) (.full () 1) (· + ·) = .ok (.full () 1) := rfl

/-! ## `buffers/shapes/mod.rs` -/

-- L47
example : Shape.isDiagonal [1, 1, 1] = true := rfl
-- L119-122
example : Shape.indices [5] = [[0], [1], [2], [3], [4]] := rfl
-- L160-165
example : Shape.split [2, 5] = some ([2], [5]) := rfl
-- L186-191
example : Shape.concat [2] [5] = [2, 5] := rfl

/-! ## `buffers/arrays` -/

-- `mod.rs` L27-40
example : Buf.map (.array [2]) (arr [1, 2]) (· * 2) = arr [2, 4] ∧
    Buf.fold (.array [2]) (arr [1, 2]) (0 : ℤ) (fun a x => a + x * 2) = 6 ∧
    Buf.sum (.array [2]) (arr [1, 2]) = 3 := ⟨rfl, rfl, rfl⟩
example : Buf.zipFold (.aa [2]) (arr [1, 2]) (arr [1, 2]) (0 : ℤ)
    (fun acc p => acc + p.1 * p.2) = .ok 5 := rfl
-- `contraction_ops.rs` L220-250
example : Buf.contract .ss1 (2 : ℤ) 4 = .ok 8 := rfl
example : Buf.contract (.vm 2 2) (arr [-1, 1]) (mat 2 [[1, 2], [3, 4]]) = .ok (arr [2, 2]) := rfl
example : Buf.contract (.mv 2 2) (mat 2 [[1, 2], [3, 4]]) (arr [-1, 1]) = .ok (arr [1, 1]) := rfl
example : Buf.contract (.mm 2 2 2) (mat 2 [[1, 2], [3, 4]]) (mat 2 [[1, 2], [3, 4]]) =
    .ok (mat 2 [[7, 10], [15, 22]]) := rfl

/-! ## `lib.rs` -/

-- L247-249
example : run X (ctx 1 0) = some ⟨.scalar, .ok (1 : ℤ)⟩ := rfl
-- L304-307
example : runAdjoint (.mul X (num 2)) 0 (ctx 10 0) = some ⟨.scalar, .ok (2 : ℤ)⟩ := rfl

/-- `ctx!{X = [1.0, 2.0]}` -/
def ctx12 : Ctx ℤ (fun | 0 => .array [2] | _ => .scalar) := fun
  | 0 => some (arr [1, 2])
  | _ => none

-- L260-263
example : (X.adjoint 0).bind (runSpec · ctx12) = some ⟨.array [2, 2], .ok (.diagonal () 1)⟩ := rfl

/-! ## `meta` -/

-- `variable.rs` L31-38
example : run X ctx12 = some ⟨.array [2], .ok (arr [1, 2])⟩ ∧
    runAdjoint X 0 ctx12 = some ⟨.array [2, 2], .ok (mat 2 [[1, 0], [0, 1]])⟩ := ⟨rfl, rfl⟩
-- `constant.rs` L32-39
example : run (.const (.array [2]) (arr [10, 10])) ctx12 = some ⟨.array [2], .ok (arr [10, 10])⟩ ∧
    runAdjoint (.const (.array [2]) (arr [10, 10])) 0 ctx12 =
      some ⟨.array [2, 2], .ok (mat 2 [[0, 0], [0, 0]])⟩ := ⟨rfl, rfl⟩

/-- The types of `ctx!{X = x, Y = 0.0}`. -/
abbrev tys (τ : BTy) : Id → BTy
  | 0 => τ
  | _ => .scalar

/-- `ctx!{X = x, Y = 0.0}` with `x` of type `τ`. -/
def ctxOf (τ : BTy) (x : Buf ℤ τ) : Ctx ℤ (tys τ)
  | 0 => some x
  | 1 => some (0 : ℤ)
  | _ => none

-- `variable.rs` L271-278
example : run X (ctxOf .scalar (1 : ℤ)) = some ⟨.scalar, .ok (1 : ℤ)⟩ ∧
    run X (ctxOf (.array [2]) (arr [-10, 5])) = some ⟨.array [2], .ok (arr [-10, 5])⟩ ∧
    run X (ctxOf .tuple (-1, 50)) = some ⟨.tuple, .ok (-1, 50)⟩ ∧
    run X (ctxOf .vec [1, 2]) = some ⟨.vec, .ok [1, 2]⟩ := ⟨rfl, rfl, rfl, rfl⟩
-- `variable.rs` L281-300
example : runAdjoint X 1 (ctx 1 0) = some ⟨.scalar, .ok (0 : ℤ)⟩ := rfl
example : runAdjoint X 0 (ctx 1 0) = some ⟨.scalar, .ok (1 : ℤ)⟩ := rfl
-- `constant.rs` L206-213
example : run (num 2) (ctxOf .scalar (1 : ℤ)) = some ⟨.scalar, .ok (2 : ℤ)⟩ ∧
    run (num 2) (ctxOf (.array [2]) (arr [-10, 5])) = some ⟨.scalar, .ok (2 : ℤ)⟩ ∧
    run (num 2) (ctxOf .tuple (-1, 50)) = some ⟨.scalar, .ok (2 : ℤ)⟩ ∧
    run (num 2) (ctxOf .vec [1, 2]) = some ⟨.scalar, .ok (2 : ℤ)⟩ := ⟨rfl, rfl, rfl, rfl⟩

/-! ## `ops/arithmetic/binary.rs` -/

-- L38-43
example : let f := Node.power X (num 2)
    dual f 0 (-1) 0 = gives 1 (-2) ∧ dual f 0 0 0 = gives 0 0 ∧ dual f 0 1 0 = gives 1 2 ∧
    dual f 0 2 0 = gives 4 4 := ⟨rfl, rfl, rfl, rfl⟩
-- L182-185, L192-195
example : let f := Node.add X Y; dual f 0 1 2 = gives 3 1 ∧ dual f 1 1 2 = gives 3 1 := ⟨rfl, rfl⟩
example : let f := Node.add X (.power Y (num 2))
    dual f 0 1 2 = gives 5 1 ∧ dual f 1 1 2 = gives 5 4 := ⟨rfl, rfl⟩
-- L318-321, L328-331
example : let f := Node.sub X Y
    dual f 0 1 2 = gives (-1) 1 ∧ dual f 1 1 2 = gives (-1) (-1) := ⟨rfl, rfl⟩
example : let f := Node.sub X (.power Y (num 2))
    dual f 0 1 2 = gives (-3) 1 ∧ dual f 1 1 2 = gives (-3) (-4) := ⟨rfl, rfl⟩
-- L454-457, L464-467
example : let f := Node.mul X Y; dual f 0 3 2 = gives 6 2 ∧ dual f 1 3 2 = gives 6 3 := ⟨rfl, rfl⟩
example : let f := Node.mul X (.power Y (num 2))
    dual f 0 3 2 = gives 12 4 ∧ dual f 1 3 2 = gives 12 12 := ⟨rfl, rfl⟩

/-! ## `ops/arithmetic/unary.rs` -/

-- L20-24
example : let f := Node.un .subOne X
    dual f 0 1 0 = gives 0 1 ∧ dual f 0 0 0 = gives (-1) 1 ∧ dual f 0 (-1) 0 = gives (-2) 1 :=
  ⟨rfl, rfl, rfl⟩
-- L60-64
example : let f := Node.un .oneSub X
    dual f 0 1 0 = gives 0 (-1) ∧ dual f 0 0 0 = gives 1 (-1) ∧ dual f 0 (-1) 0 = gives 2 (-1) :=
  ⟨rfl, rfl, rfl⟩
-- L97-101
example : let f := Node.un .addOne X
    dual f 0 1 0 = gives 2 1 ∧ dual f 0 0 0 = gives 1 1 ∧ dual f 0 (-1) 0 = gives 0 1 :=
  ⟨rfl, rfl, rfl⟩
-- L137-142
example : let f := Node.un .square X
    dual f 0 (-1) 0 = gives 1 (-2) ∧ dual f 0 0 0 = gives 0 0 ∧ dual f 0 1 0 = gives 1 2 ∧
    dual f 0 2 0 = gives 4 4 := ⟨rfl, rfl, rfl, rfl⟩
-- L177-181
example : let f := Node.un .double X
    dual f 0 (-1) 0 = gives (-2) 2 ∧ dual f 0 0 0 = gives 0 2 ∧ dual f 0 1 0 = gives 2 2 :=
  ⟨rfl, rfl, rfl⟩
-- L216-225
example : runDual (Γ := fun | 0 => .array [3] | _ => .scalar) (.sum X) 0
      (fun | 0 => some (arr [1, 2, 3]) | _ => none) =
    some ⟨.scalar, .array [3, 3], .ok ((6 : ℤ), mat 3 [[1, 0, 0], [0, 1, 0], [0, 0, 1]])⟩ := rfl
-- L286-289
example : let f := Node.un .negate X
    dual f 0 1 0 = gives (-1) (-1) ∧ dual f 0 (-1) 0 = gives 1 (-1) := ⟨rfl, rfl⟩
-- L326-330
example : let f := Node.un .dirac X
    run f (ctx (-1) 0) = some ⟨.scalar, .ok (0 : ℤ)⟩ ∧
    run f (ctx 0 0) = some ⟨.scalar, .ok (1000000 : ℤ)⟩ ∧
    run f (ctx 1 0) = some ⟨.scalar, .ok (0 : ℤ)⟩ := ⟨rfl, rfl, rfl⟩
-- L355-359
example : let f := Node.un .sign X
    dual f 0 (-1) 0 = gives (-1) 0 ∧ dual f 0 0 0 = gives 0 1000000 ∧ dual f 0 1 0 = gives 1 0 :=
  ⟨rfl, rfl, rfl⟩
-- L392-396
example : let f := Node.un .abs X
    dual f 0 (-1) 0 = gives 1 (-1) ∧ dual f 0 0 0 = gives 0 0 ∧ dual f 0 1 0 = gives 1 1 :=
  ⟨rfl, rfl, rfl⟩

/-! ## `ops/linalg/mod.rs` -/

-- L22-28
example : run (Γ := fun _ => .array [2]) (.contract 1 X Y)
    (fun | 0 => some (arr [1, 2]) | 1 => some (arr [-1, 1]) | _ => none) =
    some ⟨.scalar, .ok (1 : ℤ)⟩ := rfl
-- L135-142
example : let c : Ctx ℤ (fun _ => .array [3]) := fun
      | 0 => some (arr [1, 2, 3]) | 1 => some (arr [-1, 0, 2]) | _ => none
    runDual (.contract 1 X Y) 0 c = some ⟨.scalar, .array [3], .ok ((5 : ℤ), arr [-1, 0, 2])⟩ ∧
    runDual (.contract 1 X Y) 1 c = some ⟨.scalar, .array [3], .ok ((5 : ℤ), arr [1, 2, 3])⟩ :=
  ⟨rfl, rfl⟩

/-! ## `dual.rs` -/

section
open Dual

/-- `dual!(v)` -/
abbrev k (v : ℤ) : Dual ℤ ℤ := constant .scalar v
/-- `dual!(v, a)` -/
abbrev p (v a : ℤ) : Dual ℤ ℤ := ofPair (v, a)

-- L293-298
example : (k 0).neg = k 0 ∧ (k 2).neg = k (-2) ∧ (k (-4)).neg = k 4 := ⟨rfl, rfl, rfl⟩
-- L300-317
example : (k 0).add (k 1) = k 1 ∧ (k 5).add (k 1) = k 6 ∧ (k 5).add (k (-2)) = k 3 ∧
    (p 0 1).add (k 1) = p 1 1 ∧ (p 5 1).add (k 1) = p 6 1 ∧ (p 5 1).add (k (-2)) = p 3 1 ∧
    (k 0).add (p 1 1) = p 1 1 ∧ (k 5).add (p 1 1) = p 6 1 ∧ (k 5).add (p (-2) 1) = p 3 1 ∧
    (p 0 1).add (p 1 1) = p 1 2 ∧ (p 5 1).add (p 1 1) = p 6 2 ∧ (p 5 1).add (p (-2) 1) = p 3 2 := by
  decide
-- L319-336
example : (k 0).sub (k 1) = k (-1) ∧ (k 5).sub (k 1) = k 4 ∧ (k 5).sub (k (-2)) = k 7 ∧
    (p 0 1).sub (k 1) = p (-1) 1 ∧ (p 5 1).sub (k 1) = p 4 1 ∧ (p 5 1).sub (k (-2)) = p 7 1 ∧
    (k 0).sub (p 1 1) = p (-1) (-1) ∧ (k 5).sub (p 1 1) = p 4 (-1) ∧
    (k 5).sub (p (-2) 1) = p 7 (-1) ∧ (p 0 1).sub (p 1 1) = p (-1) 0 ∧
    (p 5 1).sub (p 1 1) = p 4 0 ∧ (p 5 1).sub (p (-2) 1) = p 7 0 := by
  decide
-- L338-355
example : (k 0).mul (k 1) = k 0 ∧ (k 5).mul (k 1) = k 5 ∧ (k 5).mul (k (-2)) = k (-10) ∧
    (p 0 1).mul (k 1) = p 0 1 ∧ (p 5 1).mul (k 1) = p 5 1 ∧ (p 5 1).mul (k (-2)) = p (-10) (-2) ∧
    (k 0).mul (p 1 1) = p 0 0 ∧ (k 5).mul (p 1 1) = p 5 5 ∧ (k 5).mul (p (-2) 1) = p (-10) 5 := by
  decide
end

/-! ## `fmt.rs` -/

-- L64-66
example : ((Node.mul (.add X Y) (.var 2)).toExpr (fun i => ["x", "y", "z"][i]!) fun _ => "").map
    Expr.display = some "(x + y) ∘ z" := rfl

/-! ## `aegir_compile/tests/tests.rs` -/

section
open Compile

/-- The variables `a`, `b`, `c` of the tests. -/
def env : String → Option (Node ℤ)
  | "a" => some (.var 0)
  | "b" => some (.var 1)
  | "c" => some (.var 2)
  | _ => none

/-- The node that `aegir!(e)` builds. -/
def expand (e : Compile.Expr) : Option (Node ℤ) := (fold e).bind (build env fun _ _ => none)

-- L14-20
example : fold (.lit (.int "10")) = some (.constant "i64" "10") ∧
    fold (.lit (.float "10.0")) = some (.constant "f64" "10.0") := by simp [fold]
-- L37-60
example : expand (.binary .add (.path "a") (.path "b")) = some (.add (.var 0) (.var 1)) ∧
    expand (.binary .sub (.path "a") (.path "b")) = some (.sub (.var 0) (.var 1)) ∧
    expand (.binary .mul (.path "a") (.path "b")) = some (.mul (.var 0) (.var 1)) ∧
    expand (.binary .bitXor (.path "a") (.path "b")) = some (.power (.var 0) (.var 1)) := by
  simp [expand, fold, build, env, BinOp.method, isSquare]
-- L64-75
example : expand (.binary .add (.path "a") (.binary .mul (.path "b") (.path "c"))) =
      some (.add (.var 0) (.mul (.var 1) (.var 2))) ∧
    expand (.binary .add (.binary .mul (.path "a") (.path "b")) (.path "c")) =
      some (.add (.mul (.var 0) (.var 1)) (.var 2)) := by
  simp [expand, fold, build, env, BinOp.method, isSquare]

end

/-! ## `README.md` -/

/-- The model `x.dot(w)` and both ways to write the error, L50-56: they are the same node, and its
adjoint has the type of the weights. -/
example : let sse := Node.un .square (.sub (.contract 1 X (.var 2)) Y)
    ((Compile.fold (.binary .bitXor (.paren (.binary .sub (.path "model") (.path "y")))
      (.lit (.int "2")))).bind (Compile.build (fun p => if p = "model" then some (.contract 1 X (.var 2))
        else if p = "y" then some Y else none) fun _ _ => none)) = some sse ∧
    runAdjoint (Γ := fun | 1 => .scalar | _ => .array [2]) sse 2
      (fun | 0 => some (arr [3, 4]) | 1 => some (5 : ℤ) | 2 => some (arr [1, 2]) | _ => none) =
      some ⟨.array [2], .ok (arr [36, 48])⟩ := by
  refine ⟨?_, rfl⟩
  simp [Compile.fold, Compile.build, Compile.BinOp.method, Compile.isSquare, Compile.Lit.isTwo]

end Aegir.Tests
