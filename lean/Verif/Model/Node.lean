import Verif.Model.Contract
/-!
# Expression trees

The node types of `aegir/src/{ops,meta}` as one inductive type. In Rust every node type is a
separate generic struct and a tree is a type; here a tree is a value, and the trait bounds that
select impls are modelled by `FnImpl` (`Model/Eval.lean`, the `Function<C>` impls) and by the
`Option` result of `Node.adjoint` (below, the `Differentiable<T>` impls).
-/

namespace Aegir

/-- Identifiers (`lib.rs` L58-61). Simplification: Rust identifiers are types with a `PartialEq`
across types; here they are numbers compared by equality (C44 covers the identifiers that `ids!`
generates). -/
abbrev Id := Nat

/-- The operators generated by `impl_unary!` (`ops/mod.rs` L2-59). -/
inductive UnOp where
  /-- `ops/arithmetic/unary.rs` L26 -/
  | subOne
  /-- `ops/arithmetic/unary.rs` L66 -/
  | oneSub
  /-- `ops/arithmetic/unary.rs` L103 -/
  | addOne
  /-- `ops/arithmetic/unary.rs` L144 -/
  | square
  /-- `ops/arithmetic/unary.rs` L183 -/
  | double
  /-- `ops/arithmetic/unary.rs` L291 -/
  | negate
  /-- `ops/arithmetic/unary.rs` L332 -/
  | dirac
  /-- `ops/arithmetic/unary.rs` L361 -/
  | sign
  /-- `ops/arithmetic/unary.rs` L398 -/
  | abs
  /-- `ops/logarithmic.rs` L23 -/
  | ln
  /-- `ops/logarithmic.rs` L67 -/
  | xlnx
  /-- `ops/logarithmic.rs` L108 -/
  | exp
  /-- `ops/sigmoid.rs` L18 -/
  | rabbit
  /-- `ops/sigmoid.rs` L71 -/
  | sigmoid
  /-- `ops/special.rs` L19 -/
  | gamma
  /-- `ops/special.rs` L50 -/
  | digamma
  /-- `ops/special.rs` L69 -/
  | logGamma
  /-- `ops/special.rs` L136 -/
  | erf
  /-- `ops/trig.rs` L11 -/
  | cos
  /-- `ops/trig.rs` L42 -/
  | cosh
  /-- `ops/trig.rs` L61 -/
  | acos
  /-- `ops/trig.rs` L80 -/
  | acosh
  /-- `ops/trig.rs` L99 -/
  | sin
  /-- `ops/trig.rs` L130 -/
  | sinh
  /-- `ops/trig.rs` L149 -/
  | asin
  /-- `ops/trig.rs` L168 -/
  | asinh
  /-- `ops/trig.rs` L187 -/
  | tan
  /-- `ops/trig.rs` L206 -/
  | tanh
  /-- `ops/trig.rs` L225 -/
  | atan
  /-- `ops/trig.rs` L244 -/
  | atanh
deriving DecidableEq, Repr

/-- Operator trees. -/
inductive Node (F : Type) : Type where
  /-- `Variable` (`meta/variable.rs` L41) -/
  | var (i : Id)
  /-- `VariableAdjoint` (`meta/variable.rs` L116-122) -/
  | varAdj (i t : Id)
  /-- `Constant<B>` for a buffer `B` (`meta/constant.rs` L42) -/
  | const (τ : BTy) (b : Buf F τ)
  /-- `Constant<Spec<B>>` (`meta/constant.rs` L42, `buffers/spec.rs` L66-70) -/
  | constSpec (τ : BTy) (s : BSpec F τ)
  /-- `ConstantAdjoint` (`meta/constant.rs` L117-123) -/
  | constAdj (n : Node F) (t : Id)
  /-- `Cached` (`meta/cached.rs` L12-15) -/
  | cached (n : Node F) (i : Id)
  /-- `Add` (`ops/arithmetic/binary.rs` L196) -/
  | add (l r : Node F)
  /-- `Sub` (`ops/arithmetic/binary.rs` L333) -/
  | sub (l r : Node F)
  /-- `Mul` (`ops/arithmetic/binary.rs` L469) -/
  | mul (l r : Node F)
  /-- `Div` (`ops/arithmetic/binary.rs` L588) -/
  | div (l r : Node F)
  /-- `Power` (`ops/arithmetic/binary.rs` L81) -/
  | power (l r : Node F)
  /-- `Contract<AXES, _, _>` (`ops/linalg/mod.rs` L31) -/
  | contract (axes : Nat) (l r : Node F)
  /-- `Sum` (`ops/arithmetic/unary.rs` L228) -/
  | sum (n : Node F)
  /-- the `impl_unary!` operators -/
  | un (op : UnOp) (n : Node F)

section
variable {F : Type} [Zero F] [One F] [Add F] [Sub F] [Mul F] [Div F] [Neg F] [ScalarFns F]

/-- `fn sigmoid` (`ops/sigmoid.rs` L44-55); `x >= 0` is `0 <= x`. -/
def sigmoid (x : F) : F :=
  if ScalarFns.leb 0 x then
    let l : F := 1
    l / (l + ScalarFns.exp (-x))
  else
    let l : F := 1
    let z := ScalarFns.exp x
    z / (l + z)

/-- The scalar function of a unary operator: the `|x| { .. }` block of each `impl_unary!`
invocation (lines at the constructors of `UnOp`). -/
def UnOp.apply : UnOp → F → F
  | .subOne, x => x - 1
  | .oneSub, x => 1 - x
  | .addOne, x => x + 1
  | .square, x => ScalarFns.pow x (1 + 1)
  | .double, x => (1 + 1) * x
  | .negate, x => -x
  | .dirac, x => if ScalarFns.eqb x 0 then ScalarFns.infinity else 0
  | .sign, x => if ScalarFns.isZero x then x else ScalarFns.signum x
  | .abs, x => ScalarFns.abs x
  | .ln, x => ScalarFns.ln x
  | .xlnx, x => if ScalarFns.leb x 0 then 0 else x * ScalarFns.ln x
  | .exp, x => ScalarFns.exp x
  | .rabbit, x => x * (1 - x)
  | .sigmoid, x => Aegir.sigmoid x
  | .gamma, x => ScalarFns.gamma x
  | .digamma, x => ScalarFns.digamma x
  | .logGamma, x => ScalarFns.loggamma x
  | .erf, x => ScalarFns.erf x
  | .cos, x => ScalarFns.cos x
  | .cosh, x => ScalarFns.cosh x
  | .acos, x => ScalarFns.acos x
  | .acosh, x => ScalarFns.acosh x
  | .sin, x => ScalarFns.sin x
  | .sinh, x => ScalarFns.sinh x
  | .asin, x => ScalarFns.asin x
  | .asinh, x => ScalarFns.asinh x
  | .tan, x => ScalarFns.tan x
  | .tanh, x => ScalarFns.tanh x
  | .atan, x => ScalarFns.atan x
  | .atanh, x => ScalarFns.atanh x

end

/-- `Contains::contains`: `Variable` (`meta/variable.rs` L50), `VariableAdjoint` (L132), `Constant`
(`meta/constant.rs` L51), `ConstantAdjoint` (L134), `Cached` (`meta/cached.rs` L25-27), all
operators (`#[derive(Contains)]`: `aegir_derive/src/ops.rs` L124-154, a disjunction over the `#[op]`
fields). -/
def Node.contains {F : Type} : Node F → Id → Bool
  | .var i, x => i == x
  | .varAdj i t, x => i == x || t == x
  | .const _ _, _ => false
  | .constSpec _ _, _ => false
  | .constAdj n t, x => n.contains x || t == x
  | .cached n i, x => x == i || n.contains x
  | .add l r, x => l.contains x || r.contains x
  | .sub l r, x => l.contains x || r.contains x
  | .mul l r, x => l.contains x || r.contains x
  | .div l r, x => l.contains x || r.contains x
  | .power l r, x => l.contains x || r.contains x
  | .contract _ l r, x => l.contains x || r.contains x
  | .sum n, x => n.contains x
  | .un _ n, x => n.contains x

/-- `Differentiable::adjoint`; `none` when the node type has no `Differentiable<T>` impl for the
target (then the Rust call does not compile). `Constant<Spec<_>>`, `ConstantAdjoint`, `Dirac`,
`DiGamma`, `Erf` and most trigonometric operators have none; `Cached<N, T>` only has one for its own
identifier type (`meta/cached.rs` L54-67).
Lines: `meta/variable.rs` L85-93, L219-234; `meta/constant.rs` L78-93;
`ops/arithmetic/binary.rs` L132-150, L257-272, L389-404, L543-561, L626-643;
`ops/linalg/mod.rs` L72-86; `ops/arithmetic/unary.rs` L43-51, L79-88, L119-128, L157-168, L199-208,
L263-271, L307-316, L372-383, L411-422; `ops/logarithmic.rs` L40-48, L82-93, L124-133;
`ops/sigmoid.rs` L31-41, L90-101; `ops/special.rs` L36-46, L86-96; `ops/trig.rs` L28-38, L116-126. -/
def Node.adjoint {F : Type} : Node F → Id → Option (Node F)
  | .var i, t => some (.varAdj i t)
  | .varAdj i j, t => some (.constAdj (.varAdj i j) t)
  | .const τ b, t => some (.constAdj (.const τ b) t)
  | .constSpec _ _, _ => none
  | .constAdj _ _, _ => none
  | .cached n i, t => if t = i then n.adjoint t else none
  | .add l r, t => (l.adjoint t).bind fun l' => (r.adjoint t).map fun r' => .add l' r'
  | .sub l r, t => (l.adjoint t).bind fun l' => (r.adjoint t).map fun r' => .sub l' r'
  | .mul l r, t => (l.adjoint t).bind fun gl => (r.adjoint t).map fun gr =>
      .add (.mul gl r) (.mul gr l)
  | .div l r, t => (l.adjoint t).bind fun l' => (r.adjoint t).map fun r' =>
      .div (.sub (.mul r l') (.mul l r')) (.un .square r)
  | .power b e, t => (b.adjoint t).bind fun b' => (e.adjoint t).map fun e' =>
      .mul (.power b (.un .subOne e)) (.add (.mul e b') (.mul (.un .xlnx b) e'))
  | .contract axes l r, t => (l.adjoint t).bind fun j1 => (r.adjoint t).map fun j2 =>
      .add (.contract axes l j2) (.contract axes j1 r)
  | .sum n, t => n.adjoint t
  | .un op n, t =>
      match op with
      | .subOne => n.adjoint t
      | .oneSub => (n.adjoint t).map fun n' => .un .negate n'
      | .addOne => n.adjoint t
      | .square => (n.adjoint t).map fun n' => .mul (.un .double n) n'
      | .double => (n.adjoint t).map fun n' => .un .double n'
      | .negate => (n.adjoint t).map fun n' => .un .negate n'
      | .sign => (n.adjoint t).map fun n' => .mul (.un .dirac n) n'
      | .abs => (n.adjoint t).map fun n' => .mul (.un .sign n) n'
      | .ln => (n.adjoint t).map fun n' => .div n' n
      | .xlnx => (n.adjoint t).map fun n' => .mul n' (.un .addOne (.un .ln n))
      | .exp => (n.adjoint t).map fun n' => .mul (.un .exp n) n'
      | .rabbit => (n.adjoint t).map fun n' => .mul (.un .oneSub (.un .double n)) n'
      | .sigmoid => (n.adjoint t).map fun n' => .mul n' (.un .rabbit (.un .sigmoid n))
      | .gamma => (n.adjoint t).map fun n' => .mul (.mul n' (.un .digamma n)) (.un .gamma n)
      | .logGamma => (n.adjoint t).map fun n' => .mul n' (.un .digamma n)
      | .cos => (n.adjoint t).map fun n' => .un .negate (.mul n' (.un .sin n))
      | .sin => (n.adjoint t).map fun n' => .mul n' (.un .cos n)
      | _ => none

end Aegir
