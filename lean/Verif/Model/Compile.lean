import Verif.Model.Node
/-!
# The `aegir!` macro (`aegir_compile/src/lib.rs`)

Rust expressions (`syn::Expr`), the rewriting that the macro applies to them, and the nodes that the
rewritten expression constructs (the builder methods of `Node`, `aegir/src/lib.rs` L130-224).

Simplifications: literals and paths are their texts; `Expr::Unary` and `Expr::Reference` are prefix
operators; all forms without special treatment in the macro are `form`s with their subexpressions in
order (forms the macro does not descend into, `Expr::Verbatim` and the arguments of `Expr::Macro`,
have none). Attributes and spans are left out, and so is the parsing of the
macro's input by syn.
-/

namespace Aegir.Compile

/-- `syn::BinOp`, as far as the macro tells operators apart (`aegir_compile/src/lib.rs` L18-26). -/
inductive BinOp where
  | add | sub | mul | div | bitXor
  /-- any other operator -/
  | other (tok : String)
deriving DecidableEq, Repr

/-- `syn::Lit`, as far as the macro tells literals apart (`aegir_compile/src/lib.rs` L28-42,
L74-86). -/
inductive Lit where
  | int (text : String)
  | float (text : String)
  /-- strings, characters, booleans .. -/
  | other (text : String)
deriving DecidableEq, Repr

/-- `syn::Expr` (`aegir_compile/src/lib.rs` L11-132). -/
inductive Expr where
  | binary (op : BinOp) (l r : Expr)
  | lit (l : Lit)
  | path (p : String)
  | paren (e : Expr)
  | unary (op : String) (e : Expr)
  | methodCall (receiver : Expr) (method : String) (args : List Expr)
  /-- the block `{ aegir::meta::Constant::<i64>(text) }` (L76-78), or with `f64` (L81-83) -/
  | constant (field : String) (text : String)
  | form (kind : String) (subs : List Expr)

/-- The method that stands for an operator (`aegir_compile/src/lib.rs` L18-26); `none` is
`unimplemented!()`. -/
def BinOp.method : BinOp → Option String
  | .add => some "add"
  | .sub => some "sub"
  | .mul => some "mul"
  | .div => none
  | .bitXor => some "pow"
  | .other _ => none

/-- `is_two` (`aegir_compile/src/lib.rs` L28-42); syn compares literals by their text. -/
def Lit.isTwo : Lit → Bool
  | .float t => t == "2.0"
  | .int t => t == "2"
  | .other _ => false

/-- The guard at `aegir_compile/src/lib.rs` L45. -/
def isSquare (method : String) : Expr → Bool
  | .lit l => method == "pow" && l.isTwo
  | _ => false

mutual

/-- `ConvertToAegir::fold_expr` (`aegir_compile/src/lib.rs` L11-132); `none` is the panic of
`unimplemented!()`. -/
def fold : Expr → Option Expr
  | .binary op l r =>
      op.method.bind fun method =>
        if isSquare method r then (fold l).map fun l' => .methodCall l' "squared" []
        else (fold r).bind fun r' => (fold l).map fun l' => .methodCall l' method [r']
  | .lit (.int t) => some (.constant "i64" t)
  | .lit (.float t) => some (.constant "f64" t)
  | .lit (.other t) => some (.lit (.other t))
  | .path p => some (.path p)
  | .paren e => (fold e).map .paren
  | .unary op e => (fold e).map (.unary op)
  | .methodCall r m args => (fold r).bind fun r' => (foldAll args).map fun args' =>
      .methodCall r' m args'
  | .constant f t => some (.constant f t)
  | .form k subs => (foldAll subs).map (.form k)

/-- `fold_expr` of each subexpression in turn (`syn::fold::Fold`, default methods). -/
def foldAll : List Expr → Option (List Expr)
  | [] => some []
  | e :: es => (fold e).bind fun e' => (foldAll es).map fun es' => e' :: es'

end

/-- The node that a Rust expression over the builder methods constructs: `Node::{add, sub, mul, div,
dot, pow, abs, neg, ln, squared, sum, sigmoid}` (`aegir/src/lib.rs` L141-223), constants
(`meta/constant.rs` L42) and `env` for paths; `num field text` is the constant `text` of type `field`
if that type is `F`, and `none` otherwise. `none`: not such an expression, or not one over `F`: the
impls of the operators demand the same `Field` of both operands (`ops/arithmetic/binary.rs` L208-215).
Simplification: a constant of another type is rejected here and not where the impls are resolved. -/
def build {F : Type} (env : String → Option (Node F)) (num : String → String → Option F) :
    Expr → Option (Node F)
  | .path p => env p
  | .paren e => build env num e
  | .constant f t => (num f t).map (.const .scalar)
  | .methodCall r m [] =>
      (build env num r).bind fun n =>
        match m with
        | "abs" => some (.un .abs n)
        | "neg" => some (.un .negate n)
        | "ln" => some (.un .ln n)
        | "squared" => some (.un .square n)
        | "sum" => some (.sum n)
        | "sigmoid" => some (.un .sigmoid n)
        | _ => none
  | .methodCall r m [a] =>
      (build env num r).bind fun n => (build env num a).bind fun n' =>
        match m with
        | "add" => some (.add n n')
        | "sub" => some (.sub n n')
        | "mul" => some (.mul n n')
        | "div" => some (.div n n')
        | "dot" => some (.contract 1 n n')
        | "pow" => some (.power n n')
        | _ => none
  | _ => none

/-- Tokens of the expansion, as far as needed for `print`. -/
inductive Tok where
  /-- a path or a method name -/
  | ident (s : String)
  /-- a literal that is not a number -/
  | lit (s : String)
  /-- the group `{ aegir::meta::Constant::<field>(text) }` -/
  | const (field text : String)
  /-- a prefix operator -/
  | prefix (s : String)
  | dot | open | close | comma
  /-- the tokens of a form that is not modelled -/
  | opaque (e : Expr)

mutual

/-- `quote!(#converted)` (`aegir_compile/src/lib.rs` L142): syn 1 prints an expression by printing
its parts in order, without adding parentheses. Simplification: forms other than the below are
opaque. -/
def print : Expr → List Tok
  | .path p => [.ident p]
  | .lit (.other t) => [.lit t]
  | .constant f t => [.const f t]
  | .paren e => .open :: print e ++ [.close]
  | .unary op e => .prefix op :: print e
  | .methodCall r m args => print r ++ [.dot, .ident m, .open] ++ printArgs args ++ [.close]
  | e => [.opaque e]

/-- Arguments separated by commas. -/
def printArgs : List Expr → List Tok
  | [] => []
  | [e] => print e
  | e :: e' :: es => print e ++ .comma :: printArgs (e' :: es)

end

/-- The macro `aegir!` (`aegir_compile/src/lib.rs` L135-143), from the parsed input to the tokens it
expands to. -/
def aegir (e : Expr) : Option (List Tok) := (fold e).map print

end Aegir.Compile
