import Verif.Model.Compile
import Verif.Model.Eval
/-!
# What `aegir!` is supposed to do

Subexpressions, the nodes and numbers that arithmetic source expressions stand for, and how Rust
reads a sequence of tokens as an expression.
-/

namespace Aegir.Compile

/-- Direct subexpressions, in order. -/
def Expr.subs : Expr → List Expr
  | .binary _ l r => [l, r]
  | .lit _ | .path _ | .constant _ _ => []
  | .paren e | .unary _ e => [e]
  | .methodCall r _ args => r :: args
  | .form _ ss => ss

/-- The same form with other subexpressions. -/
def Expr.withSubs : Expr → List Expr → Expr
  | .binary op _ _, [l, r] => .binary op l r
  | .paren _, [e] => .paren e
  | .unary op _, [e] => .unary op e
  | .methodCall _ m _, r :: args => .methodCall r m args
  | .form k _, ss => .form k ss
  | e, _ => e

/-- `Within s e`: `s` occurs in `e`. -/
inductive Within : Expr → Expr → Prop
  | refl (e) : Within e e
  | sub {x s e} : s ∈ e.subs → Within x s → Within x e

/-- The operators of the notation. -/
def Supported (op : BinOp) : Prop := op ∈ [BinOp.add, .sub, .mul, .bitXor]

/-- The form is rewritten by the macro: an operator or a number. -/
def Special : Expr → Prop
  | .binary _ _ _ | .lit (.int _) | .lit (.float _) => True
  | _ => False

/-- The literal is the number two, spelled `2` or `2.0`. -/
def IsTwo (e : Expr) : Prop := e = .lit (.int "2") ∨ e = .lit (.float "2.0")

/-- `Counts x e`: `x` occurs in `e`, and not as the number two in `l ^ 2`. -/
inductive Counts (x : Expr) : Expr → Prop
  | refl : Counts x x
  | left {op l r} : Counts x l → Counts x (.binary op l r)
  | right {op l r} : ¬ (op = .bitXor ∧ IsTwo r) → Counts x r → Counts x (.binary op l r)
  | sub {s e} : (∀ op l r, e ≠ .binary op l r) → s ∈ e.subs → Counts x s → Counts x e

/-- The node that a source expression stands for: `env` gives the nodes of the names, `num` the
numbers of the literals of type `i64` and `f64`, as far as that is the type of the numbers. -/
inductive Stands {F : Type} (env : String → Option (Node F)) (num : String → String → Option F) :
    Expr → Node F → Prop
  | path {p n} : env p = some n → Stands env num (.path p) n
  | int {t x} : num "i64" t = some x → Stands env num (.lit (.int t)) (.const .scalar x)
  | float {t x} : num "f64" t = some x → Stands env num (.lit (.float t)) (.const .scalar x)
  | paren {e n} : Stands env num e n → Stands env num (.paren e) n
  | add {l r n m} : Stands env num l n → Stands env num r m →
      Stands env num (.binary .add l r) (.add n m)
  | sub {l r n m} : Stands env num l n → Stands env num r m →
      Stands env num (.binary .sub l r) (.sub n m)
  | mul {l r n m} : Stands env num l n → Stands env num r m →
      Stands env num (.binary .mul l r) (.mul n m)
  | square {l r n} : Stands env num l n → IsTwo r →
      Stands env num (.binary .bitXor l r) (.un .square n)
  | power {l r n m} : Stands env num l n → Stands env num r m → ¬ IsTwo r →
      Stands env num (.binary .bitXor l r) (.power n m)
  /-- methods of nodes can be called on operands -/
  | call0 {e n op m} : Stands env num e n →
      (m, op) ∈ [("abs", UnOp.abs), ("neg", .negate), ("ln", .ln), ("squared", .square),
        ("sigmoid", .sigmoid)] → Stands env num (.methodCall e m []) (.un op n)
  | sum {e n} : Stands env num e n → Stands env num (.methodCall e "sum" []) (.sum n)
  | dot {l r n m} : Stands env num l n → Stands env num r m →
      Stands env num (.methodCall l "dot" [r]) (.contract 1 n m)
  | div {l r n m} : Stands env num l n → Stands env num r m →
      Stands env num (.methodCall l "div" [r]) (.div n m)

/-- The number that a source expression denotes when name `p` stands for `ρ p`. Here `^` is always
the power; its exponent may be the integer `2` also where the numbers are not integers. -/
inductive Denotes {F : Type} [One F] [Add F] [Sub F] [Mul F] [ScalarFns F] (ρ : String → Option F)
    (num : String → String → Option F) : Expr → F → Prop
  | path {p x} : ρ p = some x → Denotes ρ num (.path p) x
  | int {t x} : num "i64" t = some x → Denotes ρ num (.lit (.int t)) x
  | float {t x} : num "f64" t = some x → Denotes ρ num (.lit (.float t)) x
  | paren {e x} : Denotes ρ num e x → Denotes ρ num (.paren e) x
  | add {l r x y} : Denotes ρ num l x → Denotes ρ num r y →
      Denotes ρ num (.binary .add l r) (x + y)
  | sub {l r x y} : Denotes ρ num l x → Denotes ρ num r y →
      Denotes ρ num (.binary .sub l r) (x - y)
  | mul {l r x y} : Denotes ρ num l x → Denotes ρ num r y →
      Denotes ρ num (.binary .mul l r) (x * y)
  | pow {l r x y} : Denotes ρ num l x → Denotes ρ num r y →
      Denotes ρ num (.binary .bitXor l r) (ScalarFns.pow x y)
  | square {l r x} : Denotes ρ num l x → IsTwo r →
      Denotes ρ num (.binary .bitXor l r) (ScalarFns.pow x (1 + 1))

/-! Reading tokens: a prefix operator applies to the whole of the following method call chain. The
first argument bounds the depth. -/
mutual

/-- An expression and the tokens after it. -/
def readExpr : Nat → List Tok → Option (Expr × List Tok)
  | 0, _ => none
  | n + 1, .prefix s :: ts => (readExpr n ts).map fun p => (.unary s p.1, p.2)
  | n + 1, .ident p :: ts => readCalls n (.path p) ts
  | n + 1, .lit t :: ts => readCalls n (.lit (.other t)) ts
  | n + 1, .const f t :: ts => readCalls n (.constant f t) ts
  | n + 1, .open :: ts =>
      match readExpr n ts with
      | some (e, .close :: ts') => readCalls n (.paren e) ts'
      | _ => none
  | _, _ => none

/-- The method calls on `e`. -/
def readCalls : Nat → Expr → List Tok → Option (Expr × List Tok)
  | 0, _, _ => none
  | n + 1, e, .dot :: .ident m :: .open :: ts =>
      match readArgs n ts with
      | some (args, ts') => readCalls n (.methodCall e m args) ts'
      | none => none
  | _, e, ts => some (e, ts)

/-- Arguments up to the closing parenthesis. -/
def readArgs : Nat → List Tok → Option (List Expr × List Tok)
  | 0, _ => none
  | _, .close :: ts => some ([], ts)
  | n + 1, ts =>
      match readExpr n ts with
      | some (e, .comma :: ts') => (readArgs n ts').map fun p => (e :: p.1, p.2)
      | some (e, .close :: ts') => some ([e], ts')
      | _ => none

end

/-- The tokens are read as `e`, at every sufficient depth. -/
def Reads (ts : List Tok) (e : Expr) : Prop := ∃ N, ∀ n ≥ N, readExpr n ts = some (e, [])

end Aegir.Compile
