import Verif.Spec.Program
/-!
# How the source of `aegir!` is read

The input of `aegir!` is parsed by syn (`aegir_compile/src/lib.rs` L137) with the operator precedences
of Rust, in which `^` binds weaker than `+`. Both Rust's reading and the one of mathematics are given
by tables of binding strengths. Simplification: only names, numbers, brackets, method calls, prefix
minus and the operators `+ - * / ^`.
-/

namespace Aegir.Source

open Compile

/-- Source tokens. -/
inductive Sym where
  | name (s : String)
  | int (text : String)
  | float (text : String)
  /-- an operator; `-` also as a prefix -/
  | op (o : BinOp)
  | open | close | dot | comma
deriving DecidableEq

/-- Binding strengths: operators with a higher level bind tighter. Method calls have level 4. -/
structure Grammar where
  /-- the level of an expression with this operator -/
  result : BinOp → Nat
  /-- the least level of the left operand without brackets -/
  left : BinOp → Nat
  /-- the least level of the right operand without brackets -/
  right : BinOp → Nat
  /-- the level of a prefix minus and its operand -/
  sign : Nat

/-- Rust: `^` below `+` and `-` below `*` and `/` below prefixes, all grouping to the left. -/
def rust : Grammar where
  result | .bitXor => 0 | .add | .sub => 1 | _ => 2
  left | .bitXor => 0 | .add | .sub => 1 | _ => 2
  right | .bitXor => 1 | .add | .sub => 2 | _ => 3
  sign := 3

/-- Mathematics: `+` and `-` below `*` and `/` below prefixes below powers, which group to the right;
an exponent may have a sign. -/
def maths : Grammar where
  result | .add | .sub => 0 | .bitXor => 3 | _ => 1
  left | .add | .sub => 0 | .bitXor => 4 | _ => 1
  right | .add | .sub => 1 | .bitXor => 2 | _ => 2
  sign := 2

/-- What is read: an expression of at least some level, or the arguments of a method. -/
inductive Cat where
  | level (k : Nat)
  | args

/-- How tokens are grouped into expressions. -/
inductive Derives (G : Grammar) : Cat → List Sym → List Expr → Prop
  | name (s) : Derives G (.level 4) [.name s] [.path s]
  | int (t) : Derives G (.level 4) [.int t] [.lit (.int t)]
  | float (t) : Derives G (.level 4) [.float t] [.lit (.float t)]
  | paren {ts e} : Derives G (.level 0) ts [e] →
      Derives G (.level 4) (.open :: (ts ++ [.close])) [.paren e]
  | call {ts us e m args} : Derives G (.level 4) ts [e] → Derives G .args us args →
      Derives G (.level 4) (ts ++ .dot :: .name m :: .open :: (us ++ [.close])) [.methodCall e m args]
  | neg {ts e} : Derives G (.level G.sign) ts [e] →
      Derives G (.level G.sign) (.op .sub :: ts) [.unary "-" e]
  | binary {op ts us l r} : op ∈ [BinOp.add, .sub, .mul, .div, .bitXor] →
      Derives G (.level (G.left op)) ts [l] → Derives G (.level (G.right op)) us [r] →
      Derives G (.level (G.result op)) (ts ++ .op op :: us) [.binary op l r]
  | up {k ts e} : Derives G (.level (k + 1)) ts [e] → Derives G (.level k) ts [e]
  | noArgs : Derives G .args [] []
  | arg {ts e} : Derives G (.level 0) ts [e] → Derives G .args ts [e]
  | args {ts us e es} : Derives G (.level 0) ts [e] → Derives G .args us es →
      Derives G .args (ts ++ .comma :: us) (e :: es)

/-- The tokens are read as `e`. -/
def Grammar.Reads (G : Grammar) (ts : List Sym) (e : Expr) : Prop := Derives G (.level 0) ts [e]

/-- A power without brackets around it. -/
def IsPower (e : Expr) : Prop := ∃ l r, e = .binary .bitXor l r

/-- Powers stand alone, in brackets or as arguments: they are not operands without brackets. -/
def Bracketed (e : Expr) : Prop :=
  (∀ op l r, Within (.binary op l r) e → ¬ IsPower l ∧ ¬ IsPower r) ∧
    ∀ op x, Within (.unary op x) e → ¬ IsPower x

/-- The tokens `ts` in `aegir!` construct the node `n`: syn reads them as an expression, and the macro
makes a node of it. -/
def Makes {F : Type} (env : String → Option (Node F)) (num : String → String → Option F) (ts : List Sym)
    (n : Node F) : Prop :=
  ∃ e, rust.Reads ts e ∧ Constructs env num e n

/-- The nodes of the names after `let p = aegir!(ts);` for each binding. -/
inductive MakesAll {F : Type} (num : String → String → Option F) :
    (String → Option (Node F)) → List (String × List Sym) → (String → Option (Node F)) → Prop
  | nil (env) : MakesAll num env [] env
  | cons {env env' p ts n bs} : Makes env num ts n →
      MakesAll num (fun q => if q = p then some n else env q) bs env' →
      MakesAll num env ((p, ts) :: bs) env'

end Aegir.Source
