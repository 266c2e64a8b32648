import Verif.Model.Node
/-!
# Symbolic rendering (`fmt.rs` and all `to_expr` impls)

Strings are Lean strings. What the standard library prints for an identifier or a number is a
parameter (`idText`, `numText`). `none` stands for nodes without a `ToExpr` (or `Display`) impl; for
them the Rust call does not compile.
-/

namespace Aegir

/-- `PreWrap` (`fmt.rs` L9-15). -/
structure PreWrap where
  /-- `text` -/
  text : String
  /-- `needs_wrap` -/
  needsWrap : Bool
deriving DecidableEq

/-- `PreWrap::to_safe_string` (`fmt.rs` L19-25). -/
def PreWrap.toSafeString (p : PreWrap) (l r : Char) : String :=
  if p.needsWrap then String.singleton l ++ p.text ++ String.singleton r else p.text

/-- All callers pass `'('` and `')'`. -/
def PreWrap.safe (p : PreWrap) : String := p.toSafeString '(' ')'

/-- `Expr` (`fmt.rs` L35-44). -/
inductive Expr where
  /-- `Zero` -/
  | zero
  /-- `One` -/
  | one
  /-- `Text` -/
  | text (p : PreWrap)
deriving DecidableEq

/-- `Display for Expr` (`fmt.rs` L46-54). -/
def Expr.display : Expr → String
  | .zero => ""
  | .one => "1"
  | .text p => p.text

/-- `Text` that needs brackets inside another expression. -/
def Expr.wrapped (s : String) : Expr := .text ⟨s, true⟩

/-- `Text` that is used as is. -/
def Expr.plain (s : String) : Expr := .text ⟨s, false⟩

/-- `Power::to_expr` (`ops/arithmetic/binary.rs` L153-166). -/
def powerExpr : Expr → Expr → Expr
  | .zero, _ => .zero
  | _, .zero => .one
  | .one, _ => .one
  | l, .one => l
  | .text l, .text r => .plain (l.safe ++ "^" ++ r.safe)

/-- `Add::to_expr` (`ops/arithmetic/binary.rs` L274-302). -/
def addExpr : Expr → Expr → Expr
  | .zero, .zero => .zero
  | .zero, .one => .one
  | .one, .zero => .one
  | .one, .one => .plain "2"
  | .text l, .zero => .text l
  | .zero, .text r => .text r
  | .text l, .one => .wrapped (l.safe ++ " + 1")
  | .one, .text r => .wrapped ("1 + " ++ r.safe)
  | .text l, .text r => .wrapped (l.safe ++ " + " ++ r.safe)

/-- `Sub::to_expr` (`ops/arithmetic/binary.rs` L406-438). -/
def subExpr : Expr → Expr → Expr
  | .zero, .zero => .zero
  | .one, .one => .zero
  | .one, .zero => .one
  | .zero, .one => .plain "-1"
  | .text l, .zero => .text l
  | .zero, .text r => .plain ("-" ++ r.safe)
  | .text l, .one => .wrapped (l.safe ++ " - 1")
  | .one, .text r => .wrapped ("1 - " ++ r.safe)
  | .text l, .text r => .wrapped (l.safe ++ " - " ++ r.safe)

/-- `Mul::to_expr` (`ops/arithmetic/binary.rs` L563-578) and the same `match` in the three
contractions (`ops/linalg/mod.rs` L105-120, L147-162, L175-190); `k` renders two texts. -/
def prodExpr (k : PreWrap → PreWrap → Expr) : Expr → Expr → Expr
  | _, .zero => .zero
  | .zero, _ => .zero
  | .one, .one => .one
  | l, .one => l
  | .one, r => r
  | .text l, .text r => k l r

/-- `Div::to_expr` (`ops/arithmetic/binary.rs` L645-667). -/
def divExpr : Expr → Expr → Expr
  | .zero, _ => .zero
  | l, .one => l
  | _, .zero => .plain "∞"
  | .one, .text r => .wrapped ("1 / " ++ r.safe)
  | .text l, .text r => .wrapped (l.safe ++ " / " ++ r.safe)

/-- The `format!` of `Mul` (`binary.rs` L573-576). -/
def mulText (l r : PreWrap) : Expr := .wrapped (l.safe ++ " ∘ " ++ r.safe)

/-- The `format!` of `TensorProduct`, `TensorDot` and `TensorDoubleDot` (`ops/linalg/mod.rs` L115-118,
L157-160, L185-188); no `ToExpr` impl for other numbers of axes. -/
def contractText : Nat → Option (PreWrap → PreWrap → Expr)
  | 0 => some fun l r => .wrapped (l.safe ++ " ⊗ " ++ r.safe)
  | 1 => some fun l r => .plain ("⟨" ++ l.safe ++ ", " ++ r.safe ++ "⟩")
  | 2 => some fun l r => .wrapped (l.safe ++ " : " ++ r.safe)
  | _ => none

/-- A `match` on the operand's expression with one arm per constructor. -/
def Expr.arms (z o : Expr) (t : PreWrap → Expr) : Expr → Expr
  | .zero => z
  | .one => o
  | .text p => t p

/-- Name of an operator that is rendered as a function call. -/
def call (f : String) (p : PreWrap) : Expr := .plain (f ++ "(" ++ p.text ++ ")")

/-- `to_expr` of the unary operators, as a function of the operand's expression. -/
def UnOp.expr : UnOp → Expr → Expr
  /- `ops/arithmetic/unary.rs` L26-41 -/
  | .subOne => .arms (.plain "-1") .zero fun p => .wrapped (p.safe ++ " - 1")
  /- L66-78 -/
  | .oneSub => .arms .one .zero fun p => .wrapped ("1 - " ++ p.safe)
  /- L103-118, with a minus sign as in the source -/
  | .addOne => .arms .one (.wrapped "2") fun p => .wrapped ("1 - " ++ p.safe)
  /- L144-156 -/
  | .square => .arms .zero .one fun p => .plain ("(" ++ p.safe ++ ")^2")
  /- L183-198 -/
  | .double => .arms .zero (.plain "2") fun p => .plain ("2 ∘ " ++ p.safe)
  /- L291-306 -/
  | .negate => .arms .zero (.plain "-1") fun p => .plain ("-" ++ p.safe)
  /- L337-345 -/
  | .dirac => fun e => .plain ("δ(" ++ e.display ++ ")")
  /- L363-371 -/
  | .sign => fun e => .plain ("sgn(" ++ e.display ++ ")")
  /- L398-410 -/
  | .abs => .arms .zero .one fun p => .plain ("|" ++ p.text ++ "|")
  /- `ops/logarithmic.rs` L23-38 -/
  | .ln => .arms (.plain "-∞") .zero (call "ln")
  /- L69-81 -/
  | .xlnx => .arms .zero .zero fun p => .wrapped (p.safe ++ " ∘ ln(" ++ p.text ++ ")")
  /- L108-123 -/
  | .exp => .arms .one (.plain "𝑒") fun p => .plain ("𝑒^" ++ p.safe)
  /- `ops/sigmoid.rs` L18-29 -/
  | .rabbit => .arms .zero .zero fun p => .wrapped (p.safe ++ " ∘ (1 - " ++ p.safe ++ ")")
  /- L71-89 -/
  | .sigmoid => .arms (.plain "½") (.plain "σ(1)") (call "σ")
  /- `ops/special.rs` L19-34 -/
  | .gamma => .arms (.plain "∞") .one (call "Γ")
  /- L50-65 -/
  | .digamma => .arms (.plain "∞") .one (call "ψ")
  /- L69-84 -/
  | .logGamma => .arms (.plain "∞") .zero (call "lnΓ")
  /- L136-147 -/
  | .erf => .arms .one .one (call "erf")
  /- `ops/trig.rs` L11-26 -/
  | .cos => .arms .one (.plain "cos(1)") (call "cos")
  /- L42-57 -/
  | .cosh => .arms .one (.plain "cosh(1)") (call "cosh")
  /- L61-76 -/
  | .acos => .arms (.plain "π/2") .zero (call "acos")
  /- L80-95 -/
  | .acosh => .arms (.plain "𝑖π/2") .zero (call "acosh")
  /- L99-114 -/
  | .sin => .arms .zero (.plain "sin(1)") (call "sin")
  /- L130-145, the constant without `h` as in the source -/
  | .sinh => .arms .zero (.plain "sin(1)") (call "sinh")
  /- L149-164, the name of another function as in the source -/
  | .asin => .arms .zero (.plain "π/2") (call "acos")
  /- L168-183 -/
  | .asinh => .arms .zero (.plain "asinh(1)") (call "asinh")
  /- L187-202 -/
  | .tan => .arms .zero (.plain "tan(1)") (call "tan")
  /- L206-221 -/
  | .tanh => .arms .zero (.plain "tanh(1)") (call "tanh")
  /- L225-240 -/
  | .atan => .arms .zero (.plain "π/4") (call "atan")
  /- L244-259 -/
  | .atanh => .arms .zero (.plain "∞") (call "atanh")

section
variable {F : Type} (idText : Id → String) (numText : F → String)

/-- `ToExpr::to_expr`: `Variable` (`meta/variable.rs` L95-102), `VariableAdjoint` (L236-248),
`Constant` (`meta/constant.rs` L102-109; of the buffer types only scalars implement `ToString`),
`ConstantAdjoint` (L187-189), operators as above. `Sum` and `Cached` have no impl. -/
def Node.toExpr : Node F → Option Expr
  | .var i => some (.plain (idText i))
  | .varAdj i t => some (if i = t then .one else .zero)
  | .const .scalar b => some (.plain (numText b))
  | .const _ _ => none
  | .constSpec _ _ => none
  | .constAdj _ _ => some .zero
  | .cached _ _ => none
  | .add l r => l.toExpr.bind fun x => r.toExpr.map fun y => addExpr x y
  | .sub l r => l.toExpr.bind fun x => r.toExpr.map fun y => subExpr x y
  | .mul l r => l.toExpr.bind fun x => r.toExpr.map fun y => prodExpr mulText x y
  | .div l r => l.toExpr.bind fun x => r.toExpr.map fun y => divExpr x y
  | .power l r => l.toExpr.bind fun x => r.toExpr.map fun y => powerExpr x y
  | .contract k l r => (contractText k).bind fun f =>
      l.toExpr.bind fun x => r.toExpr.map fun y => prodExpr f x y
  | .sum _ => none
  | .un op n => n.toExpr.map op.expr

/-- `Display`, which is `self.to_expr().fmt(f)` except for `ConstantAdjoint` (`meta/constant.rs`
L191-193), `Sum` (`ops/arithmetic/unary.rs` L274-278) and `TensorDoubleDot` (`ops/linalg/mod.rs`
L193-197); `Variable` prints its identifier (`meta/variable.rs` L104-108). -/
def Node.display : Node F → Option String
  | .constAdj _ _ => some "0"
  | .sum n => n.display.map fun s => "Σ_i (" ++ s ++ ")_i"
  | .contract 2 l r => l.display.bind fun x => r.display.map fun y => "(" ++ x ++ ") : (" ++ y ++ ")"
  | e => (e.toExpr idText numText).map Expr.display

end

end Aegir
