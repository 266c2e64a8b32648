import Verif.Spec.Compile
import Verif.Spec.Real
/-!
# Scalar programs

A program binds names to expressions, one after the other, each written inside `aegir!`. Its meaning
is a function of the variables, together with the points at which the rules of calculus give its
derivatives. On the other side is what the compiler makes of it: every right-hand side is expanded by
the macro, the tokens are read, and the builder methods construct a node.
-/

namespace Aegir.Compile

/-- Values of the variables. -/
abbrev Point := Id → ℝ

/-- A function of the variables and the points at which it may be differentiated. -/
structure Meaning where
  /-- the function -/
  fn : Point → ℝ
  /-- the points -/
  dom : Point → Prop

/-- Numbers are written as floating point literals, with the values `num`. -/
def floats (num : String → ℝ) : String → String → Option ℝ :=
  fun field t => if field = "f64" then some (num t) else none

/-- What a source expression means when names have the meanings `ρ` and numerals the values `num`. -/
inductive Computes (num : String → ℝ) (ρ : String → Option Meaning) : Expr → Meaning → Prop
  | path {p m} : ρ p = some m → Computes num ρ (.path p) m
  | float (t) : Computes num ρ (.lit (.float t)) ⟨fun _ => num t, fun _ => True⟩
  | paren {e m} : Computes num ρ e m → Computes num ρ (.paren e) m
  | add {l r m k} : Computes num ρ l m → Computes num ρ r k →
      Computes num ρ (.binary .add l r) ⟨fun v => m.fn v + k.fn v, fun v => m.dom v ∧ k.dom v⟩
  | sub {l r m k} : Computes num ρ l m → Computes num ρ r k →
      Computes num ρ (.binary .sub l r) ⟨fun v => m.fn v - k.fn v, fun v => m.dom v ∧ k.dom v⟩
  | mul {l r m k} : Computes num ρ l m → Computes num ρ r k →
      Computes num ρ (.binary .mul l r) ⟨fun v => m.fn v * k.fn v, fun v => m.dom v ∧ k.dom v⟩
  /-- a power with a positive base -/
  | pow {l r m k} : Computes num ρ l m → Computes num ρ r k →
      Computes num ρ (.binary .bitXor l r)
        ⟨fun v => m.fn v ^ k.fn v, fun v => m.dom v ∧ k.dom v ∧ 0 < m.fn v⟩
  /-- a power with a positive whole number as exponent -/
  | natPow {l m t} {n : ℕ} : Computes num ρ l m → num t = n → 1 ≤ n →
      Computes num ρ (.binary .bitXor l (.lit (.float t))) ⟨fun v => m.fn v ^ n, m.dom⟩
  /-- a square, where the exponent may be the integer `2` -/
  | square {l r m} : Computes num ρ l m → IsTwo r →
      Computes num ρ (.binary .bitXor l r) ⟨fun v => m.fn v ^ 2, m.dom⟩
  | abs {e m} : Computes num ρ e m →
      Computes num ρ (.methodCall e "abs" []) ⟨fun v => |m.fn v|, fun v => m.dom v ∧ m.fn v ≠ 0⟩
  | neg {e m} : Computes num ρ e m →
      Computes num ρ (.methodCall e "neg" []) ⟨fun v => -m.fn v, m.dom⟩
  | ln {e m} : Computes num ρ e m →
      Computes num ρ (.methodCall e "ln" []) ⟨fun v => Real.log (m.fn v), fun v => m.dom v ∧ 0 < m.fn v⟩
  | squared {e m} : Computes num ρ e m →
      Computes num ρ (.methodCall e "squared" []) ⟨fun v => m.fn v ^ 2, m.dom⟩
  | sigmoid {e m} : Computes num ρ e m →
      Computes num ρ (.methodCall e "sigmoid" []) ⟨fun v => 1 / (1 + Real.exp (-m.fn v)), m.dom⟩
  | sum {e m} : Computes num ρ e m → Computes num ρ (.methodCall e "sum" []) m
  | div {l r m k} : Computes num ρ l m → Computes num ρ r k →
      Computes num ρ (.methodCall l "div" [r])
        ⟨fun v => m.fn v / k.fn v, fun v => m.dom v ∧ k.dom v ∧ k.fn v ≠ 0⟩

/-- What names mean after a sequence of bindings. -/
inductive Binds (num : String → ℝ) :
    (String → Option Meaning) → List (String × Expr) → (String → Option Meaning) → Prop
  | nil (ρ) : Binds num ρ [] ρ
  | cons {ρ ρ' p e m bs} : Computes num ρ e m →
      Binds num (fun q => if q = p then some m else ρ q) bs ρ' → Binds num ρ ((p, e) :: bs) ρ'

/-- `aegir!(e)` constructs the node `n`: the macro expands to tokens, the compiler reads them as an
expression over the builder methods, and that expression constructs the node. -/
def Constructs {F : Type} (env : String → Option (Node F)) (num : String → String → Option F) (e : Expr)
    (n : Node F) : Prop :=
  ∃ ts e', aegir e = some ts ∧ Reads ts e' ∧ build env num e' = some n

/-- The nodes of the names after `let p = aegir!(e);` for each binding. -/
inductive Compiles {F : Type} (num : String → String → Option F) :
    (String → Option (Node F)) → List (String × Expr) → (String → Option (Node F)) → Prop
  | nil (env) : Compiles num env [] env
  | cons {env env' p e n bs} : Constructs env num e n →
      Compiles num (fun q => if q = p then some n else env q) bs env' →
      Compiles num env ((p, e) :: bs) env'

end Aegir.Compile
