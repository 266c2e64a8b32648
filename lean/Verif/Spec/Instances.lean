import Verif.Spec.Scalar
import Mathlib.Algebra.Ring.Int.Defs
import Mathlib.Data.Int.Cast.Basic
/-!
# Concrete scalars for examples and counterexamples
-/

namespace Aegir.Spec

/-- Integers. Functions Rust integers do not have are set to `0`; no theorem uses them. -/
instance : ScalarFns ℤ where
  isZero x := decide (x = 0)
  eqb x y := decide (x = y)
  leb x y := decide (x ≤ y)
  fromUsize n := some n
  infinity := 0
  pow x n := x ^ n.toNat
  abs x := (x.natAbs : ℤ)
  signum x := x.sign
  ln _ := 0
  exp _ := 0
  cos _ := 0
  cosh _ := 0
  acos _ := 0
  acosh _ := 0
  sin _ := 0
  sinh _ := 0
  asin _ := 0
  asinh _ := 0
  tan _ := 0
  tanh _ := 0
  atan _ := 0
  atanh _ := 0
  gamma _ := 0
  digamma _ := 0
  loggamma _ := 0
  erf _ := 0

instance : LawfulScalar ℤ where
  isZero_iff x := by simp [ScalarFns.isZero]
  fromUsize_eq n := rfl

instance : LawfulPow ℤ where
  eqb_iff x y := by simp [ScalarFns.eqb]
  pow_zero x := by simp [ScalarFns.pow]
  one_pow x := by simp [ScalarFns.pow]

/-- Integers with a NaN (`none`): any operation with a NaN operand gives NaN, and NaN is not zero.
A minimal stand-in for `f32`/`f64` in counterexamples. -/
structure NanInt where
  /-- the value, `none` for NaN -/
  val : Option ℤ
deriving DecidableEq

namespace NanInt
/-- Lift a binary operation. -/
def lift2 (f : ℤ → ℤ → ℤ) (x y : NanInt) : NanInt := ⟨x.val.bind (fun a => y.val.map (f a))⟩
/-- Lift a unary operation. -/
def lift1 (f : ℤ → ℤ) (x : NanInt) : NanInt := ⟨x.val.map f⟩
/-- NaN. -/
def nan : NanInt := ⟨none⟩
instance : Zero NanInt := ⟨⟨some 0⟩⟩
instance : One NanInt := ⟨⟨some 1⟩⟩
instance : Add NanInt := ⟨lift2 (· + ·)⟩
instance : Sub NanInt := ⟨lift2 (· - ·)⟩
instance : Mul NanInt := ⟨lift2 (· * ·)⟩
instance : Neg NanInt := ⟨lift1 (- ·)⟩
instance : Div NanInt := ⟨fun x y => if y = 0 then nan else lift2 (· / ·) x y⟩
instance : ScalarFns NanInt where
  isZero x := decide (x = 0)
  eqb x y := decide (x.val.isSome ∧ x = y)
  leb x y := match x.val, y.val with
    | some a, some b => decide (a ≤ b)
    | _, _ => false
  fromUsize n := some ⟨some n⟩
  infinity := nan
  pow x n := lift2 (fun a b => a ^ b.toNat) x n
  abs := lift1 (fun a => (a.natAbs : ℤ))
  signum := lift1 Int.sign
  ln _ := nan
  exp _ := nan
  cos _ := nan
  cosh _ := nan
  acos _ := nan
  acosh _ := nan
  sin _ := nan
  sinh _ := nan
  asin _ := nan
  asinh _ := nan
  tan _ := nan
  tanh _ := nan
  atan _ := nan
  atanh _ := nan
  gamma _ := nan
  digamma _ := nan
  loggamma _ := nan
  erf _ := nan
end NanInt

end Aegir.Spec
