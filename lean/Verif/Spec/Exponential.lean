import Verif.Spec.Range
/-!
# Arithmetic of limited range with comparison, division and an exponential function

What IEEE arithmetic promises beyond `Ranged`. Nothing here refers to how expressions are evaluated.
-/

namespace Aegir.Spec

variable {F : Type}

/-- `r` is the result `t` rounded to one of the neighbouring numbers: rounding does not cross any
number of the format. -/
def Nearby (val : F → ℝ) (fin : F → Prop) (r : F) (t : ℝ) : Prop :=
  ∀ z, fin z → (val z ≤ t → val z ≤ val r) ∧ (t ≤ val z → val r ≤ val z)

/-- The model of IEEE arithmetic, with comparison and division. The exponential function, a library
routine, need only be accurate up to a relative error of `v` for arguments that are not positive, and
return numbers between zero and one for them. -/
structure RangedExp [Zero F] [One F] [Add F] [Sub F] [Mul F] [Div F] [Neg F] [ScalarFns F]
    (val : F → ℝ) (fin : F → Prop) (u v lo hi : ℝ) : Prop extends Ranged val fin u lo hi where
  nonneg' : 0 ≤ v
  lo_nonneg : 0 ≤ lo
  zero_of : ∀ x, fin x → val x = 0 → ScalarFns.isZero x = true
  le : ∀ x y, fin x → fin y → (ScalarFns.leb x y = true ↔ val x ≤ val y)
  add_nearby : ∀ x y, fin (x + y) → Nearby val fin (x + y) (val x + val y)
  sub_nearby : ∀ x y, fin (x - y) → Nearby val fin (x - y) (val x - val y)
  mul_nearby : ∀ x y, fin (x * y) → Nearby val fin (x * y) (val x * val y)
  div : ∀ x y, fin x → fin y → val y ≠ 0 → |val x / val y| ≤ hi → fin (x / y) ∧
    |val (x / y) - val x / val y| ≤ u * max |val x / val y| lo ∧
    Nearby val fin (x / y) (val x / val y)
  exp : ∀ x, fin x → val x ≤ 0 → fin (ScalarFns.exp x) ∧ 0 ≤ val (ScalarFns.exp x) ∧
    val (ScalarFns.exp x) ≤ 1 ∧
    |val (ScalarFns.exp x) - Real.exp (val x)| ≤ v * max (Real.exp (val x)) lo

end Aegir.Spec
