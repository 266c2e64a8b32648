import Verif.Spec.Abstraction
import Verif.Spec.Instances
import Verif.Spec.Real
import Mathlib.Tactic.Linarith
/-!
# Scalars that stand for numbers: machine integers, numbers with NaN, intervals

What the scalars are and what they stand for; that they do so soundly is proved in
`Lemmas/Machine`.
-/

namespace Aegir.Spec

/-! ### Machine integers -/

/-- An integer type with values `lo, ..., hi` in a build with overflow checks; `none` marks that an
operation has panicked. -/
structure Checked (lo hi : ℤ) where
  /-- the integer, `none` after a panic -/
  val : Option ℤ
deriving DecidableEq

namespace Checked
variable {lo hi : ℤ}

/-- The integer if the type has it, else a panic. -/
def fit (n : ℤ) : Checked lo hi := ⟨if lo ≤ n ∧ n ≤ hi then some n else none⟩

/-- An operation on integers, with overflow check. -/
def lift (f : ℤ → ℤ → ℤ) (x y : Checked lo hi) : Checked lo hi :=
  match x.val, y.val with
  | some a, some b => fit (f a b)
  | _, _ => ⟨none⟩

instance : Zero (Checked lo hi) := ⟨⟨some 0⟩⟩
instance : One (Checked lo hi) := ⟨⟨some 1⟩⟩
instance : Add (Checked lo hi) := ⟨lift (· + ·)⟩
instance : Sub (Checked lo hi) := ⟨lift (· - ·)⟩
instance : Mul (Checked lo hi) := ⟨lift (· * ·)⟩
instance : Neg (Checked lo hi) := ⟨fun x => lift (fun _ b => -b) x x⟩
/-- Division rounds towards zero and panics for divisor `0`. -/
instance : Div (Checked lo hi) := ⟨fun x y => if y.val = some 0 then ⟨none⟩ else lift Int.tdiv x y⟩

/-- Functions Rust integers do not have are set to a panic; no theorem uses them. `from_usize` fails
for numbers the type does not have. -/
instance : ScalarFns (Checked lo hi) where
  isZero x := decide (x.val = some 0)
  eqb x y := decide (x.val.isSome ∧ x = y)
  leb x y := match x.val, y.val with
    | some a, some b => decide (a ≤ b)
    | _, _ => false
  fromUsize n := if (n : ℤ) ≤ hi then some ⟨some n⟩ else none
  infinity := ⟨none⟩
  pow := lift (fun a b => a ^ b.toNat)
  abs _ := ⟨none⟩
  signum _ := ⟨none⟩
  ln _ := ⟨none⟩
  exp _ := ⟨none⟩
  cos _ := ⟨none⟩
  cosh _ := ⟨none⟩
  acos _ := ⟨none⟩
  acosh _ := ⟨none⟩
  sin _ := ⟨none⟩
  sinh _ := ⟨none⟩
  asin _ := ⟨none⟩
  asinh _ := ⟨none⟩
  tan _ := ⟨none⟩
  tanh _ := ⟨none⟩
  atan _ := ⟨none⟩
  atanh _ := ⟨none⟩
  gamma _ := ⟨none⟩
  digamma _ := ⟨none⟩
  loggamma _ := ⟨none⟩
  erf _ := ⟨none⟩

/-- An integer literal. -/
def of (n : ℤ) : Checked lo hi := ⟨some n⟩

/-- A machine integer stands for the same integer; after a panic nothing is claimed. -/
def Is {G : Type} [IntCast G] (x : Checked lo hi) (a : G) : Prop := ∀ n, x.val = some n → a = (n : G)

end Checked

/-- A number that may be NaN stands for the same number; NaN for anything. -/
def NanInt.Is (x : NanInt) (a : ℤ) : Prop := ∀ n, x.val = some n → a = n

/-! ### Intervals -/

/-- A closed interval of real numbers. -/
structure Interval where
  /-- lower end -/
  lo : ℝ
  /-- upper end -/
  hi : ℝ

namespace Interval

/-- The interval from the least to the greatest product of ends. -/
noncomputable def hull (a b c d : ℝ) : Interval := ⟨min (min a b) (min c d), max (max a b) (max c d)⟩

noncomputable instance : Zero Interval := ⟨⟨0, 0⟩⟩
noncomputable instance : One Interval := ⟨⟨1, 1⟩⟩
noncomputable instance : Add Interval := ⟨fun x y => ⟨x.lo + y.lo, x.hi + y.hi⟩⟩
noncomputable instance : Sub Interval := ⟨fun x y => ⟨x.lo - y.hi, x.hi - y.lo⟩⟩
noncomputable instance : Neg Interval := ⟨fun x => ⟨-x.hi, -x.lo⟩⟩
noncomputable instance : Mul Interval :=
  ⟨fun x y => hull (x.lo * y.lo) (x.lo * y.hi) (x.hi * y.lo) (x.hi * y.hi)⟩
/-- No theorem uses division. -/
noncomputable instance : Div Interval := ⟨fun x _ => x⟩

open Classical in
/-- Apart from squares and `exp`, the functions beyond ring arithmetic are set to `0`; no theorem uses
them. -/
noncomputable instance : ScalarFns Interval where
  isZero x := decide (x.lo = 0 ∧ x.hi = 0)
  eqb x y := decide (x = y)
  leb x y := decide (x.hi ≤ y.lo)
  fromUsize n := some ⟨n, n⟩
  infinity := 0
  pow x y := if y = 1 + 1 then x * x else 0
  abs _ := 0
  signum _ := 0
  ln _ := 0
  exp x := ⟨Real.exp x.lo, Real.exp x.hi⟩
  cos _ := 0
  cosh _ := 0
  acos _ := 0
  acosh _ := 0
  sin _ := 0
  sinh _ := 0
  asin _ := 0
  asinh _ := 0
  tan _ := 0
  tanh _ := 0
  atan _ := 0
  atanh _ := 0
  gamma _ := 0
  digamma _ := 0
  loggamma _ := 0
  erf _ := 0

/-- An interval stands for every number in it. -/
def Has (x : Interval) (a : ℝ) : Prop := x.lo ≤ a ∧ a ≤ x.hi

end Interval

end Aegir.Spec
