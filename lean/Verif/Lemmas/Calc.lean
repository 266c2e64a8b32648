import Verif.Lemmas.Tensor
import Verif.Spec.Index
import Mathlib.Data.Real.Basic
import Mathlib.Tactic.Linarith
import Mathlib.Tactic.Positivity
import Mathlib.Algebra.Order.BigOperators.Group.Finset
/-!
# Judgements about computed numbers

What has to be known about a judgement `J k x a m` ("the scalar `x` stands for the number `a`, after at
most `k` roundings and with magnitude `m`") so that it holds of all entries of an evaluated expression
as soon as it holds of its variables and constants. `R k m` says that a result of this magnitude is
within range.
-/

namespace Aegir

open Spec

/-- Closure properties of a judgement. If `lax`, sums without terms need no special care. -/
structure Calc {F : Type} [Zero F] [One F] [Add F] [Sub F] [Mul F] [Neg F] [ScalarFns F]
    (J : ℕ → F → ℝ → ℝ → Prop) (R : ℕ → ℝ → Prop) (lax : Prop) : Prop where
  anti : ∀ {k l m n}, R l n → k ≤ l → m ≤ n → R k m
  mag : ∀ {k x a m}, J k x a m → |a| ≤ m
  mono : ∀ {k l x a m}, J k x a m → k ≤ l → J l x a m
  zero : J 0 0 0 0
  one : J 0 1 1 1
  two : J 1 (1 + 1) (1 + 1) (1 + 1)
  isZero : ∀ {k x a m}, ScalarFns.isZero x = true → J k x a m → J k 0 a m
  neg : ∀ {k x a m}, J k x a m → J k (-x) (-a) m
  add : ∀ {k l x y a b m n}, J k x a m → J l y b n → R (max k l + 1) (m + n) →
    J (max k l + 1) (x + y) (a + b) (m + n)
  sub : ∀ {k l x y a b m n}, J k x a m → J l y b n → R (max k l + 1) (m + n) →
    J (max k l + 1) (x - y) (a - b) (m + n)
  mul : ∀ {k l x y a b m n}, J k x a m → J l y b n → R (k + l + 1) (m * n) →
    J (k + l + 1) (x * y) (a * b) (m * n)
  square : ∀ {k x a m}, J k x a m → R (2 * k + 1) (m ^ 2) →
    J (2 * k + 1) (ScalarFns.pow x (1 + 1)) (a ^ 2) (m ^ 2)
  addz : ∀ {k x a b m n}, J k x a m → J k 0 b n → J k x (a + b) (m + n)
  subz : ∀ {k x a b m n}, J k x a m → J k 0 b n → J k x (a - b) (m + n)
  mulz : ∀ {k l y a b m n}, J k 0 a m → J l y b n → J (k + l + 1) 0 (a * b) (m * n)
  scale : ∀ {k x K n} {A M : ℕ → ℝ}, (ScalarFns.fromUsize n : Option F) = some K →
    (∀ i, i < n → J k x (A i) (M i)) → (n ≠ 0 ∨ lax) → R (k + 2) (∑ i ∈ Finset.range n, M i) →
    J (k + 2) (K * x) (∑ i ∈ Finset.range n, A i) (∑ i ∈ Finset.range n, M i)
  times : ∀ {k l x y K n} {A B M N : ℕ → ℝ}, (ScalarFns.fromUsize n : Option F) = some K →
    (∀ i, i < n → J k x (A i) (M i)) → (∀ i, i < n → J l y (B i) (N i)) → (n ≠ 0 ∨ lax) →
    R (k + 2) (∑ i ∈ Finset.range n, M i) → R (k + l + 3) (∑ i ∈ Finset.range n, M i * N i) →
    J (k + l + 3) (K * x * y) (∑ i ∈ Finset.range n, A i * B i) (∑ i ∈ Finset.range n, M i * N i)

/-- The buffer `b` has extents `ds`, and its entries stand for `A`, with magnitudes `M`. -/
def HoldsBuf {F : Type} (J : ℕ → F → ℝ → ℝ → Prop) (k : ℕ) {τ : BTy} (b : Buf F τ) (ds : Dims)
    (A M : Idx → ℝ) : Prop :=
  Buf.dims τ b = ds ∧ ∀ ix, InBounds ds ix → ∃ x, Buf.getU τ b ix = some x ∧ J k x (A ix) (M ix)

namespace Calc
variable {F : Type} [Zero F] [One F] [Add F] [Sub F] [Mul F] [Neg F] [ScalarFns F]
variable {J : ℕ → F → ℝ → ℝ → Prop} {R : ℕ → ℝ → Prop} {lax : Prop}
variable {k l : ℕ} {x y : F} {a b m n : ℝ}

theorem pos (hv : Calc J R lax) (h : J k x a m) : 0 ≤ m := (abs_nonneg _).trans (hv.mag h)

/-- A product, counted generously. -/
theorem mul' (hv : Calc J R lax) (h : J k x a m) (h' : J l y b n) {j : ℕ} (hj : k + l + 1 ≤ j)
    (hR : R j (m * n)) : J j (x * y) (a * b) (m * n) :=
  hv.mono (hv.mul h h' (hv.anti hR hj le_rfl)) hj

/-- The same with the operands exchanged. -/
theorem mul_swap (hv : Calc J R lax) (h : J k x a m) (h' : J l y b n) {j : ℕ} (hj : k + l + 1 ≤ j)
    (hR : R j (m * n)) : J j (y * x) (a * b) (m * n) := by
  have := hv.mul' h' h (j := j) (by omega) (by rwa [mul_comm])
  rwa [mul_comm b, mul_comm n] at this

/-- A product with zero. -/
theorem mulz' (hv : Calc J R lax) (h : J k 0 a m) (h' : J l y b n) {j : ℕ} (hj : k + l + 1 ≤ j) :
    J j 0 (a * b) (m * n) := hv.mono (hv.mulz h h') hj

/-- The same with the operands exchanged. -/
theorem mulz_swap (hv : Calc J R lax) (h : J k x a m) (h' : J l 0 b n) {j : ℕ} (hj : k + l + 1 ≤ j) :
    J j 0 (a * b) (m * n) := by
  have := hv.mulz' h' h (j := j) (by omega)
  rwa [mul_comm b, mul_comm n] at this

/-- Adding a zero may be skipped. -/
theorem add_zero' (hv : Calc J R lax) (h : J k x a m) (h' : J l y b n)
    (hx : ScalarFns.isZero x = true) : J (max k l + 1) y (a + b) (m + n) := by
  have h1 := hv.mono (hv.isZero hx h) (l := max k l + 1) (by omega)
  have h2 := hv.mono h' (l := max k l + 1) (by omega)
  have := hv.addz h2 h1
  rwa [add_comm b, add_comm n] at this

/-- Multiplying by a zero may be skipped. -/
theorem mul_zero' (hv : Calc J R lax) (h : J k x a m) (h' : J l y b n)
    (hx : ScalarFns.isZero x = true) : J (k + l + 1) 0 (a * b) (m * n) :=
  hv.mulz (hv.isZero hx h) h'

/-- A sum of zeros. -/
theorem sumz (hv : Calc J R lax) {A M : ℕ → ℝ} (n : ℕ) (h : ∀ i, i < n → J k 0 (A i) (M i)) :
    J k 0 (∑ i ∈ Finset.range n, A i) (∑ i ∈ Finset.range n, M i) := by
  induction n with
  | zero => simpa using hv.mono hv.zero (Nat.zero_le k)
  | succ n ih =>
    rw [Finset.sum_range_succ, Finset.sum_range_succ]
    exact hv.addz (ih fun i hi => h i (by omega)) (h n (by omega))

/-- A sum of zeros and one other term. -/
theorem sum_single (hv : Calc J R lax) {A M : ℕ → ℝ} {n j : ℕ} (hj : j < n)
    (h : ∀ i, i < n → i ≠ j → J k 0 (A i) (M i)) (hx : J k x (A j) (M j)) :
    J k x (∑ i ∈ Finset.range n, A i) (∑ i ∈ Finset.range n, M i) := by
  induction n with
  | zero => omega
  | succ n ih =>
    rw [Finset.sum_range_succ, Finset.sum_range_succ]
    rcases Nat.lt_succ_iff_lt_or_eq.1 hj with hj | rfl
    · exact hv.addz (ih hj fun i hi => h i (by omega)) (h n (by omega) (by omega))
    · have := hv.addz hx (hv.sumz j fun i hi => h i (by omega) (by omega))
      rwa [add_comm (A j), add_comm (M j)] at this

end Calc

theorem le_sum_range {n i : ℕ} {f : ℕ → ℝ} (hf : ∀ j, j < n → 0 ≤ f j) (hi : i < n) :
    f i ≤ ∑ j ∈ Finset.range n, f j :=
  Finset.single_le_sum (fun j hj => hf j (Finset.mem_range.1 hj)) (Finset.mem_range.2 hi)

end Aegir
