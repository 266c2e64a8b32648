import Verif.Spec.Dual
import Verif.Lemmas.Buffer
import Verif.Spec.Index
import Mathlib.Analysis.Calculus.Deriv.Mul
import Mathlib.Analysis.Calculus.Deriv.Add
import Mathlib.Analysis.Calculus.Deriv.Comp
/-!
# C39, C40: dual numbers
-/

namespace Aegir

open Spec

private theorem constant_scalar {F : Type} [CommRing F] (v : F) :
    Dual.constant .scalar v = (⟨v, 0⟩ : Dual F F) := rfl

section
variable {ι F : Type} [CommRing F]

/-! ## C39 -/

/-- A program with one input, run at `Dual::variable(x)`, yields the value of the polynomial it
denotes and of its derivative. -/
theorem C39_polynomial (p : Prog Unit F) (x : F) :
    p.runDual (fun _ => Dual.variable' .scalar x) =
      ⟨p.poly.eval x, p.poly.derivative.eval x⟩ := by
  induction p with
  | input i =>
    simp only [Prog.runDual, Prog.poly, Prog.run, Polynomial.eval_X, Polynomial.derivative_X,
      Polynomial.eval_one]
    rfl
  | const v =>
    simp only [Prog.runDual, Prog.poly, Prog.run, Polynomial.eval_C, Polynomial.derivative_C,
      Polynomial.eval_zero]
    rfl
  | neg p ih =>
    simp only [Prog.poly] at ih
    simp [Prog.runDual, Prog.poly, Prog.run, ih, Dual.neg, Dual.map, Dual.ofPair]
  | add p q ihp ihq | addRef p q ihp ihq | sub p q ihp ihq | subRef p q ihp ihq =>
    simp only [Prog.poly] at ihp ihq
    simp [Prog.runDual, Prog.poly, Prog.run, ihp, ihq, Dual.add, Dual.addRef, Dual.sub, Dual.subRef]
  | addV p v ih | addRefV p v ih | subV p v ih | subRefV p v ih =>
    simp only [Prog.poly] at ih
    simp [Prog.runDual, Prog.poly, Prog.run, ih, Dual.addV, Dual.addRefV, Dual.subV, Dual.subRefV]
  | mul p q ihp ihq | mulRef p q ihp ihq =>
    simp only [Prog.poly] at ihp ihq
    simp only [Prog.runDual, Prog.poly, Prog.run, ihp, ihq, Dual.mul, Dual.mulRef,
      Polynomial.eval_mul, Polynomial.derivative_mul, Polynomial.eval_add, mul_comm]

/-- `3 (x - 2)^2 - x` at `5`. -/
example : (Prog.sub (.mul (.const 3) (.mulRef (.subV (.input ()) 2) (.subRefV (.input ()) 2)))
    (.input ()) : Prog Unit ℤ).runDual (fun _ => Dual.variable' .scalar (5 : ℤ)) = ⟨22, 17⟩ := rfl

/-- A program with any number of inputs yields its value and the derivative in the direction given by
the adjoints of the inputs. -/
theorem C39_directional [Fintype ι] (p : Prog ι F) (x : ι → Dual F F) :
    p.runDual x = ⟨p.mvPoly.eval fun i => (x i).value,
      ∑ i, (x i).adjoint * (MvPolynomial.pderiv i p.mvPoly).eval fun i => (x i).value⟩ := by
  classical
  induction p with
  | input i =>
    simp only [Prog.runDual, Prog.mvPoly, Prog.run, MvPolynomial.eval_X, MvPolynomial.pderiv_X]
    rw [Finset.sum_eq_single i]
    · simp
    · intro j _ hj
      simp [hj.symm]
    · simp
  | const v =>
    simp only [Prog.runDual, Prog.mvPoly, Prog.run, MvPolynomial.eval_C, MvPolynomial.pderiv_C]
    simp
    rfl
  | neg p ih =>
    simp only [Prog.mvPoly] at ih
    simp [Prog.runDual, Prog.mvPoly, Prog.run, ih, Dual.neg, Dual.map, Dual.ofPair]
  | add p q ihp ihq | addRef p q ihp ihq | sub p q ihp ihq | subRef p q ihp ihq =>
    simp only [Prog.mvPoly] at ihp ihq
    simp [Prog.runDual, Prog.mvPoly, Prog.run, ihp, ihq, Dual.add, Dual.addRef, Dual.sub,
      Dual.subRef, mul_add, mul_sub, Finset.sum_add_distrib, Finset.sum_sub_distrib]
  | addV p v ih | addRefV p v ih | subV p v ih | subRefV p v ih =>
    simp only [Prog.mvPoly] at ih
    simp [Prog.runDual, Prog.mvPoly, Prog.run, ih, Dual.addV, Dual.addRefV, Dual.subV, Dual.subRefV]
  | mul p q ihp ihq | mulRef p q ihp ihq =>
    simp only [Prog.mvPoly] at ihp ihq
    simp only [Prog.runDual, Prog.mvPoly, Prog.run, ihp, ihq, Dual.mul, Dual.mulRef,
      MvPolynomial.pderiv_mul, map_add, map_mul, Dual.mk.injEq, true_and, mul_add,
      Finset.sum_add_distrib, Finset.sum_mul, Finset.mul_sum]
    refine congrArg₂ (· + ·) (Finset.sum_congr rfl fun i _ => ?_)
      (Finset.sum_congr rfl fun i _ => ?_) <;> ring

/-- `x * y + y` at `(2, 7)` in direction `(1, 3)`. -/
example : (Prog.add (.mul (.input 0) (.input 1)) (.input 1) : Prog (Fin 2) ℤ).runDual
    ![⟨2, 1⟩, ⟨7, 3⟩] = ⟨21, 16⟩ := rfl

/-- Programs over constants have zero adjoint. -/
theorem C39_constants (p : Prog ι F) (h : p.Closed) (x : ι → Dual F F) :
    (p.runDual x).adjoint = 0 := by
  induction p with
  | input i => exact h.elim
  | const v => rfl
  | neg p ih => simp [Prog.runDual, Dual.neg, Dual.map, Dual.ofPair, ih h]
  | add p q ihp ihq | addRef p q ihp ihq | sub p q ihp ihq | subRef p q ihp ihq =>
    simp [Prog.runDual, Dual.add, Dual.addRef, Dual.sub, Dual.subRef, ihp h.1, ihq h.2]
  | addV p v ih | addRefV p v ih | subV p v ih | subRefV p v ih =>
    simp [Prog.runDual, Dual.addV, Dual.addRefV, Dual.subV, Dual.subRefV, ih h]
  | mul p q ihp ihq | mulRef p q ihp ihq =>
    simp [Prog.runDual, Dual.mul, Dual.mulRef, ihp h.1, ihq h.2]

example : (Prog.mul (.const 3) (.subV (.const 4) 1) : Prog Unit ℤ).Closed ∧
    (Prog.mul (.const 3) (.subV (.const 4) 1) : Prog Unit ℤ).runDual (fun _ => ⟨1, 1⟩) = ⟨9, 0⟩ :=
  ⟨⟨trivial, trivial⟩, rfl⟩

/-- `Dual::variable` and `Dual::constant` keep the buffer and give it an adjoint of the same shape,
all ones or all zeros. -/
theorem C39_init {τ : BTy} (b : Buf F τ) :
    ((Dual.variable' τ b).value = b ∧ (Dual.constant τ b).value = b) ∧
    ((Buf.shape τ (Dual.variable' τ b).adjoint) = Buf.shape τ b ∧
      (Buf.shape τ (Dual.constant τ b).adjoint) = Buf.shape τ b) ∧
    ∀ ix, InBounds (Buf.dims τ b) ix → Buf.getU τ (Dual.variable' τ b).adjoint ix = some 1 ∧
      Buf.getU τ (Dual.constant τ b).adjoint ix = some 0 :=
  ⟨⟨rfl, rfl⟩, ⟨Buf.shape_full _ _ _, Buf.shape_full _ _ _⟩, fun _ hix =>
    ⟨Buf.getU_full _ _ _ _ hix, Buf.getU_full _ _ _ _ hix⟩⟩

example : (Dual.variable' .vec [4, 5] : Dual (List ℤ) (List ℤ)) = ⟨[4, 5], [1, 1]⟩ ∧
    InBounds (Buf.dims .vec ([4, 5] : List ℤ)) [1] := ⟨rfl, by simp [InBounds, Buf.dims, Shp.dims, Buf.shape]⟩

/-- Conjugation is an involution, for all buffers. -/
theorem C39_conj_conj {τ : BTy} {V : Type} (d : Dual V (Buf F τ)) :
    Dual.conj τ (Dual.conj τ d) = d := by
  obtain ⟨v, a⟩ := d
  simp only [Dual.conj, Dual.mk.injEq, true_and]
  rw [Buf.map_map, show ((fun a : F => -a) ∘ fun a => -a) = id from funext fun a => neg_neg a,
    Buf.map_id]

/-- Conjugation reflects the derivative: it commutes with all programs. -/
theorem C39_conj_run (p : Prog ι F) (x : ι → Dual F F) :
    p.runDual (fun i => Dual.conj .scalar (x i)) = Dual.conj .scalar (p.runDual x) := by
  have hc : ∀ d : Dual F F, Dual.conj .scalar d = ⟨d.value, -d.adjoint⟩ := fun _ => rfl
  simp only [hc]
  induction p with
  | input i => rfl
  | const v => exact congrArg (Dual.mk v) (neg_zero (G := F)).symm
  | neg p ih => simp only [Prog.runDual, ih, Dual.neg, Dual.map, Dual.ofPair]
  | add p q ihp ihq | addRef p q ihp ihq | sub p q ihp ihq | subRef p q ihp ihq =>
    simp only [Prog.runDual, ihp, ihq, Dual.add, Dual.addRef, Dual.sub, Dual.subRef,
      Dual.mk.injEq, true_and]
    ring
  | addV p v ih | addRefV p v ih | subV p v ih | subRefV p v ih =>
    simp only [Prog.runDual, ih, Dual.addV, Dual.addRefV, Dual.subV, Dual.subRefV]
  | mul p q ihp ihq | mulRef p q ihp ihq =>
    simp only [Prog.runDual, ihp, ihq, Dual.mul, Dual.mulRef, Dual.mk.injEq, true_and]
    ring

example : Dual.conj .scalar (⟨3, 4⟩ : Dual ℤ ℤ) = ⟨3, -4⟩ := rfl

/-- A dual number times its conjugate is the plain square of its value. -/
theorem C39_mul_conj (d : Dual F F) :
    d.mul (Dual.conj .scalar d) = Dual.constant .scalar (d.value * d.value) ∧
    d.mulRef (Dual.conj .scalar d) = Dual.constant .scalar (d.value * d.value) := by
  rw [constant_scalar]
  constructor <;> simp [Dual.mul, Dual.mulRef, Dual.conj, Buf.map, mul_comm]

example : (⟨3, 4⟩ : Dual ℤ ℤ).mul (Dual.conj .scalar ⟨3, 4⟩) = ⟨9, 0⟩ := rfl

end

/-- Over the reals: along any differentiable curve of inputs, the program run on the curve's point and
velocity yields the point and the velocity of the result. -/
theorem C39_real {ι : Type} (p : Prog ι ℝ) (γ γ' : ι → ℝ → ℝ) (t : ℝ)
    (hγ : ∀ i, HasDerivAt (γ i) (γ' i t) t) :
    (p.runDual fun i => ⟨γ i t, γ' i t⟩).value = p.run id (fun i => γ i t) ∧
    HasDerivAt (fun s => p.run id fun i => γ i s) (p.runDual fun i => ⟨γ i t, γ' i t⟩).adjoint t := by
  induction p with
  | input i => exact ⟨rfl, hγ i⟩
  | const v => exact ⟨rfl, hasDerivAt_const ..⟩
  | neg p ih => exact ⟨congrArg _ ih.1, ih.2.neg⟩
  | add p q ihp ihq | addRef p q ihp ihq => exact ⟨congrArg₂ _ ihp.1 ihq.1, ihp.2.add ihq.2⟩
  | sub p q ihp ihq | subRef p q ihp ihq => exact ⟨congrArg₂ (· - ·) ihp.1 ihq.1, ihp.2.sub ihq.2⟩
  | addV p v ih | addRefV p v ih => exact ⟨congrArg (· + v) ih.1, ih.2.add_const v⟩
  | subV p v ih | subRefV p v ih => exact ⟨congrArg (· - v) ih.1, ih.2.sub_const v⟩
  | mul p q ihp ihq | mulRef p q ihp ihq =>
    refine ⟨congrArg₂ _ ihp.1 ihq.1, (ihp.2.mul ihq.2).congr_deriv ?_⟩
    simp only [Prog.runDual, Dual.mul, Dual.mulRef, ihp.1, ihq.1, mul_comm]

example : HasDerivAt (fun s : ℝ => s * s) (2 * 5) 5 :=
  ((C39_real (.mul (.input ()) (.input ())) (fun _ s => s) (fun _ _ => 1) 5
    fun _ => hasDerivAt_id' _).2).congr_deriv (by norm_num [Prog.runDual, Dual.mul])

/-! ## C40 -/

section
variable {F : Type}

/-- Adding or subtracting a plain value is the operation on the value lifted to a constant, for owned
and borrowed operands. -/
theorem C40_add_sub [CommRing F] (d : Dual F F) (v : F) :
    (d.addV v = d.add (Dual.constant .scalar v) ∧ d.addRefV v = d.addRef (Dual.constant .scalar v)) ∧
    (d.subV v = d.sub (Dual.constant .scalar v) ∧
      d.subRefV v = d.subRef (Dual.constant .scalar v)) := by
  rw [constant_scalar]
  simp [Dual.addV, Dual.addRefV, Dual.subV, Dual.subRefV, Dual.add, Dual.addRef, Dual.sub,
    Dual.subRef]

example : (⟨3, 4⟩ : Dual ℤ ℤ).subV 5 = ⟨-2, 4⟩ := rfl

/-- Owned and borrowed operands give the same result. -/
theorem C40_refs [CommRing F] (d e : Dual F F) (v : F) :
    (d.addRef e = d.add e ∧ d.subRef e = d.sub e ∧ d.mulRef e = d.mul e) ∧
    (d.addRefV v = d.addV v ∧ d.subRefV v = d.subV v ∧ d.mulRefV v = d.mulV v) :=
  ⟨⟨rfl, rfl, by simp only [Dual.mulRef, Dual.mul, mul_comm d.value]⟩, rfl, rfl, rfl⟩

/-- Full claim: `d * v` is `d * Dual::constant(v)`. The value is right, the adjoint only if scaling by
`v` fixes it (`C40_violation_mul` shows a case where it does not). -/
theorem C40_mul_partial [CommRing F] (d : Dual F F) (v : F) :
    (d.mulV v).value = (d.mul (Dual.constant .scalar v)).value ∧
    (d.mulV v = d.mul (Dual.constant .scalar v) ↔ d.adjoint * v = d.adjoint) ∧
    (d.mulRefV v = d.mulRef (Dual.constant .scalar v) ↔ d.adjoint * v = d.adjoint) := by
  rw [constant_scalar]
  simp [Dual.mulV, Dual.mulRefV, Dual.mul, Dual.mulRef, eq_comm]

/-- In a ring without zero divisors the product is right only for constants and for `v = 1`. -/
theorem C40_mul_only [CommRing F] [IsDomain F] (d : Dual F F) (v : F) :
    d.mulV v = d.mul (Dual.constant .scalar v) ↔ d.adjoint = 0 ∨ v = 1 := by
  rw [(C40_mul_partial d v).2.1, mul_right_eq_self₀, or_comm]

/-- `3 x` at `x = 5` reports derivative 1. -/
theorem C40_violation_mul :
    (Dual.variable' .scalar (5 : ℤ)).mulV 3 = ⟨15, 1⟩ ∧
    (Dual.variable' .scalar (5 : ℤ)).mul (Dual.constant .scalar 3) = ⟨15, 3⟩ := ⟨rfl, rfl⟩

end

end Aegir
