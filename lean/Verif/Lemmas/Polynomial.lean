import Verif.Spec.Polynomial
import Verif.Spec.Errors
import Verif.Spec.Tensor
import Verif.Lemmas.Types
import Verif.Lemmas.AdjointSub
import Mathlib.Tactic.Ring
/-!
# Expressions as formal polynomials
-/

namespace Aegir
open Spec MvPolynomial

variable {F : Type} [CommRing F]

theorem Spec.IsPoly.subExpr {e s : Node F} {p : MvPolynomial Id F} (h : IsPoly e p) (hs : SubExpr s e) :
    ∃ q, IsPoly s q := by
  induction hs generalizing p with
  | refl => exact ⟨p, h⟩
  | @step e' e hc _ ih =>
    have : ∃ q, IsPoly e' q := by
      cases h <;> simp only [children, List.mem_cons, List.not_mem_nil, or_false] at hc <;>
        first
          | (subst hc; exact ⟨_, ‹_›⟩)
          | (rcases hc with rfl | rfl <;> exact ⟨_, ‹_›⟩)
    obtain ⟨q, hq⟩ := this
    exact ih hq

theorem Spec.IsPoly.cacheFree {e : Node F} {p : MvPolynomial Id F} (h : IsPoly e p) : CacheFree e :=
  fun n i hs => by
    obtain ⟨q, hq⟩ := IsPoly.subExpr h hs
    cases hq

theorem Spec.IsPoly.fixedSize {e : Node F} {p : MvPolynomial Id F} (h : IsPoly e p) :
    FixedSize (fun _ => .scalar) e := by
  refine ⟨fun _ _ => by simp, fun τ b hs => ?_, fun τ s hs => ?_⟩
  · obtain ⟨q, hq⟩ := IsPoly.subExpr h hs
    cases hq
    simp
  · obtain ⟨q, hq⟩ := IsPoly.subExpr h hs
    cases hq

theorem Spec.IsPoly.powSafe [Div F] [ScalarFns F] {e : Node F} {p : MvPolynomial Id F} (h : IsPoly e p)
    (ρ : Id → Tensor F) : PowSafe ρ e := fun l r hs => by
  obtain ⟨q, hq⟩ := IsPoly.subExpr h hs
  cases hq

theorem Spec.IsPoly.regular {e : Node F} {p : MvPolynomial Id F} (h : IsPoly e p) {τ : BTy}
    (d : FnImpl (fun _ => .scalar) e τ) : τ = .scalar ∧ FnImpl.Regular d := by
  induction d generalizing p with
  | var i => exact ⟨rfl, trivial⟩
  | varAdj i t k _ => exact ⟨by cases k; rfl, trivial⟩
  | const τ b => cases h; exact ⟨rfl, trivial⟩
  | constSpec | cached => cases h
  | constAdj d t k ih =>
    cases h with
    | constAdj _ h =>
      obtain ⟨rfl, hr⟩ := ih h
      exact ⟨by cases k; rfl, hr⟩
  | add dl dr z ihl ihr =>
    cases h with
    | add h1 h2 =>
      obtain ⟨rfl, hl⟩ := ihl h1
      obtain ⟨rfl, hr⟩ := ihr h2
      exact ⟨z.scalar_in, hl, hr⟩
  | mul dl dr z ihl ihr =>
    cases h with
    | mul h1 h2 =>
      obtain ⟨rfl, hl⟩ := ihl h1
      obtain ⟨rfl, hr⟩ := ihr h2
      exact ⟨z.scalar_in, hl, hr⟩
  | sub dl dr z ihl ihr =>
    cases h with
    | sub h1 h2 =>
      obtain ⟨rfl, hl⟩ := ihl h1
      obtain ⟨rfl, hr⟩ := ihr h2
      exact ⟨z.scalar_in, hl, hr, fun ⟨_, ds, hd, _⟩ => by cases hd⟩
  | div | power => cases h
  | @contract axes l r a b c dl dr z ihl ihr =>
    have : ∃ q q', IsPoly l q ∧ IsPoly r q' := by
      cases h with
      | product h1 h2 | dot h1 h2 => exact ⟨_, _, h1, h2⟩
    obtain ⟨q, q', h1, h2⟩ := this
    obtain ⟨rfl, hl⟩ := ihl h1
    obtain ⟨rfl, hr⟩ := ihr h2
    exact ⟨by cases z <;> rfl, hl, hr, ⟨fun _ _ _ hd => (by cases hd), fun _ _ _ hd => (by cases hd)⟩⟩
  | sum d ih =>
    cases h with
    | sum h => exact ⟨rfl, (ih h).2⟩
  | @un n a op d ih =>
    have : ∃ q, IsPoly n q := by
      cases h <;> exact ⟨_, ‹_›⟩
    obtain ⟨q, h⟩ := this
    exact ih h

/-- Every polynomial expression is a function on contexts of scalars. -/
theorem Spec.IsPoly.typed {e : Node F} {p : MvPolynomial Id F} (h : IsPoly e p) :
    Nonempty (FnImpl (fun _ => .scalar) e .scalar) := by
  induction h with
  | var i => exact ⟨.var i⟩
  | const a => exact ⟨.const .scalar a⟩
  | same i => exact ⟨.varAdj i i .ss (by decide)⟩
  | other => exact ⟨.varAdj _ _ .ss (by decide)⟩
  | constAdj t _ ih => exact ih.elim fun d => ⟨.constAdj d t .ss⟩
  | add _ _ ihl ihr => exact ihl.elim fun dl => ihr.elim fun dr => ⟨.add dl dr .ss⟩
  | sub _ _ ihl ihr => exact ihl.elim fun dl => ihr.elim fun dr => ⟨.sub dl dr .ss⟩
  | mul _ _ ihl ihr => exact ihl.elim fun dl => ihr.elim fun dr => ⟨.mul dl dr .ss⟩
  | product _ _ ihl ihr => exact ihl.elim fun dl => ihr.elim fun dr => ⟨.contract dl dr .ss0⟩
  | dot _ _ ihl ihr => exact ihl.elim fun dl => ihr.elim fun dr => ⟨.contract dl dr .ss1⟩
  | sum _ ih => exact ih.elim fun d => ⟨.sum d⟩
  | subOne _ ih | oneSub _ ih | addOne _ ih | double _ ih | negate _ ih | square _ ih
  | rabbit _ ih => exact ih.elim fun d => ⟨.un _ d⟩

/-- The tensor that a polynomial expression denotes is the value of the polynomial. -/
theorem Spec.IsPoly.den [Div F] [ScalarFns F] [LawfulSquare F] {e : Node F} {p : MvPolynomial Id F}
    (h : IsPoly e p) {ρ : Id → Tensor F} (hρ : ∀ i, (ρ i).dims = []) :
    (den ρ e).dims = [] ∧ (den ρ e).val [] = eval (fun i => (ρ i).val []) p := by
  induction h with
  | var i => simp [Spec.den, hρ]
  | const a => exact ⟨rfl, by simp [Spec.den, Tensor.ofBuf, Buf.getU]⟩
  | same i => simp [Spec.den, Tensor.delta, hρ]
  | other h => simp [Spec.den, Tensor.delta, hρ, h]
  | constAdj t _ ih => simp [Spec.den, Tensor.const, hρ, ih.1]
  | add _ _ ihl ihr => simp [Spec.den, Tensor.zip, ihl, ihr, bIdx]
  | sub _ _ ihl ihr => simp [Spec.den, Tensor.zip, ihl, ihr, bIdx]
  | mul _ _ ihl ihr => simp [Spec.den, Tensor.zip, ihl, ihr, bIdx]
  | product _ _ ihl ihr => simp [Spec.den, Tensor.contract, ihl, ihr, sumOver]
  | dot _ _ ihl ihr => simp [Spec.den, Tensor.contract, ihl, ihr, sumOver]
  | sum _ ih => simp [Spec.den, ih, sumOver]
  | subOne _ ih | oneSub _ ih | addOne _ ih | double _ ih | negate _ ih | rabbit _ ih =>
    simp [Spec.den, Tensor.map, UnOp.apply, ih, one_add_one_eq_two]
  | square _ ih =>
    simp [Spec.den, Tensor.map, UnOp.apply, ih, LawfulSquare.sq, pow_two]

/-- The adjoint is the formal partial derivative. -/
theorem Spec.IsPoly.adjoint {e e' : Node F} {p : MvPolynomial Id F} (h : IsPoly e p) {t : Id}
    (ha : e.adjoint t = some e') : IsPoly e' (pderiv t p) := by
  induction h generalizing e' with
  | var i =>
    cases ha
    by_cases hi : i = t
    · subst hi
      simpa using IsPoly.same i
    · rw [pderiv_X_of_ne hi]
      exact .other hi
  | const a => cases ha; rw [pderiv_C]; exact .constAdj t (.const a)
  | same i => cases ha; rw [pderiv_one]; exact .constAdj t (.same i)
  | other hi => cases ha; rw [map_zero]; exact .constAdj t (.other hi)
  | constAdj => cases ha
  | add _ _ ihl ihr =>
    simp only [Node.adjoint, Option.bind_eq_some_iff, Option.map_eq_some_iff] at ha
    obtain ⟨l', hl, r', hr, rfl⟩ := ha
    rw [map_add]
    exact .add (ihl hl) (ihr hr)
  | sub _ _ ihl ihr =>
    simp only [Node.adjoint, Option.bind_eq_some_iff, Option.map_eq_some_iff] at ha
    obtain ⟨l', hl, r', hr, rfl⟩ := ha
    rw [map_sub]
    exact .sub (ihl hl) (ihr hr)
  | mul h1 h2 ihl ihr =>
    simp only [Node.adjoint, Option.bind_eq_some_iff, Option.map_eq_some_iff] at ha
    obtain ⟨l', hl, r', hr, rfl⟩ := ha
    rw [pderiv_mul, mul_comm _ (pderiv t _)]
    exact .add (.mul (ihl hl) h2) (.mul (ihr hr) h1)
  | product h1 h2 ihl ihr =>
    simp only [Node.adjoint, Option.bind_eq_some_iff, Option.map_eq_some_iff] at ha
    obtain ⟨l', hl, r', hr, rfl⟩ := ha
    rw [pderiv_mul, add_comm]
    exact .add (.product h1 (ihr hr)) (.product (ihl hl) h2)
  | dot h1 h2 ihl ihr =>
    simp only [Node.adjoint, Option.bind_eq_some_iff, Option.map_eq_some_iff] at ha
    obtain ⟨l', hl, r', hr, rfl⟩ := ha
    rw [pderiv_mul, add_comm]
    exact .add (.dot h1 (ihr hr)) (.dot (ihl hl) h2)
  | sum _ ih => exact ih ha
  | subOne _ ih => rw [map_sub, pderiv_one, sub_zero]; exact ih ha
  | addOne _ ih => rw [map_add, pderiv_one, add_zero]; exact ih ha
  | oneSub _ ih =>
    simp only [Node.adjoint, Option.map_eq_some_iff] at ha
    obtain ⟨n', hn, rfl⟩ := ha
    rw [map_sub, pderiv_one, zero_sub]
    exact .negate (ih hn)
  | double _ ih =>
    simp only [Node.adjoint, Option.map_eq_some_iff] at ha
    obtain ⟨n', hn, rfl⟩ := ha
    rw [two_mul, map_add, ← two_mul]
    exact .double (ih hn)
  | negate _ ih =>
    simp only [Node.adjoint, Option.map_eq_some_iff] at ha
    obtain ⟨n', hn, rfl⟩ := ha
    rw [map_neg]
    exact .negate (ih hn)
  | @square n p h ih =>
    simp only [Node.adjoint, Option.map_eq_some_iff] at ha
    obtain ⟨n', hn, rfl⟩ := ha
    have : pderiv t (p ^ 2) = 2 * p * pderiv t p := by rw [pow_two, pderiv_mul]; ring
    rw [this]
    exact .mul (.double h) (ih hn)
  | @rabbit n p h ih =>
    simp only [Node.adjoint, Option.map_eq_some_iff] at ha
    obtain ⟨n', hn, rfl⟩ := ha
    have : pderiv t (p * (1 - p)) = (1 - 2 * p) * pderiv t p := by
      rw [pderiv_mul, map_sub, pderiv_one]; ring
    rw [this]
    exact .mul (.oneSub (.double h)) (ih hn)

theorem Spec.IsPoly.adjoint_exists {e : Node F} {p : MvPolynomial Id F} (h : IsPoly e p)
    (hf : ConstAdjFree e) (t : Id) : ∃ e', e.adjoint t = some e' := by
  have down : ∀ {e n : Node F}, ConstAdjFree e → n ∈ children e → ConstAdjFree n :=
    fun hf hc m s hs => hf m s (.step hc hs)
  induction h with
  | var | const | same | other => exact ⟨_, rfl⟩
  | @constAdj n p t' => exact absurd (.refl _) (hf n t')
  | add _ _ ihl ihr | sub _ _ ihl ihr | mul _ _ ihl ihr | product _ _ ihl ihr | dot _ _ ihl ihr =>
    obtain ⟨l', hl⟩ := ihl (down hf (by simp [children]))
    obtain ⟨r', hr⟩ := ihr (down hf (by simp [children]))
    simp [Node.adjoint, hl, hr]
  | sum _ ih | subOne _ ih | addOne _ ih => exact ih (down hf (by simp [children]))
  | oneSub _ ih | double _ ih | negate _ ih | square _ ih | rabbit _ ih =>
    obtain ⟨n', hn⟩ := ih (down hf (by simp [children]))
    simp [Node.adjoint, hn]

/-- Formal partial derivatives commute. -/
theorem pderiv_comm (s t : Id) (p : MvPolynomial Id F) :
    pderiv s (pderiv t p) = pderiv t (pderiv s p) := by
  induction p using MvPolynomial.induction_on with
  | C a => simp
  | add p q hp hq => simp [hp, hq]
  | mul_X p i hp =>
    classical
    simp only [pderiv_mul, map_add, hp, pderiv_X]
    by_cases h1 : t = i <;> by_cases h2 : s = i <;> simp [h1, h2]

/-- First-order expansion with remainder divisible by the square of the increment. -/
theorem eval_increment (x : Id → F) (t : Id) (h : F) (p : MvPolynomial Id F) :
    ∃ k, eval (Function.update x t (x t + h)) p = eval x p + h * eval x (pderiv t p) + h * h * k := by
  induction p using MvPolynomial.induction_on with
  | C a => exact ⟨0, by simp⟩
  | add p q hp hq =>
    obtain ⟨k, hk⟩ := hp
    obtain ⟨l, hl⟩ := hq
    exact ⟨k + l, by simp only [map_add, hk, hl]; ring⟩
  | mul_X p i hp =>
    obtain ⟨k, hk⟩ := hp
    by_cases hi : i = t
    · subst hi
      refine ⟨k * x i + eval x (pderiv i p) + h * k, ?_⟩
      simp only [map_mul, map_add, hk, pderiv_mul, pderiv_X_self, eval_X, Function.update_self, mul_one]
      ring
    · refine ⟨k * x i, ?_⟩
      simp only [map_mul, hk, pderiv_mul, pderiv_X_of_ne hi, eval_X,
        Function.update_of_ne hi, mul_zero, add_zero]
      ring

end Aegir
