import Verif.Spec.Tensor
/-!
# Scalars that stand for numbers

A program computes with scalars of one type, but means numbers of another: machine integers stand for
integers, floats with NaN for real numbers, intervals for the numbers in them. `R x a` says that the
scalar `x` may stand for the number `a`; `Sound R` says that the arithmetic of the scalars respects
this. Nothing here refers to how expressions are evaluated.
-/

namespace Aegir.Spec

variable {F G : Type}

section
variable [Zero F] [One F] [Add F] [Sub F] [Mul F] [ScalarFns F] [CommRing G]

/-- Arithmetic on scalars gives scalars that stand for the result of the same arithmetic on numbers.
A scalar found to be zero may be left out of sums and makes products zero; a multiple stands for sums
of numbers that the same scalars stand for. -/
structure Sound (R : F → G → Prop) : Prop where
  zero : R 0 0
  one : R 1 1
  add : ∀ {x y a b}, R x a → R y b → R (x + y) (a + b)
  sub : ∀ {x y a b}, R x a → R y b → R (x - y) (a - b)
  mul : ∀ {x y a b}, R x a → R y b → R (x * y) (a * b)
  isZero_zero : ScalarFns.isZero (0 : F) = true
  zero_add : ∀ {x y a b}, ScalarFns.isZero x = true → R x a → R y b → R y (a + b)
  sub_zero : ∀ {x y a b}, ScalarFns.isZero y = true → R x a → R y b → R x (a - b)
  zero_mul : ∀ {x y a b}, ScalarFns.isZero x = true → R x a → R y b → R 0 (a * b)
  times : ∀ {n k x} {a : ℕ → G}, ScalarFns.fromUsize n = some k → (∀ i < n, R x (a i)) →
    R (k * x) (∑ i ∈ Finset.range n, a i)
  times_mul : ∀ {n k x y} {a b : ℕ → G}, ScalarFns.fromUsize n = some k → (∀ i < n, R x (a i)) →
    (∀ i < n, R y (b i)) → R (k * x * y) (∑ i ∈ Finset.range n, a i * b i)

end

/-- The buffer `b` stands for the tensor `T`: the extents agree and each entry stands for that of the
tensor. -/
def StandsFor (R : F → G → Prop) {τ : BTy} (b : Buf F τ) (T : Tensor G) : Prop :=
  Buf.dims τ b = T.dims ∧ ∀ ix, InBounds T.dims ix → ∃ x, Buf.getU τ b ix = some x ∧ R x (T.val ix)

/-- A context whose values stand for those of `ρ`. -/
def CtxStandsFor (R : F → G → Prop) {Γ : Id → BTy} (ρ : Id → Tensor G) (c : Ctx F Γ) : Prop :=
  ∀ i b, c i = some b → StandsFor R b (ρ i)

/-- The same expression over scalars and over numbers: constants stand for constants, and the functions
used beyond ring arithmetic respect `R`. A power needs an explicit base (C19), and `1` for the zeroth. -/
inductive Abstracts [Zero F] [One F] [Add F] [Sub F] [Mul F] [Div F] [Neg F] [ScalarFns F]
    [Zero G] [One G] [Add G] [Sub G] [Mul G] [Div G] [Neg G] [ScalarFns G] (R : F → G → Prop) :
    Node F → Node G → Prop
  | var (i) : Abstracts R (.var i) (.var i)
  | varAdj (i t) : Abstracts R (.varAdj i t) (.varAdj i t)
  | const {τ} {b : Buf F τ} {b' : Buf G τ} : StandsFor R b (.ofBuf b') →
      Abstracts R (.const τ b) (.const τ b')
  | constSpec {τ} {s : BSpec F τ} {s' : BSpec G τ} : StandsFor R s.unwrap (.ofSpec s') →
      Abstracts R (.constSpec τ s) (.constSpec τ s')
  | constAdj {n n'} (t) : Abstracts R n n' → Abstracts R (.constAdj n t) (.constAdj n' t)
  | cached {n n'} (i) : Abstracts R n n' → Abstracts R (.cached n i) (.cached n' i)
  | add {l l' r r'} : Abstracts R l l' → Abstracts R r r' → Abstracts R (.add l r) (.add l' r')
  | sub {l l' r r'} : Abstracts R l l' → Abstracts R r r' → Abstracts R (.sub l r) (.sub l' r')
  | mul {l l' r r'} : Abstracts R l l' → Abstracts R r r' → Abstracts R (.mul l r) (.mul l' r')
  | div {l l' r r'} : (∀ {x y a b}, R x a → R y b → R (x / y) (a / b)) →
      Abstracts R l l' → Abstracts R r r' → Abstracts R (.div l r) (.div l' r')
  | power {l l' r r'} : EvalExplicit l →
      (∀ {x y a b}, R x a → R y b → R (ScalarFns.pow x y) (ScalarFns.pow a b)) →
      (∀ {x y a b}, ScalarFns.eqb y 0 = true → R x a → R y b → R 1 (ScalarFns.pow a b)) →
      Abstracts R l l' → Abstracts R r r' → Abstracts R (.power l r) (.power l' r')
  | contract {l l' r r'} (k) : Abstracts R l l' → Abstracts R r r' →
      Abstracts R (.contract k l r) (.contract k l' r')
  | sum {n n'} : Abstracts R n n' → Abstracts R (.sum n) (.sum n')
  | un {op : UnOp} {n n'} : (∀ {x a}, R x a → R (op.apply x) (op.apply a)) → Abstracts R n n' →
      Abstracts R (.un op n) (.un op n')

end Aegir.Spec
