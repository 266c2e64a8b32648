import Verif.Spec.Tensor
/-!
# Algebraic laws

The equations between expressions that hold in every commutative ring, closed under replacing operands. Laws
of sums and contractions need operands of the same extents, which the tensors `ρ` of the variables determine.
-/

namespace Aegir.Spec

variable {F : Type} [CommRing F] [Div F] [ScalarFns F]

/-- Two ways of writing the same expression. -/
inductive Law (ρ : Id → Tensor F) : Node F → Node F → Prop
  | refl (a) : Law ρ a a
  | symm {a b} : Law ρ a b → Law ρ b a
  | trans {a b c} : Law ρ a b → Law ρ b c → Law ρ a c
  | add {a a' b b'} : Law ρ a a' → Law ρ b b' → Law ρ (.add a b) (.add a' b')
  | sub {a a' b b'} : Law ρ a a' → Law ρ b b' → Law ρ (.sub a b) (.sub a' b')
  | mul {a a' b b'} : Law ρ a a' → Law ρ b b' → Law ρ (.mul a b) (.mul a' b')
  | div {a a' b b'} : Law ρ a a' → Law ρ b b' → Law ρ (.div a b) (.div a' b')
  | power {a a' b b'} : Law ρ a a' → Law ρ b b' → Law ρ (.power a b) (.power a' b')
  | contract (k) {a a' b b'} : Law ρ a a' → Law ρ b b' → Law ρ (.contract k a b) (.contract k a' b')
  | sum {a a'} : Law ρ a a' → Law ρ (.sum a) (.sum a')
  | un (op) {a a'} : Law ρ a a' → Law ρ (.un op a) (.un op a')
  | add_comm (a b) : Law ρ (.add a b) (.add b a)
  | add_assoc (a b c) : Law ρ (.add (.add a b) c) (.add a (.add b c))
  | mul_comm (a b) : Law ρ (.mul a b) (.mul b a)
  | mul_assoc (a b c) : Law ρ (.mul (.mul a b) c) (.mul a (.mul b c))
  | add_mul (a b c) : Law ρ (.mul (.add a b) c) (.add (.mul a c) (.mul b c))
  | zero_add (a) : Law ρ (.add (.const .scalar (0 : F)) a) a
  | one_mul (a) : Law ρ (.mul (.const .scalar (1 : F)) a) a
  | sub_eq (a b) : Law ρ (.sub a b) (.add a (.un .negate b))
  | negate_negate (a) : Law ρ (.un .negate (.un .negate a)) a
  | negate_add (a b) : Law ρ (.un .negate (.add a b)) (.add (.un .negate a) (.un .negate b))
  | negate_mul (a b) : Law ρ (.un .negate (.mul a b)) (.mul (.un .negate a) b)
  | double (a) : Law ρ (.un .double a) (.add a a)
  | square (h : ∀ x : F, ScalarFns.pow x (1 + 1) = x * x) (a) : Law ρ (.un .square a) (.mul a a)
  | addOne (a) : Law ρ (.un .addOne a) (.add a (.const .scalar (1 : F)))
  | subOne (a) : Law ρ (.un .subOne a) (.sub a (.const .scalar (1 : F)))
  | oneSub (a) : Law ρ (.un .oneSub a) (.un .addOne (.un .negate a))
  | rabbit (a) : Law ρ (.un .rabbit a) (.mul a (.un .oneSub a))
  | sum_add {a b} : (den ρ a).dims = (den ρ b).dims → Law ρ (.sum (.add a b)) (.add (.sum a) (.sum b))
  | sum_mul {s a} : (den ρ s).dims = [] → Law ρ (.sum (.mul s a)) (.mul s (.sum a))
  | add_contract (k) {a b} (c) : (den ρ a).dims = (den ρ b).dims →
      Law ρ (.contract k (.add a b) c) (.add (.contract k a c) (.contract k b c))
  | contract_add (k a) {b c} : (den ρ b).dims = (den ρ c).dims →
      Law ρ (.contract k a (.add b c)) (.add (.contract k a b) (.contract k a c))
  | mul_contract (k) {s a} (b) : (den ρ s).dims = [] →
      Law ρ (.contract k (.mul s a) b) (.mul s (.contract k a b))
  | dot_comm {n a b} : (den ρ a).dims = [n] → (den ρ b).dims = [n] → Law ρ (.contract 1 a b) (.contract 1 b a)

end Aegir.Spec
