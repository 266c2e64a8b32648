import Verif.Spec.Node
/-!
# Subexpressions of each form of node, for concrete examples
-/

namespace Aegir.Spec.SubExpr

variable {F : Type} {s n l r : Node F}

theorem iff_children (s e : Node F) : SubExpr s e ↔ s = e ∨ ∃ e' ∈ children e, SubExpr s e' := by
  constructor
  · rintro (_ | ⟨hc, h⟩)
    · exact .inl rfl
    · exact .inr ⟨_, hc, h⟩
  · rintro (rfl | ⟨_, hc, h⟩)
    · exact .refl _
    · exact .step hc h

@[simp] theorem var (i : Id) : SubExpr s (.var i) ↔ s = .var i := by
  rw [iff_children]; simp [children]
@[simp] theorem varAdj (i t : Id) : SubExpr s (.varAdj i t) ↔ s = .varAdj i t := by
  rw [iff_children]; simp [children]
@[simp] theorem const (τ : BTy) (b : Buf F τ) : SubExpr s (.const τ b) ↔ s = .const τ b := by
  rw [iff_children]; simp [children]
@[simp] theorem constSpec (τ : BTy) (b : BSpec F τ) :
    SubExpr s (.constSpec τ b) ↔ s = .constSpec τ b := by
  rw [iff_children]; simp [children]
@[simp] theorem constAdj (t : Id) : SubExpr s (.constAdj n t) ↔ s = .constAdj n t ∨ SubExpr s n := by
  rw [iff_children]; simp [children]
@[simp] theorem cached (i : Id) : SubExpr s (.cached n i) ↔ s = .cached n i ∨ SubExpr s n := by
  rw [iff_children]; simp [children]
@[simp] theorem sum : SubExpr s (.sum n) ↔ s = .sum n ∨ SubExpr s n := by
  rw [iff_children]; simp [children]
@[simp] theorem un (op : UnOp) : SubExpr s (.un op n) ↔ s = .un op n ∨ SubExpr s n := by
  rw [iff_children]; simp [children]
@[simp] theorem add : SubExpr s (.add l r) ↔ s = .add l r ∨ SubExpr s l ∨ SubExpr s r := by
  rw [iff_children]; simp [children]
@[simp] theorem sub : SubExpr s (.sub l r) ↔ s = .sub l r ∨ SubExpr s l ∨ SubExpr s r := by
  rw [iff_children]; simp [children]
@[simp] theorem mul : SubExpr s (.mul l r) ↔ s = .mul l r ∨ SubExpr s l ∨ SubExpr s r := by
  rw [iff_children]; simp [children]
@[simp] theorem div : SubExpr s (.div l r) ↔ s = .div l r ∨ SubExpr s l ∨ SubExpr s r := by
  rw [iff_children]; simp [children]
@[simp] theorem power : SubExpr s (.power l r) ↔ s = .power l r ∨ SubExpr s l ∨ SubExpr s r := by
  rw [iff_children]; simp [children]
@[simp] theorem contract (k : Nat) :
    SubExpr s (.contract k l r) ↔ s = .contract k l r ∨ SubExpr s l ∨ SubExpr s r := by
  rw [iff_children]; simp [children]

end Aegir.Spec.SubExpr
