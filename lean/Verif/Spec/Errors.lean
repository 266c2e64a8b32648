import Verif.Spec.Node
import Verif.Spec.Index
import Verif.Model.Eval
/-!
# Vocabulary about evaluation errors
-/

namespace Aegir.Spec

variable {F : Type} {Γ : Id → BTy}

/-- `dl` and `dr` are the left and right operand of the binary operator `d`. -/
inductive Operands : {e l r : Node F} → {τ a b : BTy} → FnImpl Γ e τ → FnImpl Γ l a →
    FnImpl Γ r b → Prop
  | add {l r : Node F} {a b c : BTy} (dl : FnImpl Γ l a) (dr : FnImpl Γ r b) (z : ZipImpl a b c) :
      Operands (.add dl dr z) dl dr
  | sub {l r : Node F} {a b c : BTy} (dl : FnImpl Γ l a) (dr : FnImpl Γ r b) (z : ZipImpl a b c) :
      Operands (.sub dl dr z) dl dr
  | mul {l r : Node F} {a b c : BTy} (dl : FnImpl Γ l a) (dr : FnImpl Γ r b) (z : ZipImpl a b c) :
      Operands (.mul dl dr z) dl dr
  | div {l r : Node F} {a b c : BTy} (dl : FnImpl Γ l a) (dr : FnImpl Γ r b) (z : ZipImpl a b c) :
      Operands (.div dl dr z) dl dr
  | power {l r : Node F} (dl : FnImpl Γ l .scalar) (dr : FnImpl Γ r .scalar) :
      Operands (.power dl dr) dl dr
  | contract {axes : Nat} {l r : Node F} {a b c : BTy} (dl : FnImpl Γ l a) (dr : FnImpl Γ r b)
      (z : ContractImpl axes a b c) : Operands (.contract dl dr z) dl dr

/-- Following the `Left`/`Right` tags of the error of `e` leads to the subexpression `s` with the
remaining error `f`; operators with one operand add no tag. -/
inductive ErrorAt : Node F → EvalErr → Node F → EvalErr → Prop
  | here (e : Node F) (f : EvalErr) : ErrorAt e f e f
  | left {e l r s : Node F} {g f : EvalErr} (h : children e = [l, r]) (hl : ErrorAt l g s f) :
      ErrorAt e (.left g) s f
  | right {e l r s : Node F} {g f : EvalErr} (h : children e = [l, r]) (hr : ErrorAt r g s f) :
      ErrorAt e (.right g) s f
  | cached {n s : Node F} {i : Id} {g f : EvalErr} (h : ErrorAt n g s f) :
      ErrorAt (.cached n i) g s f
  | sum {n s : Node F} {g f : EvalErr} (h : ErrorAt n g s f) : ErrorAt (.sum n) g s f
  | un {n s : Node F} {op : UnOp} {g f : EvalErr} (h : ErrorAt n g s f) : ErrorAt (.un op n) g s f
  | constAdj {n s : Node F} {t : Id} {g f : EvalErr} (h : ErrorAt n g s f) :
      ErrorAt (.constAdj n t) (.left g) s f

/-- Legitimate errors of a node itself (not of its operands): an identifier that is not defined in
`c`, or incompatible shapes of the operands of an arithmetic operator. -/
inductive OwnError (c : Ctx F Γ) : Node F → EvalErr → Prop
  | var {i : Id} (h : c i = none) : OwnError c (.var i) (.undefined i)
  | varAdjValue {i t : Id} (h : c i = none) : OwnError c (.varAdj i t) (.left (.undefined i))
  | varAdjTarget {i t : Id} (h : c t = none) :
      OwnError c (.varAdj i t) (.right (.undefined t))
  | constAdjTarget {n : Node F} {t : Id} (h : c t = none) :
      OwnError c (.constAdj n t) (.right (.undefined t))
  | add {l r : Node F} {s : IncShapes} (h : ∀ ds, ¬ BCast s.left s.right ds) :
      OwnError c (.add l r) (.output s)
  | sub {l r : Node F} {s : IncShapes} (h : ∀ ds, ¬ BCast s.left s.right ds) :
      OwnError c (.sub l r) (.output s)
  | mul {l r : Node F} {s : IncShapes} (h : ∀ ds, ¬ BCast s.left s.right ds) :
      OwnError c (.mul l r) (.output s)
  | div {l r : Node F} {s : IncShapes} (h : ∀ ds, ¬ BCast s.left s.right ds) :
      OwnError c (.div l r) (.output s)

/-- Identifiers whose value or shape evaluation of `e` may look up. -/
def NeedsId (e : Node F) (i : Id) : Prop :=
  SubExpr (.var i) e ∨ (∃ t, SubExpr (.varAdj i t) e) ∨ (∃ j, SubExpr (.varAdj j i) e) ∨
    ∃ n, SubExpr (.constAdj n i) e

theorem NeedsId.child {e e' : Node F} {i : Id} (hc : e' ∈ children e) (h : NeedsId e' i) :
    NeedsId e i := by
  rcases h with h | ⟨t, h⟩ | ⟨j, h⟩ | ⟨n, h⟩
  · exact .inl (.step hc h)
  · exact .inr (.inl ⟨t, .step hc h⟩)
  · exact .inr (.inr (.inl ⟨j, .step hc h⟩))
  · exact .inr (.inr (.inr ⟨n, .step hc h⟩))

/-- All buffers have compile-time size: no `Vec` variable or constant. -/
def FixedSize (Γ : Id → BTy) (e : Node F) : Prop :=
  (∀ i, e.contains i = true → Γ i ≠ .vec) ∧ (∀ τ b, SubExpr (.const τ b) e → τ ≠ .vec) ∧
    ∀ τ s, SubExpr (.constSpec τ s) e → τ ≠ .vec

/-- All variables and constants are scalars. -/
def AllScalar (Γ : Id → BTy) (e : Node F) : Prop :=
  (∀ i, e.contains i = true → Γ i = .scalar) ∧ (∀ τ b, SubExpr (.const τ b) e → τ = .scalar) ∧
    ∀ τ s, SubExpr (.constSpec τ s) e → τ = .scalar

/-- Every matrix-vector and vector-matrix product in the derivation has at least as many rows as
columns (otherwise the code panics, see C15). -/
def FnImpl.ProductsInRange : {e : Node F} → {τ : BTy} → FnImpl Γ e τ → Prop
  | _, _, .constAdj d _ _ => FnImpl.ProductsInRange d
  | _, _, .cached _ d => FnImpl.ProductsInRange d
  | _, _, .add dl dr _ => FnImpl.ProductsInRange dl ∧ FnImpl.ProductsInRange dr
  | _, _, .sub dl dr _ => FnImpl.ProductsInRange dl ∧ FnImpl.ProductsInRange dr
  | _, _, .mul dl dr _ => FnImpl.ProductsInRange dl ∧ FnImpl.ProductsInRange dr
  | _, _, .div dl dr _ => FnImpl.ProductsInRange dl ∧ FnImpl.ProductsInRange dr
  | _, _, .power dl dr => FnImpl.ProductsInRange dl ∧ FnImpl.ProductsInRange dr
  | _, _, .contract (a := a) (b := b) (c := c) dl dr _ =>
      FnImpl.ProductsInRange dl ∧ FnImpl.ProductsInRange dr ∧
        (∀ n m, a = .array [n, m] → b = .array [n] → c = .array [m] → m ≤ n) ∧
        (∀ n m, a = .array [n] → b = .array [n, m] → c = .array [m] → m ≤ n)
  | _, _, .sum d => FnImpl.ProductsInRange d
  | _, _, .un _ d => FnImpl.ProductsInRange d
  | _, _, .var _ => True
  | _, _, .varAdj _ _ _ _ => True
  | _, _, .const _ _ => True
  | _, _, .constSpec _ _ => True

end Aegir.Spec
