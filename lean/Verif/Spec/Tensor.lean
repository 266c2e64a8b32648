import Verif.Spec.Node
import Verif.Spec.Zip
import Verif.Spec.Contraction
import Verif.Spec.Scalar
import Verif.Model.Eval
/-!
# Tensor semantics of expressions

The mathematical meaning of an expression: no buffers, no compression, no caches, no evaluation
order. Operands of incompatible shape have a meaningless value here; the theorems only speak about
expressions that the code evaluates.
-/

namespace Aegir.Spec

variable {F : Type}

/-- A tensor: extents and a value for each index (only the values at in-bounds indices matter). -/
structure Tensor (F : Type) where
  /-- extents of the axes -/
  dims : Dims
  /-- entry at an index -/
  val : Idx → F

/-- Same extents and same entries. -/
def Tensor.Same (S T : Tensor F) : Prop :=
  S.dims = T.dims ∧ ∀ ix, InBounds T.dims ix → S.val ix = T.val ix

/-- The buffer `b` holds the tensor `T`. -/
def IsTensor {τ : BTy} (b : Buf F τ) (T : Tensor F) : Prop :=
  Buf.dims τ b = T.dims ∧ ∀ ix, InBounds T.dims ix → Buf.getU τ b ix = some (T.val ix)

/-- Pointwise combination; a scalar is combined with every entry. -/
def Tensor.zip (f : F → F → F) (S T : Tensor F) : Tensor F :=
  { dims := if S.dims = [] then T.dims else S.dims
    val := fun ix => f (S.val (bIdx S.dims ix)) (T.val (bIdx T.dims ix)) }

/-- Entrywise image. -/
def Tensor.map (f : F → F) (T : Tensor F) : Tensor F := ⟨T.dims, fun ix => f (T.val ix)⟩

/-- Contraction of the last `k` axes of `S` with the first `k` axes of `T`. -/
def Tensor.contract [AddCommMonoid F] [Mul F] (k : Nat) (S T : Tensor F) : Tensor F :=
  let p := S.dims.length - k
  { dims := S.dims.take p ++ T.dims.drop k
    val := fun ix => sumOver (T.dims.take k) fun t =>
      S.val (ix.take p ++ t) * T.val (t ++ ix.drop p) }

/-- The tensor all of whose entries are `x`. -/
def Tensor.const (ds : Dims) (x : F) : Tensor F := ⟨ds, fun _ => x⟩

/-- The tensor held by a buffer. -/
def Tensor.ofBuf [Zero F] {τ : BTy} (b : Buf F τ) : Tensor F :=
  ⟨Buf.dims τ b, fun ix => (Buf.getU τ b ix).getD 0⟩

/-- The tensor described by a compressed buffer. -/
def Tensor.ofSpec [Zero F] {τ : BTy} : BSpec F τ → Tensor F
  | .raw b => .ofBuf b
  | .full s x => .const (Shp.dims τ s) x
  | .diagonal s x => ⟨Shp.dims τ s, fun ix => if (∀ i ∈ ix, ∀ j ∈ ix, i = j) then x else 0⟩

/-- Derivative of one variable with respect to another: the identity tensor if they are the same
identifier, else zero. -/
def Tensor.delta [Zero F] [One F] (same : Bool) (S T : Tensor F) : Tensor F :=
  { dims := S.dims ++ T.dims
    val := fun ix => if same ∧ ix.take S.dims.length = ix.drop S.dims.length then 1 else 0 }

variable [CommRing F] [Div F] [ScalarFns F]

/-- The tensor an expression denotes when variable `i` stands for `ρ i`. -/
def den (ρ : Id → Tensor F) : Node F → Tensor F
  | .var i => ρ i
  | .varAdj i t => .delta (decide (i = t)) (ρ i) (ρ t)
  | .const _ b => .ofBuf b
  | .constSpec _ s => .ofSpec s
  | .constAdj n t => .const ((den ρ n).dims ++ (ρ t).dims) 0
  | .cached n _ => den ρ n
  | .add l r => .zip (· + ·) (den ρ l) (den ρ r)
  | .sub l r => .zip (· - ·) (den ρ l) (den ρ r)
  | .mul l r => .zip (· * ·) (den ρ l) (den ρ r)
  | .div l r => .zip (· / ·) (den ρ l) (den ρ r)
  | .power l r => ⟨[], fun _ => ScalarFns.pow ((den ρ l).val []) ((den ρ r).val [])⟩
  | .contract k l r =>
      .contract (if (den ρ l).dims = [] ∧ (den ρ r).dims = [] then 0 else k) (den ρ l) (den ρ r)
  | .sum n => ⟨[], fun _ => sumOver (den ρ n).dims (den ρ n).val⟩
  | .un op n => .map op.apply (den ρ n)

/-- `ρ` describes the context `c`: it gives every stored buffer's tensor (and anything to the
identifiers without value). -/
def Describes {Γ : Id → BTy} (ρ : Id → Tensor F) (c : Ctx F Γ) : Prop :=
  ∀ i b, c i = some b → IsTensor b (ρ i)

/-- The tensors stored in a context. -/
def envOf {Γ : Id → BTy} (c : Ctx F Γ) : Id → Tensor F := fun i =>
  match c i with
  | some b => .ofBuf b
  | none => .const [] 0

/-- Every cache identifier stands for the value of its `Cached` node. -/
def NamesCaches (ρ : Id → Tensor F) (e : Node F) : Prop :=
  ∀ n i, SubExpr (.cached n i) e → (ρ i).Same (den ρ n)

/-- Every `Power` node has an explicit base, or avoids the shortcut that takes `0^y` to be `0`. -/
def PowSafe (ρ : Id → Tensor F) (e : Node F) : Prop :=
  ∀ l r, SubExpr (.power l r) e → EvalExplicit l ∨
    ((den ρ l).val [] = 0 → ScalarFns.pow 0 ((den ρ r).val []) = (0 : F))

/-- No `Sub` or `Div` of a scalar and an array of rank two or more (C11), and only square matrices
in matrix-vector and vector-matrix products (C15). -/
def FnImpl.Regular {Γ : Id → BTy} : {e : Node F} → {τ : BTy} → FnImpl Γ e τ → Prop
  | _, _, .var _ => True
  | _, _, .varAdj _ _ _ _ => True
  | _, _, .const _ _ => True
  | _, _, .constSpec _ _ => True
  | _, _, .constAdj d _ _ => FnImpl.Regular d
  | _, _, .cached _ d => FnImpl.Regular d
  | _, _, .add dl dr _ => FnImpl.Regular dl ∧ FnImpl.Regular dr
  | _, _, .sub (a := a) (b := b) dl dr _ => FnImpl.Regular dl ∧ FnImpl.Regular dr ∧
      ¬ (a = .scalar ∧ ∃ ds, b = .array ds ∧ 2 ≤ ds.length)
  | _, _, .mul dl dr _ => FnImpl.Regular dl ∧ FnImpl.Regular dr
  | _, _, .div (a := a) (b := b) dl dr _ => FnImpl.Regular dl ∧ FnImpl.Regular dr ∧
      ¬ (a = .scalar ∧ ∃ ds, b = .array ds ∧ 2 ≤ ds.length)
  | _, _, .power dl dr => FnImpl.Regular dl ∧ FnImpl.Regular dr
  | _, _, .contract (axes := k) (a := a) (b := b) dl dr _ =>
      FnImpl.Regular dl ∧ FnImpl.Regular dr ∧
        (∀ n m, k = 1 → a = .array [n, m] → b = .array [n] → n = m) ∧
        (∀ n m, k = 1 → a = .array [n] → b = .array [n, m] → n = m)
  | _, _, .sum d => FnImpl.Regular d
  | _, _, .un _ d => FnImpl.Regular d

end Aegir.Spec
