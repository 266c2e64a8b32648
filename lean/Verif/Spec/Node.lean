import Verif.Model.Node
/-!
# Vocabulary about expression trees
-/

namespace Aegir.Spec

variable {F : Type}

/-- Immediate subexpressions. -/
def children : Node F → List (Node F)
  | .var _ | .varAdj _ _ | .const _ _ | .constSpec _ _ => []
  | .constAdj n _ | .cached n _ | .sum n | .un _ n => [n]
  | .add l r | .sub l r | .mul l r | .div l r | .power l r | .contract _ l r => [l, r]

/-- `s` is a subexpression of `e` (possibly `e` itself). -/
inductive SubExpr : Node F → Node F → Prop
  | refl (e) : SubExpr e e
  | step {s e' e} : e' ∈ children e → SubExpr s e' → SubExpr s e

theorem SubExpr.trans {s e f : Node F} (h : SubExpr s e) (h' : SubExpr e f) : SubExpr s f := by
  induction h' with
  | refl => exact h
  | step hc _ ih => exact .step hc ih

/-- No `Cached` node in `e`. -/
def CacheFree (e : Node F) : Prop := ∀ n i, ¬ SubExpr (.cached n i) e

/-- No `Sum` node in `e`. -/
def SumFree (e : Node F) : Prop := ∀ n, ¬ SubExpr (.sum n) e

/-- `i` is the cache identifier of a `Cached` node in `e`. -/
def CacheId (e : Node F) (i : Id) : Prop := ∃ n, SubExpr (.cached n i) e

/-- `Sum` and `Power` nodes (whose `evaluate_shape` evaluates nothing) contain no `Cached` node. -/
def ShapeSafe (e : Node F) : Prop :=
  (∀ n, SubExpr (.sum n) e → CacheFree n) ∧ (∀ l r, SubExpr (.power l r) e → CacheFree (.power l r))

/-- `e`, evaluated with `Cached` nodes, has an explicit buffer rather than a compressed one. -/
def EvalExplicit : Node F → Prop
  | .var _ | .const _ _ | .div _ _ | .cached _ _ => True
  | .un _ n | .sum n => EvalExplicit n
  | .add l r | .sub l r => EvalExplicit l ∨ EvalExplicit r
  | .mul l r | .power l r => EvalExplicit l ∧ EvalExplicit r
  | .varAdj _ _ | .constSpec _ _ | .constAdj _ _ | .contract _ _ _ => False

/-- A property of all subexpressions passes to the children. -/
theorem forall_child {p : Node F → Prop} {e e' : Node F} (h : ∀ s, SubExpr s e → p s)
    (hc : e' ∈ children e) : ∀ s, SubExpr s e' → p s := fun s hs => h s (.step hc hs)

theorem CacheFree.child {e e' : Node F} (h : CacheFree e) (hc : e' ∈ children e) : CacheFree e' :=
  fun n i hs => h n i (.step hc hs)

theorem SumFree.child {e e' : Node F} (h : SumFree e) (hc : e' ∈ children e) : SumFree e' :=
  fun n hs => h n (.step hc hs)

theorem ShapeSafe.child {e e' : Node F} (h : ShapeSafe e) (hc : e' ∈ children e) : ShapeSafe e' :=
  ⟨fun n hs => h.1 n (.step hc hs), fun l r hs => h.2 l r (.step hc hs)⟩

theorem CacheId.child {e e' : Node F} {i : Id} (hc : e' ∈ children e) (h : CacheId e' i) :
    CacheId e i := h.imp fun _ hs => .step hc hs

end Aegir.Spec
