import Verif.Spec.Node
import Verif.Model.Trace
/-!
# Sizes of expressions, and the identifiers that an evaluation looks up
-/

namespace Aegir.Spec

variable {F : Type}

/-- Number of nodes. -/
def size : Node F → Nat
  | .var _ => 1
  | .varAdj _ _ => 1
  | .const _ _ => 1
  | .constSpec _ _ => 1
  | .constAdj n _ => size n + 1
  | .cached n _ => size n + 1
  | .add l r => size l + size r + 1
  | .sub l r => size l + size r + 1
  | .mul l r => size l + size r + 1
  | .div l r => size l + size r + 1
  | .power l r => size l + size r + 1
  | .contract _ l r => size l + size r + 1
  | .sum n => size n + 1
  | .un _ n => size n + 1

/-- Number of nodes on a longest path to a leaf. -/
def height : Node F → Nat
  | .var _ => 1
  | .varAdj _ _ => 1
  | .const _ _ => 1
  | .constSpec _ _ => 1
  | .constAdj n _ => height n + 1
  | .cached n _ => height n + 1
  | .add l r => max (height l) (height r) + 1
  | .sub l r => max (height l) (height r) + 1
  | .mul l r => max (height l) (height r) + 1
  | .div l r => max (height l) (height r) + 1
  | .power l r => max (height l) (height r) + 1
  | .contract _ l r => max (height l) (height r) + 1
  | .sum n => height n + 1
  | .un _ n => height n + 1

/-- The identifiers whose shapes determine the shape of the expression, from left to right; `Power`
and `Sum` are scalars whatever their operands are. -/
def shapeIds : Node F → List Id
  | .var i => [i]
  | .varAdj i t => [i, t]
  | .const _ _ => []
  | .constSpec _ _ => []
  | .constAdj n t => shapeIds n ++ [t]
  | .cached _ i => [i]
  | .add l r => shapeIds l ++ shapeIds r
  | .sub l r => shapeIds l ++ shapeIds r
  | .mul l r => shapeIds l ++ shapeIds r
  | .div l r => shapeIds l ++ shapeIds r
  | .power _ _ => []
  | .contract _ l r => shapeIds l ++ shapeIds r
  | .sum _ => []
  | .un _ n => shapeIds n

/-- The identifiers that the value of the expression depends on, one for each occurrence, from left to
right. -/
def valueIds : Node F → List Id
  | .var i => [i]
  | .varAdj i t => [i, t]
  | .const _ _ => []
  | .constSpec _ _ => []
  | .constAdj n t => shapeIds n ++ [t]
  | .cached _ i => [i]
  | .add l r => valueIds l ++ valueIds r
  | .sub l r => valueIds l ++ valueIds r
  | .mul l r => valueIds l ++ valueIds r
  | .div l r => valueIds l ++ valueIds r
  | .power l r => valueIds l ++ valueIds r
  | .contract _ l r => valueIds l ++ valueIds r
  | .sum n => valueIds n
  | .un _ n => valueIds n

/-- The identifier of an access. -/
def accId : Acc → Id
  | .read i => i
  | .readSpec i => i
  | .readShape i => i
  | .write i => i

/-- Reading accesses. -/
def IsRead : Acc → Prop
  | .write _ => False
  | _ => True

/-- `x · x · … · x` with `k + 1` factors. -/
def powers (x : Id) : Nat → Node F
  | 0 => .var x
  | k + 1 => .mul (powers x k) (.var x)

end Aegir.Spec
