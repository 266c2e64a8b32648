import Mathlib.Data.List.Basic
/-!
# Shapes and indices (`aegir/src/buffers/shapes/{mod,compiled,runtime}.rs`)

A shape is represented by its list of dimensions and an index by the list of its components:
`S0` ↦ `[]`, `S1<A>` ↦ `[A]`, `S2<A,B>` ↦ `[A,B]`, ..., `SDynamic([a,..])` ↦ `[a,..]`;
`()` ↦ `[]`, `usize` ↦ `[i]`, `[usize; k]` ↦ the list of its `k` components.
In Rust the length of an index is fixed by its type; here a wrong length is simply never
contained.
-/

namespace Aegir

/-- Indices as lists of components. (`shapes/mod.rs` L38-70: `()`, `usize`, `[usize; DIM]`) -/
abbrev Idx := List Nat

/-- Dimensions of a shape. (`shapes/compiled.rs` L5, L33, L136-167; `shapes/runtime.rs` L6) -/
abbrev Dims := List Nat

namespace Shape

/-- `Ix::is_diagonal` (`shapes/mod.rs` L52-70): `()` and `usize` are always diagonal, an array is
diagonal iff all components equal the first one; the empty array is diagonal. On lists all of
these are the same function. -/
def isDiagonal : Idx → Bool
  | [] => true
  | i :: ix => ix.all (fun j => i == j)

/-- `Shape::contains`: `S0` L13 (always true on `()`), `S1` L41, `impl_fixed!` L90-94, and
`SDynamic` (`runtime.rs` L24-26): componentwise `l < r` over the zip. The length test stands for
the Rust index type. -/
def contains (ds : Dims) (ix : Idx) : Bool :=
  ix.length == ds.length && (ix.zip ds).all (fun p => decide (p.1 < p.2))

/-- `Shape::cardinality`: `S0` L15 (1), `S1` L43, `impl_fixed!` L96-98 and `runtime.rs` L28:
`Iterator::product`, a left fold of `*` from 1. -/
def cardinality (ds : Dims) : Nat := ds.foldl (fun acc d => acc * d) 1

/-- One step of `itertools::iproduct!` (`cartesian_product` with a further range). -/
def iproductStep (acc : List Idx) (d : Nat) : List Idx :=
  acc.flatMap (fun ix => (List.range d).map (fun j => ix ++ [j]))

/-- `Shape::indices` of the fixed shapes: `S0` L17 (`once(())`), `S1` L45 (`0..A`),
`impl_fixed!` L100-102 (`iproduct!(0..A, 0..B, ..)`, which nests `cartesian_product` to the
left). -/
def indices (ds : Dims) : List Idx := ds.foldl iproductStep [[]]

/-- `Shape::DIM` (`shapes/mod.rs` L100; `compiled.rs` L11, L39, L85, `runtime.rs` L22). -/
def dim (ds : Dims) : Nat := ds.length

/-- `Shape::is_scalar` (`shapes/mod.rs` L127). -/
def isScalar (ds : Dims) : Bool := dim ds == 0

/-- `Shape::is_vector` (`shapes/mod.rs` L130). -/
def isVector (ds : Dims) : Bool := dim ds == 1

/-- `Shape::is_matrix` (`shapes/mod.rs` L133). -/
def isMatrix (ds : Dims) : Bool := dim ds == 2

/-- `Shape::is_equivalent` (`shapes/mod.rs` L136-138). -/
def isEquivalent (ds es : Dims) : Bool := cardinality ds == cardinality es

/-- Pairs of fixed shapes with a `Concat` impl (`compiled.rs` L274-338): every pair of total rank
at most 6 with both ranks at most 5. -/
def concatOkFixed (ds es : Dims) : Bool :=
  decide (ds.length ≤ 5) && decide (es.length ≤ 5) && decide (ds.length + es.length ≤ 6)

/-- `Concat::concat` (`compiled.rs` L191-338, `runtime.rs` L71-93). -/
def concat (ds es : Dims) : Dims := ds ++ es

/-- `Concat::concat_indices` (`compiled.rs` L191-338, `runtime.rs` L80-82). -/
def concatIndices (ix jx : Idx) : Idx := ix ++ jx

/-- `Split::split` (`compiled.rs` L171-178 for `S2`, L180-189 for `S4`); `none` where there is no
impl. -/
def split : Dims → Option (Dims × Dims)
  | [a, b] => some ([a], [b])
  | [a, b, c, d] => some ([a, b], [c, d])
  | _ => none

/-- `Split::split_index` (`compiled.rs` L177, L186-188). -/
def splitIndex : Idx → Option (Idx × Idx)
  | [a, b] => some ([a], [b])
  | [a, b, c, d] => some ([a, b], [c, d])
  | _ => none

end Shape

/-- `IncompatibleShapes` (`shapes/mod.rs` L7-13). -/
structure IncShapes where
  left : Dims
  right : Dims
deriving DecidableEq, Repr

/-- `IncompatibleShapes::reverse` (`shapes/mod.rs` L17-22). -/
def IncShapes.reverse (e : IncShapes) : IncShapes := ⟨e.right, e.left⟩

/-- A shape value together with its kind, for stating `Broadcast`:
fixed shapes carry their dimensions in the type, `SDynamic` at run time. -/
inductive ShapeV where
  /-- `S0`, `S1<..>`, .., `S6<..>` -/
  | fixed (ds : Dims)
  /-- `SDynamic(ds)` -/
  | dyn (ds : Dims)
deriving DecidableEq, Repr

/-- The dimensions carried by a shape value. -/
def ShapeV.dims : ShapeV → Dims
  | .fixed ds => ds
  | .dyn ds => ds

/-- `Broadcast::broadcast` for all impls: `compiled.rs` L20-25, L48-67, L105-124 and
`runtime.rs` L33-63. `none` when no impl exists for the pair of types (does not compile).
The impl for two `SDynamic` requires equal `DIM` (same type). -/
def broadcast : ShapeV → ShapeV → Option (Except IncShapes ShapeV)
  | .fixed [], .fixed [] => some (.ok (.fixed []))
  | .fixed [], .fixed (e :: es) => some (.ok (.fixed (e :: es)))
  | .fixed (d :: ds), .fixed [] => some (.ok (.fixed (d :: ds)))
  | .fixed (d :: ds), .fixed (e :: es) =>
      if d :: ds = e :: es then some (.ok (.fixed (d :: ds))) else none
  | .dyn ds, .fixed [] => some (.ok (.dyn ds))
  | .fixed [], .dyn es => some (.ok (.dyn es))
  | .dyn ds, .dyn es =>
      if ds.length = es.length then
        if ds = es then some (.ok (.dyn ds)) else some (.error ⟨ds, es⟩)
      else none
  | .dyn _, .fixed (_ :: _) => none
  | .fixed (_ :: _), .dyn _ => none

end Aegir
