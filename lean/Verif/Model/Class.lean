import Verif.Model.Eval
/-!
# Storage classes and the types of adjoints

`Precedence` and the trait bounds that pick the buffer type of `VariableAdjoint` and
`ConstantAdjoint`. Type-level computations, written as functions.
-/

namespace Aegir

/-- The storage classes (`buffers/scalars.rs` L12, `arrays/mod.rs` L11, `tuples.rs` L12,
`vecs.rs` L15). -/
inductive BClass where
  | scalars | arrays | tuples | vecs
deriving DecidableEq, Repr

/-- `Precedence<C1, C2>::Class` (`meta/mod.rs` L21-39). -/
def precedence : BClass → BClass → BClass
  | .scalars, .scalars => .scalars
  | .scalars, .arrays => .arrays
  | .scalars, .tuples => .tuples
  | .scalars, .vecs => .vecs
  | .arrays, .scalars => .arrays
  | .arrays, .arrays => .arrays
  | .arrays, .tuples => .arrays
  | .arrays, .vecs => .arrays
  | .tuples, .scalars => .tuples
  | .tuples, .arrays => .arrays
  | .tuples, .tuples => .tuples
  | .tuples, .vecs => .vecs
  | .vecs, .scalars => .vecs
  | .vecs, .arrays => .vecs
  | .vecs, .tuples => .vecs
  | .vecs, .vecs => .vecs

/-- Shape types: `S0` .. `S6` with their extents, and `SDynamic<DIM>` (`shapes/compiled.rs` L5, L33,
L136-160, `shapes/runtime.rs` L6). -/
inductive ShTy where
  | fixed (ds : Dims)
  | dynamic (dim : Nat)
deriving DecidableEq, Repr

/-- `Buffer::Class` (`buffers/scalars.rs` L50, `arrays/buffer.rs` L48, `tuples.rs` L48,
`vecs.rs` L49). -/
def BTy.cls : BTy → BClass
  | .scalar => .scalars
  | .array _ => .arrays
  | .tuple => .tuples
  | .vec => .vecs

/-- `Shaped::Shape` of a buffer type (`buffers/scalars.rs` L44, `arrays/buffer.rs` L42,
`tuples.rs` L42, `vecs.rs` L43). -/
def BTy.shTy : BTy → ShTy
  | .scalar => .fixed []
  | .array ds => .fixed ds
  | .tuple => .fixed [2]
  | .vec => .dynamic 1

/-- `Concat::Shape` where there is an impl (`shapes/compiled.rs` L275-338, `shapes/runtime.rs`
L71-92). -/
def ShTy.concat : ShTy → ShTy → Option ShTy
  | .fixed ds, .fixed es =>
      if ds.length ≤ 5 ∧ es.length ≤ 5 ∧ ds.length + es.length ≤ 6 then some (.fixed (ds ++ es))
      else none
  | .dynamic n, .dynamic m => if n ≤ 6 ∧ m ≤ 6 then some (.dynamic (n + m)) else none
  | _, _ => none

/-- `Class<S>::Buffer` where there is an impl (`buffers/scalars.rs` L14, `arrays/buffer.rs` L18 for
the shapes at L73-189, `tuples.rs` L14, `vecs.rs` L17). -/
def BClass.buffer : BClass → ShTy → Option BTy
  | .scalars, .fixed [] => some .scalar
  | .arrays, .fixed ds => if 1 ≤ ds.length ∧ ds.length ≤ 5 then some (.array ds) else none
  | .tuples, .fixed [2] => some .tuple
  | .vecs, .dynamic 1 => some .vec
  | _, _ => none

/-- `<CA as Class<SA>>::Buffer<F>` with `SA` the concatenated shape and `CA` the class of higher
precedence (`meta/variable.rs` L143-160, `meta/constant.rs` L142-166). -/
def concatTy (a b : BTy) : Option BTy :=
  (a.shTy.concat b.shTy).bind fun s => (precedence a.cls b.cls).buffer s

end Aegir
