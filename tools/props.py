import json
P=[]
def p(title, statement, quantifier, why, anchors):
    P.append(dict(id="C%02d"%(len(P)+1), title=title, statement=statement, quantifier=quantifier, why_tests_cant=why, anchors=anchors))

p("Fixed-shape index enumeration is exact",
  "For every compile-time shape S0..S6, `indices()` yields exactly the indices accepted by `contains`, each once, in row-major (lexicographic) order, and `cardinality()` is the number of indices yielded.",
  "every fixed shape (any rank, any dimensions) and every index",
  "the dimensions are arbitrary naturals; a test fixes a handful of them",
  ["aegir/src/buffers/shapes/compiled.rs: S0, S1, impl_fixed! (contains, cardinality, indices)"])
p("Runtime-shape index iterator is exact",
  "For every SDynamic<DIM> with DIM >= 1, repeatedly calling `next()` on a fresh `indices()` iterator yields exactly the indices accepted by `contains`, each once, in lexicographic order, and then None; the number yielded equals `cardinality()`. (For DIM = 0 this must also hold for the property to be complete: one empty index.)",
  "every runtime shape, every number of next() calls (every execution of the iterator state machine)",
  "the iterator is a mutable state machine with nested resets; tests enumerate only small products",
  ["aegir/src/buffers/shapes/multi_product.rs: MultiProduct::next, iterate_last", "aegir/src/buffers/shapes/runtime.rs: SDynamic"])
p("Iterator count and size_hint match what remains",
  "At every point of an iteration over a runtime shape, `count()` equals the number of items that `next()` would still yield before None, and `size_hint()` brackets that number: lower <= remaining, and remaining <= upper whenever an upper bound is given, including when usize arithmetic saturates or overflows.",
  "every runtime shape and every reachable iterator state",
  "intermediate states of the nested iterator and overflow boundaries (products above usize::MAX) cannot be enumerated",
  ["aegir/src/buffers/shapes/multi_product.rs: count, size_hint, size_hint_add, size_hint_mul"])
p("Exhausted runtime index iterator stays exhausted",
  "Once `next()` has returned None on a runtime-shape index iterator, every later `next()` returns None as well (a consumer that polls again, e.g. chain/zip style adaptors, sees no new items).",
  "every runtime shape and every number of further polls after exhaustion",
  "the behaviour after exhaustion depends on the left-over state for every shape",
  ["aegir/src/buffers/shapes/multi_product.rs: MultiProduct::next, iterate_last"])
p("Shape concatenation and splitting are inverse and index-faithful",
  "For any two concatenable shapes, `contains` of the concatenated shape on `concat_indices(i, j)` holds iff both parts contain their index; cardinality multiplies; the indices of the concatenation are exactly the row-major pairs; `split` undoes `concat` and `split_index` undoes `concat_indices`.",
  "all shape pairs with a Concat/Split impl and all index pairs",
  "pairs of shapes and indices are unbounded",
  ["aegir/src/buffers/shapes/compiled.rs: impl_concat!, impl Split for S2/S4", "aegir/src/buffers/shapes/runtime.rs: impl_concat!"])
p("Broadcasting is lawful",
  "Broadcasting with the scalar shape returns the other shape on either side; broadcasting a shape with itself returns it; two runtime shapes broadcast iff they are equal, otherwise the error carries (left,right) in call order; swapping the operands gives the same shape, or the reversed error (`reverse` is an involution).",
  "all pairs of shapes with a Broadcast impl",
  "the shape space is unbounded",
  ["aegir/src/buffers/shapes/mod.rs: Broadcast, IncompatibleShapes::reverse", "aegir/src/buffers/shapes/compiled.rs", "aegir/src/buffers/shapes/runtime.rs: Broadcast impls"])
p("build/get round trip",
  "For every buffer class, `build(shape, f)` has the requested shape; `get(ix)` is Some(f(ix)) iff the shape contains ix and None otherwise; `get` never panics; and two buffers of the same type that agree on every contained index are equal. `full`, `zeroes`, `ones`, `diagonal`, `identity` are the corresponding special cases.",
  "all classes (scalar, tuple, Vec, nested arrays of every rank), all shapes, all element functions, all indices; any element type",
  "quantifies over all functions and indices",
  ["aegir/src/buffers/mod.rs: Class, Buffer::get", "aegir/src/buffers/{scalars,tuples,vecs}.rs", "aegir/src/buffers/arrays/buffer.rs"])
p("build_subset writes exactly the subset",
  "`build_subset(shape, base, subset, active)` yields `active(ix)` at every index in the subset and `base` everywhere else, whenever all subset indices are inside the shape; an out-of-range subset index panics for arrays and Vec (never corrupts another cell).",
  "all shapes, all index lists (with repetitions, any order), all element functions",
  "index lists are unbounded and order dependent",
  ["aegir/src/buffers/mod.rs: Class::build_subset", "aegir/src/buffers/arrays/buffer.rs", "aegir/src/buffers/vecs.rs", "aegir/src/buffers/scalars.rs", "aegir/src/buffers/tuples.rs"])
p("map, map_ref and mutate agree",
  "`map(f)`, `map_ref(f)` and `mutate(f)` all produce the buffer whose element at every index is f of the original element, with unchanged shape; map is functorial (identity and composition).",
  "all buffers of all classes and ranks, all functions; any element type",
  "quantifies over all functions and buffers; in-place and by-value loops are different code",
  ["aegir/src/buffers/mod.rs: Buffer::{map,map_ref,mutate}", "aegir/src/buffers/arrays/buffer.rs: impl_buffer!"])
p("fold visits every element once in row-major order",
  "`fold(init, f)` equals the left fold of f over the elements taken in the order of `shape().indices()`; `sum()` is that fold with addition from zero.",
  "all buffers of all classes and ranks, all accumulators",
  "order and coverage of nested loops over arbitrary dimensions",
  ["aegir/src/buffers/mod.rs: Buffer::{fold,sum}", "aegir/src/buffers/arrays/buffer.rs: fold"])
p("Zipping is pointwise with operands in order",
  "Whenever `l.zip_map(r, f)` succeeds its element at ix is f(l[ix], r[ix]) with a scalar operand broadcast to every index, left operand first; it fails iff the shapes are incompatible.",
  "all pairs of buffers with a ZipMap impl (scalar/Vec/tuple/array of every rank, scalar on either side), all binary functions (in particular non-commutative ones)",
  "non-commutative f and arbitrary ranks; the unit tests only zip equal-rank arrays",
  ["aegir/src/buffers/mod.rs: ZipMap", "aegir/src/buffers/arrays/zip_ops.rs: impl_map!", "aegir/src/buffers/vecs.rs", "aegir/src/buffers/tuples.rs", "aegir/src/buffers/scalars.rs"])
p("In-place, by-value and folding zips agree",
  "`zip_map_id(r,f)` and `zip_mut(r,f)` give the same buffer (or the same error) as `zip_map(r,f)`; `zip_fold` is the left fold over index order of the paired elements; `zip_shape` succeeds exactly when `zip_map` does and preserves the left operand's values up to broadcasting.",
  "all zip-compatible buffer pairs and functions",
  "three separately written loop nests per rank must agree for all sizes",
  ["aegir/src/buffers/mod.rs: ZipMap::{zip_map_id, zip_shape}, ZipMut, ZipFold", "aegir/src/buffers/arrays/zip_ops.rs"])
p("Spec is a faithful compressed buffer",
  "`Spec::map(f)` followed by `unwrap` equals `unwrap` followed by `map(f)` (for diagonal specs too); `Spec::zip_map` followed by `unwrap` equals `zip_map` on the unwrapped buffers; `shape()` of a Spec is the shape of its unwrapped buffer.",
  "all Specs (Raw, Full, Diagonal) over all buffer types and functions",
  "quantifies over all functions, including those that do not preserve zero",
  ["aegir/src/buffers/spec.rs: Spec::{shape,unwrap,map,zip_map}"])
p("Contraction shortcuts do not change results",
  "For every contraction impl, `contract_spec` on compressed operands, unwrapped, equals the dense `contract` of the unwrapped operands whenever the latter returns; in commutative-semiring arithmetic.",
  "all operand pairs, all Spec variants on either side, all dimensions, all commutative semirings",
  "the product of Spec variants, dimensions and values is unbounded",
  ["aegir/src/buffers/arrays/contraction_ops.rs: contract_spec impls"])
p("Contraction computes the tensor contraction",
  "`contract` over 0 axes is the outer product and over 1 axis is the sum over the shared axis (dot, matrix-vector, vector-matrix, matrix-matrix): out[i..,j..] = sum_k l[i..,k] r[k,j..], for every accepted pair of operand types, without panicking.",
  "all accepted operand types and dimensions, in particular non-square matrices",
  "loop bounds must be right for every pair of dimensions; tests use square ones",
  ["aegir/src/buffers/arrays/contraction_ops.rs: Contract impls"])
p("contract_shape predicts the contraction's shape",
  "`contract_shape(ls, rs)` succeeds exactly for the types accepted by contract and returns the shape of the contraction result.",
  "all operand pairs with a Contract impl",
  "all dimensions",
  ["aegir/src/buffers/arrays/contraction_ops.rs: contract_shape impls", "aegir/src/ops/linalg/mod.rs: Contract"])
p("evaluate and evaluate_spec agree",
  "For every function and context, `evaluate` equals `evaluate_spec` followed by `unwrap` (value, error or panic, and the context left behind), in commutative-ring arithmetic.",
  "all expressions, all contexts",
  "expression trees are unbounded and each operator has hand-written shortcut arms",
  ["aegir/src/lib.rs: Function", "aegir/src/ops/mod.rs: impl_unary!", "aegir/src/ops/arithmetic/*.rs", "aegir/src/ops/linalg/mod.rs", "aegir/src/meta/*.rs"])
p("evaluate_shape predicts the shape of evaluate",
  "Whenever `evaluate` succeeds, `evaluate_shape` in the same context succeeds and returns the shape of the value.",
  "all expressions, all contexts",
  "unbounded expression trees with shortcuts in evaluate_shape",
  ["aegir/src/lib.rs: Function::evaluate_shape and all its impls"])
p("evaluate computes the mathematical tensor value",
  "Whenever `evaluate` returns a value it is the value of the standard tensor semantics of the expression (pointwise arithmetic with scalar broadcasting, contraction as sum over the shared axis, sum over all entries) at the context's variable values; no Spec shortcut may change it.",
  "all well-typed expressions, all contexts, all scalar types obeying commutative ring laws",
  "the set of expressions is infinite and shortcuts compose",
  ["aegir/src/ops/**", "aegir/src/meta/**", "aegir/src/buffers/**"])
p("Errors are attributed to the right operand",
  "A binary operator whose left operand fails reports Left(error) whatever the right operand does; if only the right fails it reports Right(error); a missing variable is reported as Undefined with its identifier; unary operators pass errors through; evaluate, evaluate_spec and evaluate_shape of a variable agree on this.",
  "all expressions and contexts",
  "all combinations of failing sub-expressions at any depth",
  ["aegir/src/errors.rs: BinaryError", "aegir/src/ops/**: evaluate_spec", "aegir/src/meta/variable.rs", "aegir/src/meta/mod.rs: SourceError"])
p("Defined inputs evaluate successfully",
  "If every identifier the expression reads is defined in the context and all operand types are fixed-size, `evaluate` returns Ok: no error and no panic.",
  "all well-typed expressions over scalars, tuples and fixed-size arrays; all contexts",
  "absence of panics must hold on every tree and every value",
  ["aegir/src/ops/**", "aegir/src/buffers/arrays/contraction_ops.rs"])
p("Shape mismatches are reported, not panicked",
  "Combining runtime-sized (Vec) operands of different lengths with add/sub/mul/div returns the Output(IncompatibleShapes) error from evaluate, evaluate_spec and evaluate_shape; it never panics.",
  "all Vec operands with different lengths",
  "all length pairs and nesting positions",
  ["aegir/src/ops/arithmetic/binary.rs: Add, Sub, Mul, Div"])
p("Evaluation only writes caches",
  "Evaluating (value, spec or shape) leaves every context entry unchanged except identifiers that occur as the cache identifier of a Cached node inside the expression; an entry that was already defined is never overwritten; without Cached nodes the context is unchanged.",
  "all expressions, all contexts, whether evaluation succeeds or fails",
  "frame condition over all contexts",
  ["aegir/src/meta/cached.rs: Cached::evaluate", "aegir/src/lib.rs: Read, Write"])
p("Evaluation depends only on contained identifiers",
  "If two contexts agree on every identifier for which `contains` is true, evaluating the expression in either gives the same outcome.",
  "all expressions, all pairs of contexts",
  "two-run (non-interference) property over all contexts",
  ["aegir/src/lib.rs: Contains", "aegir_derive/src/ops.rs: expand_contains", "aegir/src/meta/*.rs: contains"])
p("contains is exactly occurrence, and differentiation does not lose or invent identifiers",
  "`contains(x)` is true iff x occurs in the expression; the adjoint w.r.t. t contains x only if the expression does or x = t, and contains t always.",
  "all expressions and identifiers",
  "all trees; adjoint construction duplicates sub-trees",
  ["aegir/src/lib.rs: Contains", "aegir_derive/src/ops.rs", "all `adjoint` methods"])
p("Caching is transparent when the cache is coherent",
  "If every cache entry is either empty or holds the value its Cached node would compute, evaluating with the Cached nodes gives the same result as evaluating the expression with all Cached wrappers removed, and leaves the cache coherent; this persists along any sequence of evaluations.",
  "all expressions, all coherent contexts, all histories of evaluations",
  "invariant over unbounded evaluation histories",
  ["aegir/src/meta/cached.rs"])
p("Cached memoises: first value wins",
  "After a Cached node has evaluated successfully, every later evaluation of it returns that same value without evaluating the inner node, whatever happens to the inner node's inputs, until its cache entry is written; a failing inner node writes nothing to its entry; re-evaluating any expression in the context it left behind returns the same value and changes nothing.",
  "all expressions, contexts and histories of writes and evaluations",
  "quantifies over histories of context updates",
  ["aegir/src/meta/cached.rs: Cached::evaluate"])
p("Scalar adjoints are derivatives",
  "For every scalar expression that is differentiable w.r.t. t, evaluating `adjoint(t)` returns the derivative of the expression's value as a function of t at the context, wherever the operators are differentiable (nonzero denominators and log arguments, positive power bases, nonzero abs/sign arguments, ...).",
  "all scalar expressions, all real contexts meeting the side conditions",
  "numerical tests sample points with tolerance; the claim is an exact identity for all expressions and points",
  ["all `Differentiable::adjoint` impls", "aegir/src/lib.rs: Differentiable::evaluate_adjoint"])
p("Gradients w.r.t. array parameters are gradients",
  "For a scalar-valued expression over dot products of affine vector expressions (e.g. linear/logistic regression losses), evaluating the adjoint w.r.t. a vector parameter returns the vector of partial derivatives.",
  "all such expressions, all dimensions, all real contexts",
  "all expressions, dimensions and points",
  ["aegir/src/ops/linalg/mod.rs: Contract::adjoint", "aegir/src/meta/variable.rs: VariableAdjoint", "aegir/src/buffers/arrays/contraction_ops.rs", "aegir/examples/linear.rs", "aegir/examples/logistic.rs"])
p("Tensor-valued adjoints w.r.t. a scalar are entrywise derivatives",
  "For tensor-valued expressions and a scalar target, evaluating the adjoint returns the tensor of entrywise derivatives, with the shape of the value.",
  "all tensor expressions, all dimensions, all real contexts",
  "all expressions and shapes",
  ["all `Differentiable::adjoint` impls"])
p("The adjoint of Sum is the derivative of the sum",
  "Evaluating the adjoint of `sum(x)` w.r.t. t returns the derivative of the scalar sum: it has the target's shape and entries sum_i d x_i / d t_j.",
  "all expressions under Sum, all shapes",
  "all expressions and shapes",
  ["aegir/src/ops/arithmetic/unary.rs: Sum::adjoint"])
p("Tensor product adjoint has value-then-target axis order",
  "The adjoint of the tensor product l (x) r w.r.t. t has entry [i.., j.., k..] = d(l_i r_j)/d t_k.",
  "all operands and shapes accepted by TensorProduct whose adjoint type-checks",
  "needs non-symmetric Jacobians",
  ["aegir/src/ops/linalg/mod.rs: Contract::adjoint", "TensorProduct"])
p("Adjoint w.r.t. an absent identifier is zero",
  "If the expression does not contain t then evaluating adjoint(t) yields zero in every entry (where it evaluates and divisions are by nonzero values).",
  "all expressions, contexts, targets",
  "all trees",
  ["aegir/src/meta/variable.rs", "aegir/src/meta/constant.rs", "all adjoint impls"])
p("Variable adjoints are identity or zero tensors",
  "The adjoint of variable x w.r.t. x evaluates to the identity tensor of shape shape(x)++shape(x): entry [i.., j..] is 1 iff i.. = j..; w.r.t. a different identifier it is zero of shape shape(x)++shape(t); an undefined x is Left, an undefined t is Right; evaluate_shape agrees.",
  "all variables of every supported type and rank, all contexts",
  "all ranks and dimensions, two code paths (diagonal vs. build_subset)",
  ["aegir/src/meta/variable.rs: VariableAdjoint", "aegir/src/meta/constant.rs: ConstantAdjoint"])
p("evaluate_dual pairs value and adjoint",
  "`evaluate_dual(t)` succeeds iff both evaluate and evaluate_adjoint do and returns exactly that pair; a value failure is Left and pre-empts the adjoint, an adjoint failure is Right.",
  "all expressions, contexts, targets",
  "all combinations of failures with a mutated context in between",
  ["aegir/src/lib.rs: Differentiable::{evaluate_adjoint, evaluate_dual}"])
p("Differentiation is repeatable",
  "The result of `adjoint` can be differentiated again (README: \"infinitely differentiable\"): the second adjoint exists and evaluates to the second derivative, and so on for every order.",
  "all differentiable expressions, all orders",
  "all orders and trees",
  ["aegir/src/meta/variable.rs: VariableAdjoint Differentiable", "aegir/src/meta/constant.rs: ConstantAdjoint", "README.md"])
p("Symbolic simplification in to_expr is sound",
  "If `to_expr` of a scalar expression is the symbolic constant Zero (One), then the expression evaluates to 0 (1) in every context.",
  "all scalar expressions, all real contexts",
  "all trees; the rewrite rules are per-operator tables",
  ["aegir/src/fmt.rs: Expr, ToExpr", "all `to_expr` impls"])
p("Rendered text identifies the expression",
  "Two expressions that render to the same text denote the same function (parentheses are inserted where needed; distinct operators render differently); zero renders as a non-empty text.",
  "all pairs of expressions",
  "pairs of trees",
  ["aegir/src/fmt.rs: PreWrap, Expr Display", "all `to_expr` impls"])
p("Dual arithmetic is forward-mode differentiation",
  "Add, Sub, Neg and Mul on Dual numbers carry the derivative: evaluating any expression built from them at Dual::variable(x) gives (p(x), p'(x)), and at constants gives zero adjoint; conj is an involution.",
  "all expressions over the Dual operators, all inputs",
  "all compositions of operators",
  ["aegir/src/dual.rs"])
p("Mixed Dual/plain arithmetic equals lifting the plain operand",
  "dual + v, dual - v and dual * v equal the operation with v lifted to Dual::constant(v).",
  "all duals and plain values",
  "all values",
  ["aegir/src/dual.rs: Add<V>, Sub<V>, Mul<V> for Dual"])
p("aegir! preserves the meaning of the arithmetic expression",
  "The node produced by aegir! for an arithmetic source expression denotes that expression: +,-,*,^ become add, sub, mul, power, a literal square becomes Square which equals Power with exponent 2, other forms are left in place; the expansion fails exactly on unsupported operators.",
  "all source expressions",
  "unbounded syntax trees",
  ["aegir_compile/src/lib.rs: aegir! (Mutator)"])
p("Derived contexts are lawful stores",
  "For a derived context: read after write of the same identifier returns the written value; write to one identifier does not change reads of others; plain fields always read Some; cache fields read None until written; read, read_spec and read_shape agree.",
  "all contexts, all sequences of reads and writes",
  "histories of operations",
  ["aegir_derive/src/ctx/derive.rs: emit_read_fns, emit_write_fns, ctx_struct_impl", "aegir/src/lib.rs: Read, Write"])
p("Context field attributes are validated",
  "A context struct field is accepted iff it is named, its attributes parse, it has at most one #[id] and, if it is #[cache], exactly one #[id] and an Option<..> type; each rejection is the documented error with the documented priority; attribute order among ids and caches does not matter; fields without #[id] get no accessor.",
  "all attribute lists and field types",
  "all attribute sequences",
  ["aegir_derive/src/ctx/derive.rs: parse_field, parse_ty_cache, parse_id_attr", "aegir_derive/src/ctx/ctx_type.rs"])
p("Identifiers are distinguished",
  "Identifiers from `ids!` compare equal iff they are the same identifier and display their declared symbol (or their own name when no symbol is given); built-in identifiers display pairwise distinct symbols.",
  "all identifier declarations, all pairs",
  "all declarations",
  ["aegir_derive/src/ids.rs", "aegir/src/lib.rs: ids::*"])
p("Special function nodes equal their definitions",
  "sigmoid evaluates to 1/(1+e^-x) on both numerically-stable branches and lies strictly between 0 and 1; Square equals x*x and power 2; Double equals x+x; XLnX equals x ln x for x>0 and 0 otherwise; OneSub/AddOne/SubOne are 1-x/x+1/x-1; Factorial is the factorial on naturals; erfc = 1 - erf; Rabbit is x(1-x).",
  "all real inputs, all buffer shapes",
  "all reals",
  ["aegir/src/ops/sigmoid.rs", "aegir/src/ops/special.rs", "aegir/src/ops/logarithmic.rs", "aegir/src/ops/arithmetic/unary.rs"])
p("Storage-class precedence is lawful",
  "Combining storage classes is idempotent, has Scalars as a two-sided unit and does not depend on operand order.",
  "all pairs of storage classes",
  "symmetry over the whole table, which is written by hand per ordered pair",
  ["aegir/src/meta/mod.rs: Precedence, impl_class_precedence!"])
with open('/verif/properties.jsonl','w') as f:
    for x in P: f.write(json.dumps(x,ensure_ascii=False)+"\n")
print(len(P)); [print(x['id'],x['title']) for x in P]
