{"id": "C01", "title": "Fixed-shape index enumeration is exact", "statement": "For every compile-time shape S0..S6, `indices()` yields exactly the indices accepted by `contains`, each once, in row-major (lexicographic) order, and `cardinality()` is the number of indices yielded. `is_equivalent` holds iff the indices of the two shapes are in one-to-one correspondence.", "quantifier": "every fixed shape (any rank, any dimensions) and every index", "why_tests_cant": "the dimensions are arbitrary naturals; a test fixes a handful of them", "anchors": ["aegir/src/buffers/shapes/compiled.rs: S0, S1, impl_fixed! (contains, cardinality, indices)"]}
{"id": "C02", "title": "Runtime-shape index iterator is exact", "statement": "For every SDynamic<DIM> with DIM >= 1, repeatedly calling `next()` on a fresh `indices()` iterator yields exactly the indices accepted by `contains`, each once, in lexicographic order, and then None; the number yielded equals `cardinality()`. (For DIM = 0 this must also hold for the property to be complete: one empty index.)", "quantifier": "every runtime shape, every number of next() calls (every execution of the iterator state machine)", "why_tests_cant": "the iterator is a mutable state machine with nested resets; tests enumerate only small products", "anchors": ["aegir/src/buffers/shapes/multi_product.rs: MultiProduct::next, iterate_last", "aegir/src/buffers/shapes/runtime.rs: SDynamic"]}
{"id": "C03", "title": "Iterator count and size_hint match what remains", "statement": "At every point of an iteration over a runtime shape, `count()` equals the number of items that `next()` would still yield before None, and `size_hint()` brackets that number: lower <= remaining, and remaining <= upper whenever an upper bound is given, including when usize arithmetic saturates or overflows.", "quantifier": "every runtime shape and every reachable iterator state", "why_tests_cant": "intermediate states of the nested iterator and overflow boundaries (products above usize::MAX) cannot be enumerated", "anchors": ["aegir/src/buffers/shapes/multi_product.rs: count, size_hint, size_hint_add, size_hint_mul"]}
{"id": "C04", "title": "Exhausted runtime index iterator stays exhausted", "statement": "Once `next()` has returned None on a runtime-shape index iterator, every later `next()` returns None as well (a consumer that polls again, e.g. chain/zip style adaptors, sees no new items).", "quantifier": "every runtime shape and every number of further polls after exhaustion", "why_tests_cant": "the behaviour after exhaustion depends on the left-over state for every shape", "anchors": ["aegir/src/buffers/shapes/multi_product.rs: MultiProduct::next, iterate_last"]}
{"id": "C05", "title": "Shape concatenation and splitting are inverse and index-faithful", "statement": "For any two concatenable shapes, `contains` of the concatenated shape on `concat_indices(i, j)` holds iff both parts contain their index; cardinality multiplies; the indices of the concatenation are exactly the row-major pairs; `split` undoes `concat` and `split_index` undoes `concat_indices`. A `Concat` impl for fixed shapes exists for the listed pairs of ranks, and concatenation is associative where both bracketings exist.", "quantifier": "all shape pairs with a Concat/Split impl and all index pairs", "why_tests_cant": "pairs of shapes and indices are unbounded", "anchors": ["aegir/src/buffers/shapes/compiled.rs: impl_concat!, impl Split for S2/S4", "aegir/src/buffers/shapes/runtime.rs: impl_concat!"]}
{"id": "C06", "title": "Broadcasting is lawful", "statement": "Broadcasting with the scalar shape returns the other shape on either side; broadcasting a shape with itself returns it; two runtime shapes broadcast iff they are equal, otherwise the error carries (left,right) in call order; swapping the operands gives the same shape, or the reversed error (`reverse` is an involution).", "quantifier": "all pairs of shapes with a Broadcast impl", "why_tests_cant": "the shape space is unbounded", "anchors": ["aegir/src/buffers/shapes/mod.rs: Broadcast, IncompatibleShapes::reverse", "aegir/src/buffers/shapes/compiled.rs", "aegir/src/buffers/shapes/runtime.rs: Broadcast impls"]}
{"id": "C07", "title": "build/get round trip", "statement": "For every buffer class, `build(shape, f)` has the requested shape; `get(ix)` is Some(f(ix)) iff the shape contains ix and None otherwise; `get` never panics; and two buffers of the same type that agree on every contained index are equal. `full`, `zeroes`, `ones`, `diagonal`, `identity` are the corresponding special cases.", "quantifier": "all classes (scalar, tuple, Vec, nested arrays of every rank), all shapes, all element functions, all indices; any element type", "why_tests_cant": "quantifies over all functions and indices", "anchors": ["aegir/src/buffers/mod.rs: Class, Buffer::get", "aegir/src/buffers/{scalars,tuples,vecs}.rs", "aegir/src/buffers/arrays/buffer.rs"]}
{"id": "C08", "title": "build_subset writes exactly the subset", "statement": "`build_subset(shape, base, subset, active)` yields `active(ix)` at every index in the subset and `base` everywhere else, whenever all subset indices are inside the shape; an out-of-range subset index panics for arrays and Vec (never corrupts another cell).", "quantifier": "all shapes, all index lists (with repetitions, any order), all element functions", "why_tests_cant": "index lists are unbounded and order dependent", "anchors": ["aegir/src/buffers/mod.rs: Class::build_subset", "aegir/src/buffers/arrays/buffer.rs", "aegir/src/buffers/vecs.rs", "aegir/src/buffers/scalars.rs", "aegir/src/buffers/tuples.rs"]}
{"id": "C09", "title": "map, map_ref and mutate agree", "statement": "`map(f)`, `map_ref(f)` and `mutate(f)` all produce the buffer whose element at every index is f of the original element, with unchanged shape; map is functorial (identity and composition).", "quantifier": "all buffers of all classes and ranks, all functions; any element type", "why_tests_cant": "quantifies over all functions and buffers; in-place and by-value loops are different code", "anchors": ["aegir/src/buffers/mod.rs: Buffer::{map,map_ref,mutate}", "aegir/src/buffers/arrays/buffer.rs: impl_buffer!"]}
{"id": "C10", "title": "fold visits every element once in row-major order", "statement": "`fold(init, f)` equals the left fold of f over the elements taken in the order of `shape().indices()`; `sum()` is that fold with addition from zero.", "quantifier": "all buffers of all classes and ranks, all accumulators", "why_tests_cant": "order and coverage of nested loops over arbitrary dimensions", "anchors": ["aegir/src/buffers/mod.rs: Buffer::{fold,sum}", "aegir/src/buffers/arrays/buffer.rs: fold"]}
{"id": "C11", "title": "Zipping is pointwise with operands in order", "statement": "Whenever `l.zip_map(r, f)` succeeds its element at ix is f(l[ix], r[ix]) with a scalar operand broadcast to every index, left operand first; it fails iff the shapes are incompatible.", "quantifier": "all pairs of buffers with a ZipMap impl (scalar/Vec/tuple/array of every rank, scalar on either side), all binary functions (in particular non-commutative ones)", "why_tests_cant": "non-commutative f and arbitrary ranks; the unit tests only zip equal-rank arrays", "anchors": ["aegir/src/buffers/mod.rs: ZipMap", "aegir/src/buffers/arrays/zip_ops.rs: impl_map!", "aegir/src/buffers/vecs.rs", "aegir/src/buffers/tuples.rs", "aegir/src/buffers/scalars.rs"]}
{"id": "C12", "title": "In-place, by-value and folding zips agree", "statement": "`zip_map_id(r,f)` and `zip_mut(r,f)` give the same buffer (or the same error) as `zip_map(r,f)`; `zip_fold` is the left fold over index order of the paired elements; `zip_shape` succeeds exactly when `zip_map` does and preserves the left operand's values up to broadcasting.", "quantifier": "all zip-compatible buffer pairs and functions", "why_tests_cant": "three separately written loop nests per rank must agree for all sizes", "anchors": ["aegir/src/buffers/mod.rs: ZipMap::{zip_map_id, zip_shape}, ZipMut, ZipFold", "aegir/src/buffers/arrays/zip_ops.rs"]}
{"id": "C13", "title": "Spec is a faithful compressed buffer", "statement": "`Spec::map(f)` followed by `unwrap` equals `unwrap` followed by `map(f)` (for diagonal specs too); `Spec::zip_map` followed by `unwrap` equals `zip_map` on the unwrapped buffers; `shape()` of a Spec is the shape of its unwrapped buffer.", "quantifier": "all Specs (Raw, Full, Diagonal) over all buffer types and functions", "why_tests_cant": "quantifies over all functions, including those that do not preserve zero", "anchors": ["aegir/src/buffers/spec.rs: Spec::{shape,unwrap,map,zip_map}"]}
{"id": "C14", "title": "Contraction shortcuts do not change results", "statement": "For every contraction impl, `contract_spec` on compressed operands, unwrapped, equals the dense `contract` of the unwrapped operands whenever the latter returns; in commutative-semiring arithmetic.", "quantifier": "all operand pairs, all Spec variants on either side, all dimensions, all commutative semirings", "why_tests_cant": "the product of Spec variants, dimensions and values is unbounded", "anchors": ["aegir/src/buffers/arrays/contraction_ops.rs: contract_spec impls"]}
{"id": "C15", "title": "Contraction computes the tensor contraction", "statement": "`contract` over 0 axes is the outer product and over 1 axis is the sum over the shared axis (dot, matrix-vector, vector-matrix, matrix-matrix): out[i..,j..] = sum_k l[i..,k] r[k,j..], for every accepted pair of operand types, without panicking.", "quantifier": "all accepted operand types and dimensions, in particular non-square matrices", "why_tests_cant": "loop bounds must be right for every pair of dimensions; tests use square ones", "anchors": ["aegir/src/buffers/arrays/contraction_ops.rs: Contract impls"]}
{"id": "C16", "title": "contract_shape predicts the contraction's shape", "statement": "`contract_shape(ls, rs)` succeeds exactly for the types accepted by contract and returns the shape of the contraction result.", "quantifier": "all operand pairs with a Contract impl", "why_tests_cant": "all dimensions", "anchors": ["aegir/src/buffers/arrays/contraction_ops.rs: contract_shape impls", "aegir/src/ops/linalg/mod.rs: Contract"]}
{"id": "C17", "title": "evaluate and evaluate_spec agree", "statement": "For every function and context, `evaluate` equals `evaluate_spec` followed by `unwrap` (value, error or panic, and the context left behind), in commutative-ring arithmetic.", "quantifier": "all expressions, all contexts", "why_tests_cant": "expression trees are unbounded and each operator has hand-written shortcut arms", "anchors": ["aegir/src/lib.rs: Function", "aegir/src/ops/mod.rs: impl_unary!", "aegir/src/ops/arithmetic/*.rs", "aegir/src/ops/linalg/mod.rs", "aegir/src/meta/*.rs"]}
{"id": "C18", "title": "evaluate_shape predicts the shape of evaluate", "statement": "Whenever `evaluate` succeeds, `evaluate_shape` in the same context succeeds and returns the shape of the value.", "quantifier": "all expressions, all contexts", "why_tests_cant": "unbounded expression trees with shortcuts in evaluate_shape", "anchors": ["aegir/src/lib.rs: Function::evaluate_shape and all its impls"]}
{"id": "C19", "title": "evaluate computes the mathematical tensor value", "statement": "Whenever `evaluate` returns a value it is the value of the standard tensor semantics of the expression (pointwise arithmetic with scalar broadcasting, contraction as sum over the shared axis, sum over all entries) at the context's variable values; no Spec shortcut may change it.", "quantifier": "all well-typed expressions, all contexts, all scalar types obeying commutative ring laws", "why_tests_cant": "the set of expressions is infinite and shortcuts compose", "anchors": ["aegir/src/ops/**", "aegir/src/meta/**", "aegir/src/buffers/**"]}
{"id": "C20", "title": "Errors are attributed to the right operand", "statement": "A binary operator whose left operand fails reports Left(error) whatever the right operand does; if only the right fails it reports Right(error); a missing variable is reported as Undefined with its identifier; unary operators pass errors through; evaluate, evaluate_spec and evaluate_shape of a variable agree on this.", "quantifier": "all expressions and contexts", "why_tests_cant": "all combinations of failing sub-expressions at any depth", "anchors": ["aegir/src/errors.rs: BinaryError", "aegir/src/ops/**: evaluate_spec", "aegir/src/meta/variable.rs", "aegir/src/meta/mod.rs: SourceError"]}
{"id": "C21", "title": "Defined inputs evaluate successfully", "statement": "If every identifier the expression reads is defined in the context and all operand types are fixed-size, `evaluate` returns Ok: no error and no panic.", "quantifier": "all well-typed expressions over scalars, tuples and fixed-size arrays; all contexts", "why_tests_cant": "absence of panics must hold on every tree and every value", "anchors": ["aegir/src/ops/**", "aegir/src/buffers/arrays/contraction_ops.rs"]}
{"id": "C22", "title": "Shape mismatches are reported, not panicked", "statement": "Combining runtime-sized (Vec) operands of different lengths with add/sub/mul/div returns the Output(IncompatibleShapes) error from evaluate, evaluate_spec and evaluate_shape; it never panics.", "quantifier": "all Vec operands with different lengths", "why_tests_cant": "all length pairs and nesting positions", "anchors": ["aegir/src/ops/arithmetic/binary.rs: Add, Sub, Mul, Div"]}
{"id": "C23", "title": "Evaluation only writes caches", "statement": "Evaluating (value, spec or shape) leaves every context entry unchanged except identifiers that occur as the cache identifier of a Cached node inside the expression; an entry that was already defined is never overwritten; without Cached nodes the context is unchanged.", "quantifier": "all expressions, all contexts, whether evaluation succeeds or fails", "why_tests_cant": "frame condition over all contexts", "anchors": ["aegir/src/meta/cached.rs: Cached::evaluate", "aegir/src/lib.rs: Read, Write"]}
{"id": "C24", "title": "Evaluation depends only on contained identifiers", "statement": "If two contexts agree on every identifier for which `contains` is true, evaluating the expression in either gives the same outcome.", "quantifier": "all expressions, all pairs of contexts", "why_tests_cant": "two-run (non-interference) property over all contexts", "anchors": ["aegir/src/lib.rs: Contains", "aegir_derive/src/ops.rs: expand_contains", "aegir/src/meta/*.rs: contains"]}
{"id": "C25", "title": "contains is exactly occurrence, and differentiation does not lose or invent identifiers", "statement": "`contains(x)` is true iff x occurs in the expression; the adjoint w.r.t. t contains x only if the expression does or x = t, and contains t always.", "quantifier": "all expressions and identifiers", "why_tests_cant": "all trees; adjoint construction duplicates sub-trees", "anchors": ["aegir/src/lib.rs: Contains", "aegir_derive/src/ops.rs", "all `adjoint` methods"]}
{"id": "C26", "title": "Caching is transparent when the cache is coherent", "statement": "If every cache entry is either empty or holds the value its Cached node would compute, evaluating with the Cached nodes gives the same result as evaluating the expression with all Cached wrappers removed, and leaves the cache coherent; this persists along any sequence of evaluations.", "quantifier": "all expressions, all coherent contexts, all histories of evaluations", "why_tests_cant": "invariant over unbounded evaluation histories", "anchors": ["aegir/src/meta/cached.rs"]}
{"id": "C27", "title": "Cached memoises: first value wins", "statement": "After a Cached node has evaluated successfully, every later evaluation of it returns that same value without evaluating the inner node, whatever happens to the inner node's inputs, until its cache entry is written; a failing inner node writes nothing to its entry; re-evaluating any expression in the context it left behind returns the same value and changes nothing.", "quantifier": "all expressions, contexts and histories of writes and evaluations", "why_tests_cant": "quantifies over histories of context updates", "anchors": ["aegir/src/meta/cached.rs: Cached::evaluate"]}
{"id": "C28", "title": "Scalar adjoints are derivatives", "statement": "For every scalar expression that is differentiable w.r.t. t, evaluating `adjoint(t)` returns the derivative of the expression's value as a function of t at the context, wherever the operators are differentiable (nonzero denominators and log arguments, positive power bases, nonzero abs/sign arguments, ...).", "quantifier": "all scalar expressions, all real contexts meeting the side conditions", "why_tests_cant": "numerical tests sample points with tolerance; the claim is an exact identity for all expressions and points", "anchors": ["all `Differentiable::adjoint` impls", "aegir/src/lib.rs: Differentiable::evaluate_adjoint"]}
{"id": "C29", "title": "Gradients w.r.t. array parameters are gradients", "statement": "For a scalar-valued expression over dot products of affine vector expressions (e.g. linear/logistic regression losses), evaluating the adjoint w.r.t. a vector parameter returns the vector of partial derivatives.", "quantifier": "all such expressions, all dimensions, all real contexts", "why_tests_cant": "all expressions, dimensions and points", "anchors": ["aegir/src/ops/linalg/mod.rs: Contract::adjoint", "aegir/src/meta/variable.rs: VariableAdjoint", "aegir/src/buffers/arrays/contraction_ops.rs", "aegir/examples/linear.rs", "aegir/examples/logistic.rs"]}
{"id": "C30", "title": "Tensor-valued adjoints w.r.t. a scalar are entrywise derivatives", "statement": "For tensor-valued expressions and a scalar target, evaluating the adjoint returns the tensor of entrywise derivatives, with the shape of the value.", "quantifier": "all tensor expressions, all dimensions, all real contexts", "why_tests_cant": "all expressions and shapes", "anchors": ["all `Differentiable::adjoint` impls"]}
{"id": "C31", "title": "The adjoint of Sum is the derivative of the sum", "statement": "Evaluating the adjoint of `sum(x)` w.r.t. t returns the derivative of the scalar sum: it has the target's shape and entries sum_i d x_i / d t_j.", "quantifier": "all expressions under Sum, all shapes", "why_tests_cant": "all expressions and shapes", "anchors": ["aegir/src/ops/arithmetic/unary.rs: Sum::adjoint"]}
{"id": "C32", "title": "Tensor product adjoint has value-then-target axis order", "statement": "The adjoint of the tensor product l (x) r w.r.t. t has entry [i.., j.., k..] = d(l_i r_j)/d t_k.", "quantifier": "all operands and shapes accepted by TensorProduct whose adjoint type-checks", "why_tests_cant": "needs non-symmetric Jacobians", "anchors": ["aegir/src/ops/linalg/mod.rs: Contract::adjoint", "TensorProduct"]}
{"id": "C33", "title": "Adjoint w.r.t. an absent identifier is zero", "statement": "If the expression does not contain t then evaluating adjoint(t) yields zero in every entry (where it evaluates and divisions are by nonzero values).", "quantifier": "all expressions, contexts, targets", "why_tests_cant": "all trees", "anchors": ["aegir/src/meta/variable.rs", "aegir/src/meta/constant.rs", "all adjoint impls"]}
{"id": "C34", "title": "Variable adjoints are identity or zero tensors", "statement": "The adjoint of variable x w.r.t. x evaluates to the identity tensor of shape shape(x)++shape(x): entry [i.., j..] is 1 iff i.. = j..; w.r.t. a different identifier it is zero of shape shape(x)++shape(t); an undefined x is Left, an undefined t is Right; evaluate_shape agrees.", "quantifier": "all variables of every supported type and rank, all contexts", "why_tests_cant": "all ranks and dimensions, two code paths (diagonal vs. build_subset)", "anchors": ["aegir/src/meta/variable.rs: VariableAdjoint", "aegir/src/meta/constant.rs: ConstantAdjoint"]}
{"id": "C35", "title": "evaluate_dual pairs value and adjoint", "statement": "`evaluate_dual(t)` succeeds iff both evaluate and evaluate_adjoint do and returns exactly that pair; a value failure is Left and pre-empts the adjoint, an adjoint failure is Right.", "quantifier": "all expressions, contexts, targets", "why_tests_cant": "all combinations of failures with a mutated context in between", "anchors": ["aegir/src/lib.rs: Differentiable::{evaluate_adjoint, evaluate_dual}"]}
{"id": "C36", "title": "Differentiation is repeatable", "statement": "The result of `adjoint` can be differentiated again (README: \"infinitely differentiable\"): the second adjoint exists and evaluates to the second derivative, and so on for every order.", "quantifier": "all differentiable expressions, all orders", "why_tests_cant": "all orders and trees", "anchors": ["aegir/src/meta/variable.rs: VariableAdjoint Differentiable", "aegir/src/meta/constant.rs: ConstantAdjoint", "README.md"]}
{"id": "C37", "title": "Symbolic simplification in to_expr is sound", "statement": "If `to_expr` of a scalar expression is the symbolic constant Zero (One), then the expression evaluates to 0 (1) in every context.", "quantifier": "all scalar expressions, all real contexts", "why_tests_cant": "all trees; the rewrite rules are per-operator tables", "anchors": ["aegir/src/fmt.rs: Expr, ToExpr", "all `to_expr` impls"]}
{"id": "C38", "title": "Rendered text identifies the expression", "statement": "Two expressions that render to the same text denote the same function (parentheses are inserted where needed; distinct operators render differently); zero renders as a non-empty text.", "quantifier": "all pairs of expressions", "why_tests_cant": "pairs of trees", "anchors": ["aegir/src/fmt.rs: PreWrap, Expr Display", "all `to_expr` impls"]}
{"id": "C39", "title": "Dual arithmetic is forward-mode differentiation", "statement": "Add, Sub, Neg and Mul on Dual numbers carry the derivative: evaluating any expression built from them at Dual::variable(x) gives (p(x), p'(x)), and at constants gives zero adjoint; conj is an involution.", "quantifier": "all expressions over the Dual operators, all inputs", "why_tests_cant": "all compositions of operators", "anchors": ["aegir/src/dual.rs"]}
{"id": "C40", "title": "Mixed Dual/plain arithmetic equals lifting the plain operand", "statement": "dual + v, dual - v and dual * v equal the operation with v lifted to Dual::constant(v).", "quantifier": "all duals and plain values", "why_tests_cant": "all values", "anchors": ["aegir/src/dual.rs: Add<V>, Sub<V>, Mul<V> for Dual"]}
{"id": "C41", "title": "aegir! preserves the meaning of the arithmetic expression", "statement": "The node produced by aegir! for an arithmetic source expression denotes that expression: +,-,*,^ become add, sub, mul, power, a literal square becomes Square which equals Power with exponent 2, other forms are left in place; the expansion fails exactly on unsupported operators.", "quantifier": "all source expressions", "why_tests_cant": "unbounded syntax trees", "anchors": ["aegir_compile/src/lib.rs: aegir! (Mutator)"]}
{"id": "C42", "title": "Derived contexts are lawful stores", "statement": "For a derived context: read after write of the same identifier returns the written value; write to one identifier does not change reads of others; plain fields always read Some; cache fields read None until written; read, read_spec and read_shape agree.", "quantifier": "all contexts, all sequences of reads and writes", "why_tests_cant": "histories of operations", "anchors": ["aegir_derive/src/ctx/derive.rs: emit_read_fns, emit_write_fns, ctx_struct_impl", "aegir/src/lib.rs: Read, Write"]}
{"id": "C43", "title": "Context field attributes are validated", "statement": "A context struct field is accepted iff it is named, its attributes parse, it has at most one #[id] and, if it is #[cache], exactly one #[id] and an Option<..> type; each rejection is the documented error with the documented priority; attribute order among ids and caches does not matter; fields without #[id] get no accessor.", "quantifier": "all attribute lists and field types", "why_tests_cant": "all attribute sequences", "anchors": ["aegir_derive/src/ctx/derive.rs: parse_field, parse_ty_cache, parse_id_attr", "aegir_derive/src/ctx/ctx_type.rs"]}
{"id": "C44", "title": "Identifiers are distinguished", "statement": "Identifiers from `ids!` compare equal iff they are the same identifier and display their declared symbol (or their own name when no symbol is given); built-in identifiers display pairwise distinct symbols.", "quantifier": "all identifier declarations, all pairs", "why_tests_cant": "all declarations", "anchors": ["aegir_derive/src/ids.rs", "aegir/src/lib.rs: ids::*"]}
{"id": "C45", "title": "Special function nodes equal their definitions", "statement": "sigmoid evaluates to 1/(1+e^-x) on both numerically-stable branches and lies strictly between 0 and 1; Square equals x*x and power 2; Double equals x+x; XLnX equals x ln x for x>0 and 0 otherwise; OneSub/AddOne/SubOne are 1-x/x+1/x-1; Factorial is the factorial on naturals; erfc = 1 - erf; Rabbit is x(1-x).", "quantifier": "all real inputs, all buffer shapes", "why_tests_cant": "all reals", "anchors": ["aegir/src/ops/sigmoid.rs", "aegir/src/ops/special.rs", "aegir/src/ops/logarithmic.rs", "aegir/src/ops/arithmetic/unary.rs"]}
{"id": "C46", "title": "Storage-class precedence is lawful", "statement": "Combining storage classes is idempotent, has Scalars as a two-sided unit and does not depend on operand order.", "quantifier": "all pairs of storage classes", "why_tests_cant": "symmetry over the whole table, which is written by hand per ordered pair", "anchors": ["aegir/src/meta/mod.rs: Precedence, impl_class_precedence!"]}
{"id": "C47", "title": "Elementary function nodes compute the functions they are named after", "statement": "Each logarithmic, exponential, trigonometric, hyperbolic, inverse and gamma-family node computes the function it is named after, entrywise; Dirac is infinite exactly at zero; Sign returns zeros unchanged; inverse pairs of operators cancel on their domains.", "quantifier": "all real inputs, all nodes, buffer types and contexts", "why_tests_cant": "all reals and all buffer types; a node wired to a neighbouring primitive agrees with the right one at the points tests usually use (0, 1)", "anchors": ["aegir/src/ops/trig.rs", "aegir/src/ops/logarithmic.rs", "aegir/src/ops/special.rs", "aegir/src/ops/arithmetic/unary.rs"]}
{"id": "C48", "title": "The type of an expression is determined by its operands", "statement": "An expression over a context with given buffer types can be evaluated exactly if it has a type by bottom-up rules on extents and ranks; the type and the selected trait impls are unique, so its value depends on the expression and the context only.", "quantifier": "all expressions, all assignments of buffer types to identifiers", "why_tests_cant": "expressions are unbounded trees, and tests only see the ones that compile", "anchors": ["aegir/src/lib.rs: Function, Differentiable", "aegir/src/buffers/mod.rs: ZipMap, Contract", "aegir/src/ops/arithmetic/binary.rs", "aegir/src/ops/linalg/mod.rs"]}
{"id": "C49", "title": "evaluate_dual agrees with arithmetic on dual numbers", "statement": "Evaluating an expression with evaluate_dual gives the dual number that the same computation gives on Dual values, with the target as Dual::variable and all other inputs as Dual::constant.", "quantifier": "all programs over the operators of Dual, all scalar contexts and targets, all commutative rings", "why_tests_cant": "two independent implementations of differentiation (node adjoints and dual arithmetic) must agree on unboundedly many programs", "anchors": ["aegir/src/dual.rs", "aegir/src/lib.rs: Differentiable::evaluate_dual", "aegir/src/ops/arithmetic/binary.rs"]}
{"id": "C50", "title": "derive(Contains) asks every successor", "statement": "For a struct whose successor nodes are marked #[op], #[derive(Contains)] generates an impl whose contains answers true exactly if one of the marked fields contains the target, bounded by Contains<I> for the field types.", "quantifier": "all structs (fields, attributes, generic parameters)", "why_tests_cant": "proc macros run on arbitrary syntax; tests only see structs that compile", "anchors": ["aegir_derive/src/ops.rs: OpAttributes, OpFields, expand_contains"]}
{"id": "C51", "title": "ctx! builds a context with exactly the given entries", "statement": "ctx!{K1 = v1, ..} with distinct identifiers builds a context from which every key reads its value and nothing else can be read.", "quantifier": "all lists of keys and values", "why_tests_cant": "naming collisions depend on the spelling of all pairs of keys", "anchors": ["aegir/src/lib.rs: ctx!", "aegir_derive/src/ctx/ctx_type.rs", "aegir_derive/src/ctx/derive.rs"]}
{"id": "C52", "title": "Substitution", "statement": "If n evaluates to v in a context, then the expression e with n in place of the variable i evaluates to the same value as e does when i is bound to v.", "quantifier": "all expressions e and n, variables, contexts and buffer types", "why_tests_cant": "the claim ranges over all expression trees and over every occurrence of the variable in them", "anchors": ["aegir/src/lib.rs: Function", "aegir/src/ops/", "aegir/src/ops/arithmetic/binary.rs: Power"]}
{"id": "C53", "title": "The linear regression example learns", "statement": "The program linear.rs never panics; each iteration is one step of gradient descent on the squared error, changes the squared distance to the true weights by exactly -4η(1-η|x|²)e², and with the constants of the program the distance never exceeds its initial value and the squared errors sum to at most 30/0.028, over exact reals.", "quantifier": "all numbers of iterations, samples, true weights, states; for the step also all dimensions and learning rates", "why_tests_cant": "a run tests one seed and one number of iterations; the bound is on every sequence of samples of every length", "anchors": ["aegir/examples/linear.rs L14-49"]}
{"id": "C54", "title": "The logistic regression example learns", "statement": "The program logistic.rs never panics (neither in gen_bool nor in evaluate); for labels zero and one the evaluated adjoint is (y-σ(⟨x,w⟩))x, and an iteration never decreases the likelihood of the sample it has drawn, over exact reals. Along the way the labels are predicted almost as well as by the best fixed weights in hindsight (a regret bound), whatever the draws.", "quantifier": "all numbers of iterations, draws, true weights, dimensions and non-negative learning rates", "why_tests_cant": "a run tests one seed; the program prints weights and asserts nothing", "anchors": ["aegir/examples/logistic.rs L15-52"]}
{"id": "C55", "title": "The caching example compares equal computations", "statement": "Both expressions timed by caching.rs evaluate to -16 Σ x; the cached one evaluates the inner expression for the first of the eight terms only and leaves its value in the cache, the plain one leaves the context as it was.", "quantifier": "all vectors, all contexts with a filled cache", "why_tests_cant": "the program discards the values and prints times only", "anchors": ["aegir/examples/caching.rs L18-57", "aegir/src/meta/cached.rs"]}
{"id": "C56", "title": "Rendered text stands for the value", "statement": "The text that Display prints for an expression over scalars, read with the usual rules of precedence (brackets and calls, then powers, signs, products and quotients, sums and differences), is a notation for the number the expression evaluates to; where it prints an infinity, the function tends to that infinity.", "quantifier": "all expressions over scalar identifiers, all contexts, all ways of printing identifiers and numbers", "why_tests_cant": "the tests compare a few texts with expected strings; whether brackets suffice depends on every nesting of operators and on the flag computed for each operand", "anchors": ["aegir/src/fmt.rs", "aegir/src/ops/arithmetic/binary.rs L153-166, L274-302, L406-438, L563-578, L645-667", "aegir/src/ops/arithmetic/unary.rs", "aegir/src/ops/linalg/mod.rs L105-197", "aegir/src/ops/trig.rs", "aegir/src/ops/special.rs", "aegir/src/meta/constant.rs L187-193"]}
{"id": "C57", "title": "Formal derivatives over any ring", "statement": "An expression made of scalar variables, scalar constants and ring operations evaluates to the value of the polynomial it stands for, without error once its variables have values; its adjoint stands for the formal partial derivative of that polynomial. Hence moving the target by d moves the value by d times the evaluated adjoint up to a multiple of d squared, expressions for the same polynomial have the same derivatives, and second derivatives may be taken in either order.", "quantifier": "all commutative rings of scalars (integers and wrapping integers included), all polynomial expressions, all targets, all contexts", "why_tests_cant": "the tests use floating-point numbers at a few points; finite differences say nothing about rings without limits", "anchors": ["aegir/src/ops/arithmetic/binary.rs", "aegir/src/ops/arithmetic/unary.rs", "aegir/src/ops/sigmoid.rs L31-41", "aegir/src/ops/linalg/mod.rs", "aegir/src/meta/variable.rs", "aegir/src/meta/constant.rs"]}
{"id": "C58", "title": "The benchmarks compare like with like", "statement": "In every state of the linear benchmark the adjoint made by the library, the adjoint written by hand and the plain loop give the same gradient, and the three runs end in the same state without panic, which is that of gradient descent. The two variants of the logistic benchmark likewise end in the same state, that of gradient ascent, for every sequence of draws.", "quantifier": "all dimensions, learning rates, tables of true weights, states, sequences of samples and coin flips (over exact reals)", "why_tests_cant": "benchmarks discard their results; nothing compares the variants, and the states reached depend on a million random draws", "anchors": ["aegir/benches/linear.rs L43-147", "aegir/benches/logistic.rs L43-111"]}
{"id": "C59", "title": "Error messages name the cause", "statement": "Every failed evaluation (value, compressed value or shape, of any expression) has a message that either names an identifier which the expression needs and the context does not define, or shows two different vector lengths; no other text is possible. Texts of shapes are unambiguous, and two errors have the same message exactly when they have the same cause. For expressions without caches and run-time sizes the order is fixed: evaluation looks at its identifiers from left to right, succeeds exactly when all of them are defined, otherwise names the first that is not, and leaves the context unchanged.", "quantifier": "for all expressions with an evaluation, all contexts, all shapes (fixed or dynamic, any number of axes and extents), all errors, all ways of printing identifiers (injective for the equivalence of messages)", "why_tests_cant": "Unambiguity of the text ranges over all pairs of shapes of all ranks (2 and 13 against 21 and 3), and the claim about which identifier is reported ranges over all expressions and all subsets of undefined identifiers.", "anchors": ["aegir/src/errors.rs", "aegir/src/buffers/shapes/mod.rs:25-33", "aegir/src/buffers/shapes/compiled.rs:27-29", "aegir/src/buffers/shapes/compiled.rs:69-85", "aegir/src/buffers/shapes/runtime.rs:65-69", "aegir/src/meta/mod.rs:43-56"]}
{"id": "C60", "title": "Evaluation does not depend on how the context stores its values", "statement": "An expression evaluated in a context type with lawful Read and Write impls (read_spec and read_shape agree with read, a write is seen by its own identifier and by no other) has the same outcome for value, compressed value and shape as in the map of the context's contents, and leaves the same contents; so has every sequence of evaluations and assignments. The structs of #[derive(Context)] are lawful. Whatever writes to the expression's cache identifiers preserve, evaluation preserves: in a derived struct no field but the caches of the expression changes. In a derived struct of real scalars the evaluated adjoint is the derivative of evaluation after assignment to the field.", "quantifier": "for all context types with lawful impls, all structs with distinct identifiers, all expressions with an evaluation, all states, all sequences of evaluations and assignments", "why_tests_cant": "The claim ranges over all implementations of the Read and Write traits, including ones written by users of the library, and over all histories.", "anchors": ["aegir/src/lib.rs:82-113", "aegir/src/lib.rs:233-285", "aegir/src/meta/cached.rs", "aegir/src/meta/variable.rs", "aegir_derive/src/ctx/derive.rs:203-333"]}
{"id": "C61", "title": "Rounding errors of evaluation are bounded", "statement": "When every addition, subtraction, multiplication and squaring of the scalar type is exact up to a relative error of at most u, an expression of ring operations, sums, broadcasts and contractions evaluates, in each component, to the exact value up to ((1+u)^k - 1) times the value with every sign made positive, where k counts the rounded operations along the expression; for sums and products of non-negative numbers the relative error is at most (1+u)^k - 1, and the result converges to the exact one as u goes to 0. The same holds of evaluate_spec and of the evaluated adjoint against the true derivative. Binary floating point with round to nearest and an unbounded exponent is such a scalar type with u = 2^-53 for 53 significant bits.", "quantifier": "all scalar types with relative rounding error u, all expressions of sums, differences, products, contractions, squares and their adjoints (no division, powers with variable exponents, transcendental functions or caches), all shapes, all contexts, all components", "why_tests_cant": "tests compare a few results within a tolerance chosen by hand; the bound must hold for all inputs, all lengths and all nestings, and rounding errors accumulate with both", "anchors": ["aegir/src/ops/arithmetic/binary.rs", "aegir/src/ops/arithmetic/unary.rs", "aegir/src/ops/linalg/mod.rs", "aegir/src/buffers/arrays/zip_ops.rs", "aegir/src/buffers/arrays/contraction_ops.rs", "aegir/src/meta/variable.rs"]}
{"id": "C62", "title": "Evaluation is uniform in the scalar type", "statement": "A conversion of scalars that preserves zero, one, addition, subtraction, multiplication, is_zero and from_usize, and whichever of division, powers and functions occur in the expression, commutes with evaluate, evaluate_spec and evaluate_shape: results are converted, errors and panics are the same, and the context left behind is the converted one, caches included. Which expressions compile does not depend on the scalars. For expressions of ring operations values and derivatives therefore agree in integers and in real numbers, and the evaluated integer adjoint is the exact derivative. A ring homomorphism that does not preserve is_zero (wrapping arithmetic) still maps values to values for ring expressions.", "quantifier": "all pairs of scalar types and conversions with the stated laws, all expressions including Cached, all shapes, all contexts", "why_tests_cant": "the tests use f64 only; the claim is about all scalar types a user may instantiate, and the code takes shortcuts that depend on the values of scalars (is_zero)", "anchors": ["aegir/src/buffers/scalars.rs", "aegir/src/buffers/spec.rs", "aegir/src/ops/arithmetic/binary.rs", "aegir/src/ops/arithmetic/unary.rs", "aegir/src/ops/linalg/mod.rs", "aegir/src/meta/variable.rs", "aegir/src/meta/cached.rs"]}
{"id": "C63", "title": "Adjoints make up the total derivative", "statement": "When any number of entries of any number of variables vary at the same time, evaluation keeps succeeding with the same shape, each entry of the value is a Frechet-differentiable function of them, and the coefficients of its derivative are the entries of the evaluated adjoints with respect to the variables. Hence the chain rule along differentiable curves, and a small enough step against all adjoints at once makes the value smaller unless all of them vanish.", "quantifier": "all cached-free expressions and contexts meeting the conditions of C28-C32, all shapes, all finite sets of entries, all curves", "why_tests_cant": "the tests check the adjoint with respect to one variable at single points; differentiability in all of them jointly does not follow from partial derivatives and is a statement about all directions", "anchors": ["aegir/src/lib.rs", "aegir/src/meta/variable.rs", "aegir/src/ops/arithmetic/binary.rs", "aegir/src/ops/arithmetic/unary.rs", "aegir/src/ops/linalg/mod.rs", "aegir/examples/linear.rs"]}
{"id": "C64", "title": "Second adjoints do not depend on the order of differentiation", "statement": "Where adjoints are derivatives (the conditions of C28-C32), e.adjoint(t).adjoint(u) evaluates to the mixed second derivative of e, and e.adjoint(u).adjoint(t), a different expression, evaluates to the same numbers with the axes of the two targets exchanged. For t = u the Hessian is symmetric.", "quantifier": "all cached-free expressions with second adjoints, all pairs of targets, all shapes, all contexts in which the operators are smooth", "why_tests_cant": "the two expressions have different structure and go through different arms of BufferSpec; equality holds up to permutation of axes for all inputs, not for samples", "anchors": ["aegir/src/lib.rs", "aegir/src/meta/variable.rs", "aegir/src/meta/constant.rs", "aegir/src/ops/arithmetic/binary.rs", "aegir/src/ops/arithmetic/unary.rs", "aegir/src/ops/linalg/mod.rs"]}
{"id": "C65", "title": "Cost of evaluation and size of derivatives", "statement": "With filled caches (or none) a successful evaluation calls Read once for every occurrence of an identifier, from left to right, and nothing else; a failing one stops at the failure; shapes are computed from the occurrences that matter for the shape. A filled Cached node costs one read, an empty one two calls more than its operand, and evaluating it again costs one read. In every state at most two calls per node are made. e.adjoint(t) has at most 3*size(e)*height(e) nodes and height at most 3*height(e), so derivatives are at most quadratic and second derivatives at most cubic; the quadratic bound is attained up to a constant by products x*x*...*x, so evaluating a derivative is not within a constant factor of evaluating the expression.", "quantifier": "all expressions, all context types implementing Read and Write, all states, all targets", "why_tests_cant": "calls are not observable in the tests, and bounds on the size of expressions are statements about all expressions", "anchors": ["aegir/src/meta/variable.rs", "aegir/src/meta/constant.rs", "aegir/src/meta/cached.rs", "aegir/src/ops/arithmetic/binary.rs", "aegir/src/ops/arithmetic/unary.rs", "aegir/src/ops/linalg/mod.rs", "aegir/src/lib.rs"]}
{"id": "C66", "title": "Scalar programs from source to derivative", "statement": "A program over scalars, a sequence of bindings let p = aegir!(e) with +, -, *, ^, float literals, brackets and the builder methods abs, neg, ln, squared, sigmoid, sum, div, compiles: the macro expands each right-hand side, the tokens are read, the builder methods construct a node and the trait impls are found. evaluate then returns, at every point, the number that the source denotes; at every point where the rules of calculus apply, evaluate_adjoint with respect to any identifier returns the partial derivative of the function that the source denotes, and evaluate_dual returns both.", "quantifier": "all programs (any number of bindings, any expressions), all points, all identifiers, over the real numbers", "why_tests_cant": "the claim is about all programs and all points, and about derivatives of the mathematical function; tests compare nodes of five expressions", "anchors": ["aegir_compile/src/lib.rs", "aegir/src/lib.rs", "aegir/src/meta/variable.rs", "aegir/src/meta/constant.rs", "aegir/src/ops/arithmetic/binary.rs", "aegir/src/ops/arithmetic/unary.rs"]}
{"id": "C67", "title": "Contexts declared with ctx_type!, from tokens to values", "statement": "ctx_type! accepts exactly the inputs Name { field: Id, cache field: Id } (fields separated by commas, a last comma allowed, cache the only modifier) and panics on all others. The struct it declares has that name, those fields in that order and one type parameter per field; derive(Context) accepts it, and its accessors form a store with one slot per field under the written identifier, a cache exactly if written so. If no identifier is used twice the accessors are coherent: a new value reads as the values it was constructed with, its caches as absent, and every scalar program evaluated in it returns the number, and its adjoint the partial derivative, that the source denotes at the values of the fields, leaving the struct unchanged.", "quantifier": "all token sequences, all structs, all field values, all scalar programs over the real numbers", "why_tests_cant": "there are infinitely many inputs, structs and programs; the tests of the crate declare a handful of contexts", "anchors": ["aegir_derive/src/ctx/ctx_type.rs", "aegir_derive/src/ctx/derive.rs", "aegir_derive/src/ctx/mod.rs", "aegir/src/lib.rs"]}
{"id": "C68", "title": "aegir! reads arithmetic as mathematics does", "statement": "The tokens of an arithmetic expression inside aegir! are grouped in exactly one way, and that is the way of mathematical notation: powers bind tighter than signs, signs tighter than products, products tighter than sums, powers group to the right and the others to the left. A scalar program given by its tokens therefore evaluates to the value, and differentiates to the partial derivatives, of the function that its source denotes in mathematical notation.", "quantifier": "all token sequences, all scalar programs, all points, over the real numbers", "why_tests_cant": "there are infinitely many expressions; the tests of the crate read two chains of operators, neither with a power", "anchors": ["aegir_compile/src/lib.rs", "aegir_compile/tests/tests.rs", "README.md"]}
{"id": "C69", "title": "Evaluation respects what the scalars stand for", "statement": "Scalars stand for numbers: machine integers for integers, floating point numbers that may be NaN for numbers, intervals for the numbers in them. If the arithmetic of the scalars respects this, so do evaluation in its three forms (with all shortcuts for compressed buffers and all caching) and differentiation. Hence integers of any width, in a build with overflow checks, give exact values and exact derivatives wherever no operation overflowed; a number that comes out in spite of NaNs in the data is right whatever stands in place of the NaNs; evaluation on intervals encloses the values at every point of the box, and the evaluated adjoint bounds the slope of the function.", "quantifier": "all scalar types whose arithmetic is sound, all expressions that use functions respected by the scalars (adjoints: ring expressions), all contexts", "why_tests_cant": "quantifies over scalar types, expressions and all points of a box; the tests of the crate use f64 at single points", "anchors": ["aegir/src/buffers/scalars.rs", "aegir/src/buffers/spec.rs", "aegir/src/buffers/arrays/contraction_ops.rs", "aegir/src/ops/arithmetic/binary.rs", "aegir/src/ops/linalg/mod.rs", "aegir/src/meta/cached.rs"]}
{"id": "C70", "title": "Programs with vectors, from source to gradient", "statement": "A program written with aegir! over numbers and vectors of a common length (sums, differences, negatives and dot products of vectors; arithmetic, powers and elementary functions of numbers; earlier results by name) compiles. Evaluating the node it constructs returns the number or vector that the source denotes, at every point without a power 0^0. evaluate_adjoint with respect to a vector returns the vector of the partial derivatives in its entries, with respect to a number the partial derivative, wherever the usual rules of calculus apply; evaluate_dual returns the value with it. In particular the program of the README constructs the squared error of a linear model and its adjoint is 2(<x,w> - y)x, for every number of features.", "quantifier": "all programs of the language, all lengths, all points, all targets", "why_tests_cant": "quantifies over all programs, vector lengths and real points; the crate only runs the README program on random samples", "anchors": ["README.md", "aegir_compile/src/lib.rs", "aegir/src/lib.rs", "aegir/src/ops/linalg/mod.rs", "aegir/src/ops/arithmetic/binary.rs", "aegir/src/ops/arithmetic/unary.rs", "aegir/src/buffers/arrays/contraction_ops.rs", "aegir/src/meta/variable.rs"]}
{"id": "C71", "title": "Formal derivatives of array expressions over any commutative ring", "statement": "Take an expression in the ring operations (sums, differences, products, contractions, squares and the other polynomial unary operators) over scalars and arrays of any rank, evaluated in any commutative ring: integers, wrapping machine integers, polynomials. If several variables are changed at once, every entry of the value changes by the sum over all changed entries of (entry of the evaluated adjoint) times (change), up to an element of the square of any ideal that contains the changes. Hence one entry moved by d changes the value by d times the adjoint up to a multiple of d^2; changes whose products vanish, as with dual numbers, are propagated exactly; over the integers no other number could take the adjoint's place. All these evaluations succeed, and the extents of an adjoint are those of the value followed by those of the target.", "quantifier": "all commutative rings with lawful scalar functions, all ring expressions and shapes, all contexts, all changes, all ideals", "why_tests_cant": "quantifies over all number systems, expressions, array extents and changes; numerical gradient checks do not even make sense for integers", "anchors": ["aegir/src/lib.rs", "aegir/src/ops/arithmetic/binary.rs", "aegir/src/ops/arithmetic/unary.rs", "aegir/src/ops/linalg/mod.rs", "aegir/src/meta/variable.rs", "aegir/src/buffers/arrays/contraction_ops.rs"]}
{"id": "C72", "title": "Evaluation over dual numbers is forward-mode differentiation", "statement": "The crate is generic in its scalar type. Evaluate an expression in a context of dual numbers x + eps*y: every entry of the result has the value at x as real part and the derivative of the value in the direction y as dual part, wherever operators are applied inside of their domains, divisors are not zero and each Power has a positive base or a fixed positive natural exponent. With variables of fixed size all evaluations involved succeed. Where the symbolic adjoints are right, the dual part is the sum over all moved entries of (entry of the evaluated adjoint) times (velocity). The first part needs no adjoint: it also holds for Sum and tensor products, whose adjoints are wrong, for operators without adjoint, and for vectors of dynamic length.", "quantifier": "all expressions without caches, all shapes, all contexts of dual numbers, all result entries", "why_tests_cant": "quantifies over all expressions, points and directions; the derivative is a limit, which finite differences only approximate", "anchors": ["aegir/src/lib.rs", "aegir/src/ops/arithmetic/binary.rs", "aegir/src/ops/arithmetic/unary.rs", "aegir/src/ops/linalg/mod.rs", "aegir/src/ops/trig.rs", "aegir/src/ops/special.rs", "aegir/src/ops/logarithmic.rs", "aegir/src/buffers/arrays/contraction_ops.rs"]}
{"id": "C73", "title": "Mixed second derivatives do not depend on the order", "statement": "Differentiate an expression with respect to a scalar variable s and the adjoint with respect to a scalar variable t, and the other way round. One second adjoint exists if and only if the other does. Both then have the type of the expression, both evaluate, and to the same buffer: over any commutative ring (division need only satisfy a/b*c = c/b*a, and that only if XLnX occurs; a Power needs a nonzero, positive base with x^(y-2)*x*ln x = x^(y-1)*ln x), in particular over the reals whenever bases of powers are positive. With a negative base the two orders can disagree.", "quantifier": "all expressions without caches over variables of fixed size (scalars, tuples, arrays up to rank 3), all pairs of scalar variables, all contexts, all lawful scalar types", "why_tests_cant": "quantifies over all expressions, scalar types and contexts; the two second adjoints are different expressions whose sizes grow with the expression", "anchors": ["aegir/src/lib.rs", "aegir/src/meta/variable.rs", "aegir/src/ops/arithmetic/binary.rs", "aegir/src/ops/arithmetic/unary.rs", "aegir/src/ops/linalg/mod.rs", "aegir/src/ops/trig.rs", "aegir/src/ops/sigmoid.rs", "aegir/src/ops/logarithmic.rs"]}
{"id": "C74", "title": "Evaluation in finite precision converges", "statement": "Take an expression of any operators without caches at a point where it is continuous: divisors are not zero, bases of powers are positive, operators are applied inside of their domains. For every tolerance there is a precision such that every arithmetic at least that precise (relative errors of ring operations and division at most u, of powers and library functions at most u relative to the larger of the result and one), on constants and variables at least that precise, evaluates the expression within the tolerance, with evaluate and with evaluate_spec. Where the expression is differentiable, the same holds of the evaluated adjoint and the true partial derivatives. Hence, with constants and variables rounded to nearest, floating-point results converge to the exact ones as bits are added. At a jump no precision is enough.", "quantifier": "all cache-free expressions, all points where they are continuous, all tolerances, all arithmetics satisfying the error model, all contexts, all precisions", "why_tests_cant": "quantifies over all expressions, arithmetics and tolerances; a test compares two numbers at one precision", "anchors": ["aegir/src/lib.rs", "aegir/src/ops/arithmetic/binary.rs", "aegir/src/ops/arithmetic/unary.rs", "aegir/src/ops/linalg/mod.rs", "aegir/src/ops/trig.rs", "aegir/src/ops/sigmoid.rs", "aegir/src/ops/special.rs", "aegir/src/ops/logarithmic.rs", "aegir/src/buffers/spec.rs"]}
{"id": "C75", "title": "The linear regression example finds the true weights", "statement": "Over exact reals, the program linear.rs: a run over samples that see every direction shrinks the squared distance to the true weights by a fixed factor below one; when a list of samples with bounded norm is repeated, the weights converge to the true ones from wherever they start if and only if no direction is orthogonal to all samples; when the samples are independent with any bounded distribution that sees every direction, the expected squared distance shrinks geometrically and the weights converge with probability one; with the constants of the program and entries drawn independently from a distribution of variance V on the unit interval the expected squared distance after n iterations is at most 30(1-0.028V)^n, so that for uniform entries it is below 10^-k after 1000(k+2) iterations (10^-9998 after the ten million of the program).", "quantifier": "all true weights, initial states, dimensions, learning rates, lists of samples, sample distributions, numbers of iterations", "why_tests_cant": "convergence and probability-one statements are about infinitely many iterations and all random sequences; a run shows one seed", "anchors": ["aegir/examples/linear.rs L14-49"]}
{"id": "C76", "title": "The linear regression example finds the true weights in floating-point arithmetic", "statement": "In any arithmetic whose operations are correct up to a relative error u, one iteration of linear.rs never panics and moves every weight to where a step of gradient descent in exact arithmetic takes it, up to 3N+15 roundings; over any samples with eta |x|^2 <= r <= 1 rounding takes the weights away from the true ones at most at a rate proportional to u; when the samples are independent with any bounded distribution on machine numbers that sees every direction, the expected distance to the true weights shrinks geometrically down to a floor proportional to u; with the constants of the program and entries drawn from a distribution of variance V on the unit interval the expected distance after n iterations is at most 6(1-V/100)^n + 130000u/V, so that in double precision with uniformly drawn entries it is below 10^-9 after 50000 iterations.", "quantifier": "all arithmetics satisfying the standard model, true weights, initial states, dimensions, rates, samples, sample distributions, numbers of iterations", "why_tests_cant": "a run shows one seed of one machine; the bound is about the accumulated rounding errors of arbitrarily many iterations on all samples, and about expectations", "anchors": ["aegir/examples/linear.rs L14-49"]}
{"id": "C77", "title": "Results in IEEE arithmetic: no silent loss of accuracy, and no overflow for data of moderate size", "statement": "In arithmetic with overflow to infinity, gradual underflow and NaNs, whenever an entry that evaluate or evaluate_spec returns for an expression of ring operations is a number, it is the exact value up to ((1+u)^k - 1) times the value of the expression with all signs made positive, where k counts the roundings and data smaller than a threshold count as the threshold (so that underflow is covered); if no intermediate result can leave the range, all entries are numbers; in particular doubles of magnitude at most 2^b are safe for expressions with K roundings if b(K+1) <= 1022; the entries of evaluated adjoints are the partial derivatives with the same kind of bound. Round-to-nearest-even IEEE formats are constructed and shown to be such arithmetics; x*x at 2^600 overflows, x*x - x*x there is NaN, x*x at 2^-600 underflows to zero, so that the standard model of C61 is false of doubles and none of the hypotheses can be dropped.", "quantifier": "all ring expressions, shapes, contexts, IEEE-like arithmetics, thresholds", "why_tests_cant": "overflow and underflow occur at the edges of a range of 2^64 values per scalar, in any intermediate result of any expression", "anchors": ["aegir/src/ops/arithmetic/binary.rs", "aegir/src/ops/arithmetic/unary.rs", "aegir/src/ops/linalg/mod.rs", "aegir/src/buffers/arrays/zip_ops.rs", "aegir/src/buffers/arrays/contraction_ops.rs", "aegir/src/meta/variable.rs"]}
{"id": "C78", "title": "The linear regression example finds the true weights in IEEE double precision", "statement": "In arithmetic with overflow to infinity, underflow and NaNs, one iteration of linear.rs on numbers of moderate size never panics, leaves every weight a number, and moves it to where a step of gradient descent in exact arithmetic takes it up to 3N+15 roundings, numbers below a threshold counting as the threshold; over any samples with eta |x|^2 <= r <= 1 no weight becomes infinite or NaN as long as the accumulated rounding errors leave room; when the samples are independent with any bounded distribution on machine numbers that sees every direction, the expected distance to the true weights shrinks geometrically down to a floor proportional to the unit roundoff; for the program with its thirty weights in IEEE doubles, samples drawn uniformly from 0, 1/m, ..., (m-1)/m and up to ten trillion iterations, every weight is always a number and the expected distance is below 10^-9 from the 50000th iteration on. What rand draws, j / 2^53, is a double.", "quantifier": "all IEEE-like arithmetics, true weights, initial states, dimensions, rates, samples, sample distributions, numbers of iterations within the bound", "why_tests_cant": "a run shows one seed; that no intermediate result leaves the range is about all samples and up to 10^13 iterations, and convergence is about expectations", "anchors": ["aegir/examples/linear.rs L14-49"]}
{"id": "C79", "title": "The logistic regression example learns the true probabilities and weights", "statement": "When the samples of logistic.rs are drawn independently from any distribution of bounded length and the labels with the probabilities of the true weights, the program never panics; the expected squared distance to the true weights grows by at most eta^2 B / 4 per iteration; the expected squared errors of the predicted probabilities on a new sample, summed over the iterations, are at most (d + n eta^2 B / 4) / (4 (2 eta - eta^2 B / 4)), d being the initial squared distance; if the samples see every direction, then for a small enough rate and enough iterations the weights are within any given distance of the true ones with an average probability as close to one as desired; for the program as written, with samples of any distribution on the unit cube, the average expected squared error of the probabilities is at most 1251/n + 0.00008, less than 0.00134 for its million iterations.", "quantifier": "all sample distributions, true weights, initial states, dimensions, rates, numbers of iterations", "why_tests_cant": "a run shows one seed; the claims are about expectations over all draws, and about any distribution of the samples", "anchors": ["aegir/examples/logistic.rs L28-52"]}
{"id": "C80", "title": "The logistic regression example in IEEE double precision", "statement": "logistic.rs, computing in double precision, performs gradient ascent: whatever samples of the unit cube and labels the generator draws in its million iterations, it never panics, no weight becomes infinite or NaN, and the weights are those of gradient ascent in exact arithmetic on the same draws, up to 10^-8.", "quantifier": "all true weights, samples, labels, numbers of iterations; for single steps and runs all formats, dimensions and rates", "why_tests_cant": "a run shows one seed; failures need log-odds beyond 36.7, which no sampled run is likely to reach", "anchors": ["aegir/examples/logistic.rs L28-52", "aegir/src/ops/sigmoid.rs L1-60"]}
{"id": "C81", "title": "How likely the logistic regression example fails in double precision", "statement": "logistic.rs in double precision with its own rate, dimension and million iterations, on independent samples: except with probability 10^-12 it does not panic, no weight becomes infinite or NaN, and every weight is within 10^-8 of the weight that gradient ascent in exact arithmetic reaches on the same draws.", "quantifier": "all true weights in the unit cube, all distributions of the samples on the doubles of the unit cube, all numbers of iterations up to a million", "why_tests_cant": "the failures of C80 are too rare to be sampled; a bound of 10^-12 on their probability needs an argument about all runs", "anchors": ["aegir/examples/logistic.rs L27-52"]}
{"id": "C82", "title": "The linear benchmarks agree to the last bit", "statement": "The three programs of benches/linear.rs (library gradient, gradient written with the library's operators, plain loop) end in the same state, bit for bit, and never panic, in every arithmetic in which products commute and one is neutral, in particular in IEEE arithmetic of any format, infinities and NaN included; and they do what examples/linear.rs does with the table of true weights.", "quantifier": "all dimensions, learning rates, tables, samples, initial states, numbers of iterations and IEEE formats", "why_tests_cant": "equality of all bits for all inputs, including overflow, is not a matter of samples; the programs take different steps", "anchors": ["aegir/benches/linear.rs L43-147"]}
{"id": "C83", "title": "The logistic benchmarks in double precision", "statement": "Both programs of benches/logistic.rs, in double precision with the rate, dimensions (2 and 5) and million iterations of the benchmark, compute the same thing for any draws: neither panics, no weight becomes infinite or NaN, and the weights are those of gradient ascent in exact arithmetic on the same draws up to 10^-8.", "quantifier": "all tables of true weights in the unit cube, all samples in the unit cube and all labels, up to a million iterations", "why_tests_cant": "the draws for which the two programs part are too rare to be sampled, and absence of NaN for all draws needs a bound on all runs", "anchors": ["aegir/benches/logistic.rs L34-111"]}
{"id": "C84", "title": "The linear benchmarks find the true weights in double precision", "statement": "The three programs of benches/linear.rs, in IEEE double precision with the rate and the table of the source and samples drawn as rand draws them (independent multiples of 2^-53), in any dimension up to twenty, never panic and keep all weights finite; from the 50000th iteration up to ten trillion, the probability that some weight is further than eps + 2^-53 from the decimal in the source is at most 10^-9/eps.", "quantifier": "all dimensions from 1 to 20 (for other tables in the unit interval, to 30), all numbers of iterations from 50000 to 10^13, all eps > 0", "why_tests_cant": "a statement about the distribution of the outcome, with rounding, for all seeds; the benchmark never looks at its result", "anchors": ["aegir/benches/linear.rs L34-147"]}
{"id": "C85", "title": "The chain rule", "statement": "Replace a scalar variable i of an expression e by an expression n. The adjoint of the result with respect to a scalar t evaluates, entry by entry, to the adjoint of e with respect to t plus the adjoint of e with respect to i times the adjoint of n with respect to t, where the adjoints of e are evaluated with i bound to the value of n. If t is i itself, the first term is absent. If e is a scalar expression and t a variable of any shape that occurs only in n, the gradient is the gradient of n times the derivative of e. All these evaluations succeed when the variables have values.", "quantifier": "all expressions n and e without caches in which adjoints do not mention i, all identifiers, all contexts, every commutative ring (with division by multiplication, unless e has no division or logarithm)", "why_tests_cant": "relates the adjoints of three different expressions in two different contexts, for all expressions; tests compare single derivatives with numbers", "anchors": ["aegir/src/ops/arithmetic/binary.rs L132-150, L257-272, L389-404, L543-561, L626-643", "aegir/src/ops/arithmetic/unary.rs L43-51", "aegir/src/ops/linalg/mod.rs L72-86", "aegir/src/meta/variable.rs L85-93"]}
{"id": "C86", "title": "The sign of zero matters in quotients and powers only", "statement": "In IEEE 754 arithmetic with its two zeros, forgetting the sign of zeros commutes with all operations and all unary operators of the library; with division exactly unless a number that is neither zero nor NaN is divided by the negative zero, and with powers exactly unless the negative zero is raised to a negative odd integer. Hence evaluating any expression without quotients and powers, or an adjoint without them, gives the same result, errors, panics and caches as in arithmetic with a single zero, up to signs of zeros. The linear and logistic examples and benchmarks have the same runs up to signs of zeros although the logistic gradient divides, and the three linear benchmarks agree in every bit.", "quantifier": "all binary formats, expressions without quotients and powers, contexts, learning rates, weights and sequences of samples, infinities and NaN included", "why_tests_cant": "the claim concerns all states and all expressions; the two zeros compare equal, so assertions cannot tell them apart", "anchors": ["aegir/src/ops/sigmoid.rs L44-55", "aegir/src/ops/arithmetic/unary.rs", "aegir/examples/linear.rs L36-49", "aegir/examples/logistic.rs L37-52", "aegir/benches/linear.rs L52-147", "aegir/benches/logistic.rs L52-111"]}
{"id": "C87", "title": "The unsafe blocks are sound", "statement": "None of the five unsafe blocks has undefined behaviour for any input: zip_map of arrays (with arrays and scalars, of every rank) never returns an error, so the unwrap_unchecked of the rows is defined, also when the closure panics for some entries, in which case the whole panics; otherwise the result is Ok of the closure's results. The raw reads in the contractions of diagonal matrices with vectors happen only when the sizes agree, give the array that was there, and leave each element with exactly one owner. All functions with unsafe blocks compute what the safe model says.", "quantifier": "all ranks, sizes, arrays, closures (panicking ones included), specifications and scalar types", "why_tests_cant": "undefined behaviour need not show in a test, and every rank, size and closure is concerned", "anchors": ["aegir/src/buffers/arrays/zip_ops.rs L147-162", "aegir/src/buffers/arrays/zip_ops.rs L224-234", "aegir/src/buffers/arrays/contraction_ops.rs L155-165", "aegir/src/buffers/arrays/contraction_ops.rs L199-209"]}
{"id": "C88", "title": "The logistic programs hardly ever fail in double precision", "statement": "logistic.rs and the five-dimensional benchmark of benches/logistic.rs with the library's gradient, in double precision with their own rates and million iterations, on independent samples: except with probability 10^-240 they do not panic, no weight becomes infinite or NaN, and every weight is within 10^-8 of the weight that gradient ascent in exact arithmetic reaches on the same draws; the two benchmarks then agree up to 2*10^-8. In exact arithmetic the probability that ascent ever leaves a ball around the true weights falls exponentially, with an exponent proportional to the reciprocal of the rate.", "quantifier": "all distributions of samples in the unit cube, true weights in the unit cube, rates up to one thousandth, numbers of iterations up to a million", "why_tests_cant": "failures exist (C80, C83) but are so rare that no test can meet them or show how rare they are", "anchors": ["aegir/examples/logistic.rs L24-52", "aegir/benches/logistic.rs L42-86", "aegir/benches/logistic.rs L88-111"]}
{"id": "C89", "title": "The logistic programs learn in double precision", "statement": "logistic.rs and the two five-dimensional benchmarks of benches/logistic.rs, in double precision with their own rates and million iterations, on independent samples whose labels are drawn with the probabilities the program computes: the expected mean squared error of the probabilities that the weights give on a new sample, averaged over the iterations, is less than 0.00134 for the example (the bound C79 gives over exact reals) and less than 0.0008 for the benchmarks, where a run that panics or holds an infinite weight or NaN counts with error one. With any rate h up to one thousandth and any number n of iterations up to a million the average is at most 0.626/(h n) + 0.157 h + 3*10^-8.", "quantifier": "all distributions of samples in the unit cube, true weights in the unit cube, rates up to one thousandth, numbers of iterations up to a million", "why_tests_cant": "an expectation over all draws from arbitrary distributions, with every rounding error in the program included", "anchors": ["aegir/examples/logistic.rs L24-62", "aegir/benches/logistic.rs L42-86", "aegir/benches/logistic.rs L88-111"]}
{"id": "C90", "title": "NaN, and derivatives to the last bit, in IEEE arithmetic", "statement": "In IEEE arithmetic of any format an operator returns NaN exactly where it has neither a value nor a limit; sigmoid stays in [0,1], tanh, sin and cos in [-1,1], and exp, abs, square and cosh are never negative. The derivative that evaluate_adjoint returns for an operator, sum, difference, product, quotient or power of numbers at which the function is differentiable is not NaN, and for operators whose adjoint rounds once it is the exact derivative correctly rounded.", "quantifier": "all formats, operators and floating-point arguments", "why_tests_cant": "NaN arises at isolated arguments or in tiny regions (squares that underflow); all bit patterns cannot be enumerated", "anchors": ["aegir/src/ops/mod.rs L22-47", "aegir/src/ops/arithmetic/binary.rs L86-150", "aegir/src/ops/arithmetic/binary.rs L198-271", "aegir/src/ops/arithmetic/binary.rs L334-403", "aegir/src/ops/arithmetic/binary.rs L470-560", "aegir/src/ops/arithmetic/binary.rs L593-642", "aegir/src/ops/arithmetic/unary.rs", "aegir/src/ops/logarithmic.rs", "aegir/src/ops/trig.rs", "aegir/src/ops/special.rs", "aegir/src/ops/sigmoid.rs"]}
{"id": "C91", "title": "Vanishing adjoints and minima", "statement": "An expression that is affine, convex or concave by construction in some entries of its variables evaluates to an affine, convex or concave function of them. It lies on, above or below the tangent with the entries of the evaluated adjoints as slopes; a convex (concave) value whose adjoints are all zero is the smallest (largest) that any values of the entries give. Conversely, adjoints of a value that small changes cannot make smaller, or larger, are all zero. The squared error of examples/linear.rs is convex in the weights and the log-likelihood of examples/logistic.rs concave.", "quantifier": "all expressions with a certificate, contexts over the reals, sets of entries and values of them", "why_tests_cant": "speaks of all values that the entries could have", "anchors": ["aegir/src/ops", "aegir/examples/linear.rs L28-34", "aegir/examples/logistic.rs L33-35"]}
{"id": "C92", "title": "Batch gradient descent", "statement": "A program that evaluates the adjoints of an expression for each of several samples and moves entries of the variables against their sum never increases the summed value if the gradient is Lipschitz with a constant L and the steps are at most 1/L, and the squares of the gradients it meets sum to at most its decrease. If the expression is convex by construction, the value after n steps of size eta exceeds the value at any other setting of the entries by at most the squared initial distance over 2 eta n. In particular for the gradients of examples/linear.rs (least squares) and examples/logistic.rs (maximum likelihood), with explicit constants.", "quantifier": "all expressions with adjoints, batches of contexts over the reals, sets of entries, step sizes up to 1/L, numbers of steps and reference points", "why_tests_cant": "a rate for all data sets and all numbers of steps, against all weights", "anchors": ["aegir/src/lib.rs", "aegir/examples/linear.rs L28-48", "aegir/examples/logistic.rs L33-51"]}
{"id": "C93", "title": "Second adjoints, extrema and Newton's method", "statement": "For scalar expressions: where the adjoint evaluates to zero and the second adjoint to a positive (negative) number, the expression evaluates to its smallest (largest) value among nearby settings of the target; conversely at such a smallest value the adjoint is zero and the second adjoint not negative; if the second adjoint is never negative, a zero of the adjoint is a global minimum. Newton's method, which subtracts the evaluated adjoint over the evaluated second adjoint, squares the distance to a zero of the adjoint up to a constant, and from close enough converges with error q^(2^n).", "quantifier": "all twice differentiable cache-free scalar expressions, contexts over the reals, targets, starting points in the basin and numbers of steps", "why_tests_cant": "local and global extremality and quadratic convergence quantify over all settings and all steps", "anchors": ["aegir/src/lib.rs L184-201", "aegir/src/meta/variable.rs L80-234", "aegir/src/ops/arithmetic/binary.rs", "aegir/src/ops/arithmetic/unary.rs"]}
{"id": "C94", "title": "Adjoints bound how values change", "statement": "For finite changes of any entries of any variables, an entry of the value changes by the sum of the adjoints' entries, evaluated at some setting in between, times the changes. Hence bounds on the evaluated adjoints bound the change of the value, signs of the adjoints give monotonicity, and on an open convex set of settings all adjoints evaluate to zero exactly if the value is the same everywhere. For scalar expressions, value and adjoint predict the value elsewhere up to half the second adjoint in between times the squared distance.", "quantifier": "all cache-free expressions with adjoints (arrays included), contexts over the reals, finite sets of entries, convex sets of settings and pairs of settings", "why_tests_cant": "inequalities between values at all pairs of settings of any number of variables", "anchors": ["aegir/src/lib.rs L184-201", "aegir/src/meta/variable.rs L80-234", "aegir/src/ops/arithmetic/binary.rs", "aegir/src/ops/arithmetic/unary.rs"]}
{"id": "C95", "title": "Algebraic laws, and adjoints depend on values alone", "statement": "Expressions that the laws of commutative rings turn into each other (commutativity, associativity and distributivity of addition and multiplication with broadcasting, negation and subtraction, double, square, one-more, one-less, one-minus and rabbit as sums and products, linearity of sums and of contractions of any rank, symmetry of dot products; applied anywhere in an expression) evaluate to arrays of the same extents and entries. If two expressions have the same values near the present setting of a variable's entry, then the corresponding entries of their adjoints are equal, however the expressions are written; expressions equal by laws have adjoints with the same values.", "quantifier": "all pairs of cache-free expressions, types, contexts and commutative rings (values); all real contexts (adjoints)", "why_tests_cant": "all pairs of ways to write an expression, of unbounded size, at all settings", "anchors": ["aegir/src/ops/arithmetic/binary.rs", "aegir/src/ops/arithmetic/unary.rs", "aegir/src/ops/linalg/mod.rs", "aegir/src/ops/special.rs", "aegir/src/lib.rs L184-201"]}
{"id": "C96", "title": "Hessians made of second adjoints", "statement": "The second adjoints with respect to all pairs of entries of some variables make up the Hessian of the value. Taylor's theorem: the value at another setting is what value and adjoints predict, up to half the quadratic form of the second adjoints evaluated somewhere in between. Where they form positive semidefinite matrices, values lie above the tangents, so that a setting with vanishing adjoints has the smallest value; where positive definite, there is at most one such setting. At a smallest value the adjoints vanish and the second adjoints are positive semidefinite. If the quadratic form is bounded by L, a step of gradient descent at rate eta lowers the value by at least eta (1 - L eta / 2) times the squared length of the gradient.", "quantifier": "all cache-free expressions with second adjoints (arrays included), contexts over the reals, finite sets of entries, convex (open, for the necessary condition) sets of settings", "why_tests_cant": "statements about all settings, in any number of variables, of what two generations of derived expressions evaluate to", "anchors": ["aegir/src/lib.rs L184-201", "aegir/src/meta/variable.rs L80-234", "aegir/src/ops/arithmetic/binary.rs", "aegir/src/ops/arithmetic/unary.rs"]}
