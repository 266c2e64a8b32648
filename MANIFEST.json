{
 "claims": [
  {
   "property": "C01",
   "status": "proved",
   "theorems": [
    "Aegir.Props.C01_contains_iff",
    "Aegir.Props.C01_indices_rowMajor",
    "Aegir.Props.C01_indices_exact",
    "Aegir.Props.C01_cardinality",
    "Aegir.Props.C01_rowMajor_unique",
    "Aegir.Props.C01_equivalent",
    "Aegir.Props.C01_dim"
   ],
   "note": "All fixed shapes (any rank and extents): contains, indices and cardinality against the independent InBounds/lexicographic specification, including uniqueness of the enumeration."
  },
  {
   "property": "C02",
   "status": "partial",
   "theorems": [
    "Aegir.Props.C02_iterator_exact_partial",
    "Aegir.Props.C02_never_panics",
    "Aegir.Props.C02_dim0_violation"
   ],
   "note": "Proved for every runtime shape with DIM >= 1 and every number of next() calls, plus panic freedom. DIM = 0 is violated by the code (C02_dim0_violation): one index exists, none is yielded."
  },
  {
   "property": "C03",
   "status": "proved",
   "theorems": [
    "Aegir.Props.C03_count_remaining",
    "Aegir.Props.C03_sizeHint_exact",
    "Aegir.Props.C03_sizeHint_brackets",
    "Aegir.Props.C03_hint_arithmetic",
    "Aegir.Props.C03_hint_sharp"
   ],
   "note": "Every state of an iteration up to its None; size_hint is characterised exactly in every state and for every word size. After exhaustion see C04."
  },
  {
   "property": "C04",
   "status": "partial",
   "theorems": [
    "Aegir.Props.C04_fused_partial",
    "Aegir.Props.C04_periodic",
    "Aegir.Props.C04_restarts"
   ],
   "note": "The code violates the property for every non-empty shape (C04_restarts, C04_periodic give the exact behaviour); it holds for shapes with a zero extent (C04_fused_partial)."
  },
  {
   "property": "C05",
   "status": "proved",
   "theorems": [
    "Aegir.Props.C05_contains_concat",
    "Aegir.Props.C05_cardinality_concat",
    "Aegir.Props.C05_indices_concat",
    "Aegir.Props.C05_concatIndices_injective",
    "Aegir.Props.C05_split_concat",
    "Aegir.Props.C05_splitIndex_concat",
    "Aegir.Props.C05_concat_split",
    "Aegir.Props.C05_contains_split",
    "Aegir.Props.C05_concat_impls",
    "Aegir.Props.C05_concat_assoc"
   ],
   "note": "All shapes; the impl table bounds (rank <= 6) are a special case."
  },
  {
   "property": "C06",
   "status": "proved",
   "theorems": [
    "Aegir.Props.C06_broadcast_sound",
    "Aegir.Props.C06_scalar_unit",
    "Aegir.Props.C06_idempotent",
    "Aegir.Props.C06_dynamic",
    "Aegir.Props.C06_error_only_dynamic",
    "Aegir.Props.C06_comm",
    "Aegir.Props.C06_reverse_involutive"
   ],
   "note": "All Broadcast impls, fixed and runtime."
  },
  {
   "property": "C07",
   "status": "proved",
   "theorems": [
    "Aegir.Props.C07_shape_build",
    "Aegir.Props.C07_get_build",
    "Aegir.Props.C07_get_total",
    "Aegir.Props.C07_get_unchecked",
    "Aegir.Props.C07_ext",
    "Aegir.Props.C07_build_get",
    "Aegir.Props.C07_special_builders",
    "Aegir.Props.C07_special_shapes"
   ],
   "note": "All buffer types (scalar, tuple, Vec, arrays of every rank); includes full/zeroes/ones/diagonal/identity and extensionality."
  },
  {
   "property": "C08",
   "status": "proved",
   "theorems": [
    "Aegir.Props.C08_build_subset",
    "Aegir.Props.C08_out_of_range_panics",
    "Aegir.Props.C08_tuple_ignores"
   ],
   "note": "All buffer types, any index order and repetitions; out-of-range panics for arrays and Vec, is ignored for tuples (both proved)."
  },
  {
   "property": "C09",
   "status": "proved",
   "theorems": [
    "Aegir.Props.C09_map_pointwise",
    "Aegir.Props.C09_mapRef_eq_map",
    "Aegir.Props.C09_mutate_eq_map",
    "Aegir.Props.C09_mapRef_default",
    "Aegir.Props.C09_map_functor"
   ],
   "note": "All buffer types and functions, the in-place loops included."
  },
  {
   "property": "C10",
   "status": "proved",
   "theorems": [
    "Aegir.Props.C10_fold_rowMajor",
    "Aegir.Props.C10_entries_unique",
    "Aegir.Props.C10_default_fold",
    "Aegir.Props.C10_sum"
   ],
   "note": "All buffer types; also the trait's default body."
  },
  {
   "property": "C11",
   "status": "partial",
   "theorems": [
    "Aegir.Props.C11_zip_pointwise_partial",
    "Aegir.Props.C11_zip_ok_iff",
    "Aegir.Props.C11_zip_error",
    "Aegir.Props.C11_zip_unique",
    "Aegir.Props.C11_violation",
    "Aegir.Props.C11_violation_witness"
   ],
   "note": "The code swaps the operands for a scalar on the left of an array of rank >= 2 (C11_violation, C11_violation_witness); C11_zip_pointwise_partial covers every other impl and every symmetric function."
  },
  {
   "property": "C12",
   "status": "proved",
   "theorems": [
    "Aegir.Props.C12_zipMapId",
    "Aegir.Props.C12_zipMut",
    "Aegir.Props.C12_zipFold",
    "Aegir.Props.C12_zipShape_entries",
    "Aegir.Props.C12_zipShape",
    "Aegir.Props.C12_broadcast"
   ],
   "note": "All impls of zip_map_id, zip_mut, zip_fold, zip_shape and Broadcast."
  },
  {
   "property": "C13",
   "status": "partial",
   "theorems": [
    "Aegir.Props.C13_shape",
    "Aegir.Props.C13_unwrap_entries",
    "Aegir.Props.C13_map",
    "Aegir.Props.C13_zip_partial",
    "Aegir.Props.C13_zip_violation"
   ],
   "note": "shape/unwrap/map hold in full. zip_map holds except scalar-with-array of rank >= 2 on Full/Full with a non-symmetric function, where dense and Spec zips disagree (C13_zip_violation, consequence of C11)."
  },
  {
   "property": "C14",
   "status": "proved",
   "theorems": [
    "Aegir.Props.C14_contract_spec",
    "Aegir.Props.C14_no_error",
    "Aegir.Props.C14_nan_caveat"
   ],
   "note": "All 11 impls, all Spec variants, every commutative semiring. C14_nan_caveat shows the algebraic laws are needed."
  },
  {
   "property": "C15",
   "status": "partial",
   "theorems": [
    "Aegir.Props.C15_contract_partial",
    "Aegir.Props.C15_panics_iff",
    "Aegir.Props.C15_vm_truncates",
    "Aegir.Props.C15_vm_violation",
    "Aegir.Props.C15_mv_violation",
    "Aegir.Props.C15_mv_ill_typed"
   ],
   "note": "Violated by the code for non-square matrices (C15_vm_violation truncates, C15_mv_violation panics; C15_panics_iff is exact). C15_contract_partial covers all other cases."
  },
  {
   "property": "C16",
   "status": "proved",
   "theorems": [
    "Aegir.Props.C16_contract_shape",
    "Aegir.Props.C16_extents",
    "Aegir.Props.C16_lookup"
   ],
   "note": "All impls. C16_extents assumes a square matrix in the matrix-vector case, where the accepted types are otherwise not contractible."
  },
  {
   "property": "C17",
   "status": "proved",
   "theorems": [
    "Aegir.Props.C17_evaluate_eq_spec_unwrap",
    "Aegir.Props.C17_evaluate_eq_spec_unwrap_no_laws"
   ],
   "note": "All nodes, all derivations and all contexts: outcome and final context of evaluate equal those of evaluate_spec followed by unwrap, over every commutative ring with a faithful is_zero/from_usize; a second theorem needs no scalar laws when no Sum of a compressed buffer occurs."
  },
  {
   "property": "C18",
   "status": "partial",
   "theorems": [
    "Aegir.Props.C18_shape_partial",
    "Aegir.Props.C18_shape_of_spec_partial",
    "Aegir.Props.C18_shape_cache_free_partial",
    "Aegir.Props.C18_violation_error",
    "Aegir.Props.C18_violation_shape"
   ],
   "note": "Holds for successful evaluations of cache-free or Sum/Power-free trees (C18_shape_partial, C18_shape_of_spec_partial, C18_shape_cache_free_partial). Violated in general: Power and Sum report a shape although evaluation fails (C18_violation_error) and do not fill caches (C18_violation_shape)."
  },
  {
   "property": "C19",
   "status": "partial",
   "theorems": [
    "Aegir.Props.C19_value_partial",
    "Aegir.Props.C19_spec_shape_partial",
    "Aegir.Props.C19_value_cache_free_partial",
    "Aegir.Props.C19_violation_power",
    "Aegir.Props.C19_violation_sub",
    "Aegir.Props.C19_violation_div",
    "Aegir.Props.C19_violation_vm"
   ],
   "note": "All nodes, all contexts, every commutative ring with lawful is_zero/from_usize/==/powf shortcuts: evaluate, evaluate_spec and evaluate_shape agree with the tensor semantics `den`. Missing because the code violates the claim there: Power with compressed zero base (C19_violation_power), scalar minus / divided by an array of rank >= 2 (C19_violation_sub, C19_violation_div), non-square vector-matrix / matrix-vector products (C19_violation_vm, C15)."
  },
  {
   "property": "C20",
   "status": "proved",
   "theorems": [
    "Aegir.C20_left",
    "Aegir.C20_left_shape",
    "Aegir.C20_right",
    "Aegir.C20_right_shape",
    "Aegir.C20_output",
    "Aegir.C20_undefined",
    "Aegir.C20_defined",
    "Aegir.C20_unary",
    "Aegir.C20_sum",
    "Aegir.C20_trace",
    "Aegir.C20_trace_subexpr"
   ],
   "note": "All binary operators, all contexts, evaluate and evaluate_spec, no arithmetic laws (evaluate_shape too except Power, whose shape is constant); plus a whole-tree trace theorem: every reported error leads along its Left/Right tags to a subexpression whose own error is legitimate. C20_right and C20_output assume from_usize is total."
  },
  {
   "property": "C21",
   "status": "partial",
   "theorems": [
    "Aegir.C21_total_partial",
    "Aegir.C21_violation"
   ],
   "note": "Holds when every matrix-vector product has at least as many rows as columns and from_usize is total (C21_total_partial). Violated otherwise: C21_violation (1x2 matrix times 1-vector panics)."
  },
  {
   "property": "C22",
   "status": "partial",
   "theorems": [
    "Aegir.C22_shape",
    "Aegir.C22_div",
    "Aegir.C22_mismatch_partial",
    "Aegir.C22_violation"
   ],
   "note": "evaluate_shape and Div report the mismatch (C22_shape, C22_div). Add, Sub and Mul never return a value but panic on their general arm: C22_violation for every pair of Vec variables of different lengths; C22_mismatch_partial says on which arms they report."
  },
  {
   "property": "C23",
   "status": "proved",
   "theorems": [
    "Aegir.C23_only_caches",
    "Aegir.C23_no_overwrite",
    "Aegir.C23_no_caches"
   ],
   "note": "All expressions, all contexts, all three methods, every outcome."
  },
  {
   "property": "C24",
   "status": "proved",
   "theorems": [
    "Aegir.C24_local",
    "Aegir.C24_local_ctx"
   ],
   "note": "All expressions and pairs of contexts, all three methods, including the contexts left behind."
  },
  {
   "property": "C25",
   "status": "proved",
   "theorems": [
    "Aegir.C25_contains_iff",
    "Aegir.C25_adjoint",
    "Aegir.C25_adjoint_occurs"
   ],
   "note": "All expressions, identifiers and targets; the adjoint's identifiers are characterised exactly."
  },
  {
   "property": "C26",
   "status": "partial",
   "theorems": [
    "Aegir.Props.C26_transparent_partial",
    "Aegir.Props.C26_transparent_spec_partial",
    "Aegir.Props.C26_history_partial",
    "Aegir.Props.C26_empty",
    "Aegir.Props.C26_violation_power",
    "Aegir.Props.C26_violation_sub",
    "Aegir.Props.C26_violation_error"
   ],
   "note": "Holds for successful evaluation of expressions in which no operator tells compressed from explicit operands (CacheSafe), along arbitrary histories of evaluations and assignments. Violated for Power with a compressed zero base, scalar minus an array of rank >= 2, and failures may differ in kind (C26_violation_power, C26_violation_sub, C26_violation_error)."
  },
  {
   "property": "C27",
   "status": "proved",
   "theorems": [
    "Aegir.C27_hit",
    "Aegir.C27_miss",
    "Aegir.C27_failure",
    "Aegir.C27_failure_entry",
    "Aegir.C27_step_keeps",
    "Aegir.C27_first_value_wins",
    "Aegir.C27_idempotent",
    "Aegir.C27_repeatable"
   ],
   "note": "All expressions; histories are arbitrary interleavings of evaluations (any expression, any method) and assignments/clearings. C27_failure_entry assumes the inner node has no cache of the same name."
  },
  {
   "property": "C28",
   "status": "partial",
   "theorems": [
    "Aegir.Props.C28_along_self",
    "Aegir.Props.C28_evaluable_partial",
    "Aegir.Props.C28_scalar_partial",
    "Aegir.Props.C28_violation_cached"
   ],
   "note": "Over exact real arithmetic: all scalar expressions without Cached nodes, all contexts where the operators are differentiable: the adjoint evaluates and its value is the derivative (HasDerivAt) of the function that evaluating the expression computes. Missing: Cached nodes, for which the code violates the claim (C28_violation_cached)."
  },
  {
   "property": "C29",
   "status": "proved",
   "theorems": [
    "Aegir.Props.C29_gradient",
    "Aegir.Props.C29_array_target",
    "Aegir.Props.C29_matrix_not_evaluable",
    "Aegir.Props.C29_limit_not_affine"
   ],
   "note": "Over exact real arithmetic: all scalar-valued expressions (no Cached, no Sum) over scalars and vectors of any one length in which the left factor of each dot product is affine in the target; the right factor may be anything. C29_array_target covers operands of other types. Beyond the statement: without affinity the code is wrong (C29_limit_not_affine), and matrix-vector products have no evaluable adjoint (C29_matrix_not_evaluable)."
  },
  {
   "property": "C30",
   "status": "partial",
   "theorems": [
    "Aegir.Props.C30_tensor_partial"
   ],
   "note": "Over exact real arithmetic: all tensor expressions without Cached and Sum nodes, outside the irregular forms for which evaluation itself is wrong (C19); the adjoint has the value's type and shape and the derivatives as entries."
  },
  {
   "property": "C31",
   "status": "partial",
   "theorems": [
    "Aegir.Props.C31_unreduced_partial",
    "Aegir.Props.C31_scalar_partial",
    "Aegir.Props.C31_violation"
   ],
   "note": "Violated by the code: the adjoint of Sum is the unreduced adjoint of the operand (C31_violation: wrong shape). Proved for scalar operands (C31_scalar_partial); in general, reducing the code's result over the operand's axes gives the derivative (C31_unreduced_partial)."
  },
  {
   "property": "C32",
   "status": "partial",
   "theorems": [
    "Aegir.Props.C32_axis_order_partial",
    "Aegir.Props.C32_violation"
   ],
   "note": "Violated by the code when the target is an array, occurs in the left factor and the right factor is not a scalar (C32_violation: the transposed Jacobian). Proved in all other cases (C32_axis_order_partial)."
  },
  {
   "property": "C33",
   "status": "proved",
   "theorems": [
    "Aegir.Props.C33_zero",
    "Aegir.Props.C33_zero_spec",
    "Aegir.Props.C33_nan_caveat"
   ],
   "note": "All nodes, types, contexts and targets, evaluate and evaluate_spec, every commutative ring whose division satisfies 0 / x = 0 for nonzero x; the denominators occurring in the adjoint are assumed nonzero, as in the statement (C33_nan_caveat shows why)."
  },
  {
   "property": "C34",
   "status": "proved",
   "theorems": [
    "Aegir.Props.C34_identity",
    "Aegir.Props.C34_zero",
    "Aegir.Props.C34_shape",
    "Aegir.Props.C34_left",
    "Aegir.Props.C34_right",
    "Aegir.Props.C34_constant"
   ],
   "note": "All buffer types with an adjoint, all contexts, all three methods, undefined identifiers included; no arithmetic laws."
  },
  {
   "property": "C35",
   "status": "proved",
   "theorems": [
    "Aegir.Props.C35_ok_iff",
    "Aegir.Props.C35_err_iff",
    "Aegir.Props.C35_cache_free",
    "Aegir.Props.C35_cached_caveat"
   ],
   "note": "All expressions and contexts; no arithmetic laws. evaluate_dual is shown to be the value evaluation followed by the adjoint evaluation in the context it leaves; for cache-free trees both are taken in the given context (C35_cache_free). C35_cached_caveat shows caches make the order observable."
  },
  {
   "property": "C36",
   "status": "partial",
   "theorems": [
    "Aegir.Props.C36_first_exists",
    "Aegir.Props.C36_second_exists",
    "Aegir.Props.C36_second_derivative_partial",
    "Aegir.Props.C36_second_partials_partial",
    "Aegir.Props.C36_violation_third",
    "Aegir.Props.C36_violation_second",
    "Aegir.Props.C36_violation_hessian"
   ],
   "note": "Violated by the code: nothing can be differentiated three times (C36_violation_third), and expressions with constants, sign, gamma or loggamma not twice (C36_violation_second), and the second adjoint of an inner product with respect to one of the vectors has no impl, so the Hessian of the linear regression example cannot be evaluated (C36_violation_hessian). Exact characterisation of the expressions with first and second adjoints (C36_first_exists, C36_second_exists), and second adjoints evaluate to second derivatives (C36_second_derivative_partial, C36_second_partials_partial)."
  },
  {
   "property": "C37",
   "status": "partial",
   "theorems": [
    "Aegir.C37_sound_partial",
    "Aegir.C37_violation_erf",
    "Aegir.C37_violation_digamma",
    "Aegir.C37_violation_power",
    "Aegir.C37_violation_arrays",
    "Aegir.C37_text"
   ],
   "note": "All cache-free scalar expressions: an expression rendered as symbolic 0 or 1 evaluates to that number, over any lawful field, outside the cases in which the code violates the claim: Erf of a symbolic 0 or 1, DiGamma of a symbolic 1, powers with symbolic-zero base or exponent, and arrays (C37_violation_*)."
  },
  {
   "property": "C38",
   "status": "partial",
   "theorems": [
    "Aegir.C38_injective_partial",
    "Aegir.C38_violation_addOne",
    "Aegir.C38_violation_power",
    "Aegir.C38_violation_negate",
    "Aegir.C38_violation_asin",
    "Aegir.C38_violation_empty"
   ],
   "note": "Injective on the fragment Readable, by a parser that inverts the printer. Violated outside it: AddOne/OneSub against explicit sums, nested powers, negated powers, arcsin/arccos, and empty texts (C38_violation_*)."
  },
  {
   "property": "C39",
   "status": "proved",
   "theorems": [
    "Aegir.C39_polynomial",
    "Aegir.C39_directional",
    "Aegir.C39_constants",
    "Aegir.C39_init",
    "Aegir.C39_conj_conj",
    "Aegir.C39_conj_run",
    "Aegir.C39_mul_conj",
    "Aegir.C39_real"
   ],
   "note": "All programs over the Dual operators with any number of inputs, over every commutative ring (formal derivative of the denoted polynomial) and over the reals (HasDerivAt along curves); products with plain values are C40. variable, constant and conj for all buffer types."
  },
  {
   "property": "C40",
   "status": "partial",
   "theorems": [
    "Aegir.C40_add_sub",
    "Aegir.C40_refs",
    "Aegir.C40_mul_partial",
    "Aegir.C40_mul_only",
    "Aegir.C40_violation_mul"
   ],
   "note": "Addition and subtraction proved, owned and borrowed. Violated by the code for products: Dual * V leaves the adjoint unscaled (C40_violation_mul); C40_mul_partial says exactly when the product is right."
  },
  {
   "property": "C41",
   "status": "partial",
   "theorems": [
    "Aegir.C41_fails_iff",
    "Aegir.C41_in_place",
    "Aegir.C41_complete",
    "Aegir.C41_node",
    "Aegir.C41_tokens_partial",
    "Aegir.C41_expansion",
    "Aegir.C41_violation_prefix",
    "Aegir.C41_meaning",
    "Aegir.C41_literals",
    "Aegir.C41_violation_int"
   ],
   "note": "All source expressions: the expansion fails exactly on operators other than + - * ^ (C41_fails_iff); other forms are left in place and nothing special survives (C41_in_place, C41_complete); arithmetic expressions become the node they stand for, through the printed tokens and Rust's reading of them (C41_expansion), and for numbers that node evaluates to the denoted value (C41_meaning). Violated for prefix operators in operands: the expansion is printed without parentheses, so -x - y becomes -(x.sub(y)) (C41_violation_prefix); C41_tokens_partial covers the rest. Violated for integer literals other than a square's exponent in expressions over floats: they become constants of type i64, and no impl mixes types (C41_literals, C41_violation_int). Missing: tokens of forms other than names, literals, brackets, prefix operators and method calls; syn's parsing of the input."
  },
  {
   "property": "C42",
   "status": "proved",
   "theorems": [
    "Aegir.C42_read_write",
    "Aegir.C42_frame",
    "Aegir.C42_independent",
    "Aegir.C42_reads_agree",
    "Aegir.C42_plain_some",
    "Aegir.C42_none_iff",
    "Aegir.C42_history_unwritten",
    "Aegir.C42_history_written",
    "Aegir.C42_refines"
   ],
   "note": "All derived structs with distinct identifiers, all states, all histories of write and write_spec; C42_refines connects them to the abstract store used by the evaluation model."
  },
  {
   "property": "C43",
   "status": "partial",
   "theorems": [
    "Aegir.C43_verdict_partial",
    "Aegir.C43_accepts_iff_partial",
    "Aegir.C43_order",
    "Aegir.C43_cache_type",
    "Aegir.C43_violation_cache",
    "Aegir.C43_violation_prefix",
    "Aegir.C43_violation_id_path",
    "Aegir.C43_accessors",
    "Aegir.C43_accessor_iff",
    "Aegir.C43_ctx_type"
   ],
   "note": "Outcome of parsing a field is characterised exactly for fields without #[id(a::b)] and with Option< only in front of path types; outside that the code panics or accepts a wrong type (C43_violation_*). Accessors and ctx_type! fields are characterised without restriction."
  },
  {
   "property": "C44",
   "status": "partial",
   "theorems": [
    "Aegir.C44_parse",
    "Aegir.C44_eq",
    "Aegir.C44_coherent",
    "Aegir.C44_foreign",
    "Aegir.C44_display_partial",
    "Aegir.C44_violation_name",
    "Aegir.C44_violation_alike",
    "Aegir.C44_violation_braces",
    "Aegir.C44_builtin",
    "Aegir.C44_letters",
    "Aegir.C44_greek_caveat"
   ],
   "note": "Equality, coherence of the generated impls, parsing and the built-in identifiers are proved in full. Display is right exactly for symbols without braces; identifiers without symbol all display type_id (C44_violation_*)."
  },
  {
   "property": "C45",
   "status": "proved",
   "theorems": [
    "Aegir.C45_entrywise",
    "Aegir.C45_compose",
    "Aegir.C45_entry",
    "Aegir.C45_sigmoid",
    "Aegir.C45_sigmoid_range",
    "Aegir.C45_square",
    "Aegir.C45_double",
    "Aegir.C45_xlnx",
    "Aegir.C45_arithmetic",
    "Aegir.C45_factorial",
    "Aegir.C45_erfc",
    "Aegir.C45_abs_sign",
    "Aegir.C45_spelled"
   ],
   "note": "Over exact real arithmetic: every named unary function applied entrywise computes its mathematical function (Sigmoid, XLnX, Square, Double, factorial through the gamma function, erfc, abs, sign), for all nodes, types and contexts; and the library's spellings of one function agree (C45_spelled)."
  },
  {
   "property": "C46",
   "status": "partial",
   "theorems": [
    "Aegir.C46_idempotent",
    "Aegir.C46_unit",
    "Aegir.C46_selects",
    "Aegir.C46_assoc",
    "Aegir.C46_comm_partial",
    "Aegir.C46_violation_comm",
    "Aegir.C46_concat_rank",
    "Aegir.C46_buffer",
    "Aegir.C46_adjoint_types",
    "Aegir.C46_no_vec",
    "Aegir.C46_adjoint_class_comm"
   ],
   "note": "All buffer classes and shapes: idempotent, unit, selects one operand, associative; commutative except for the pair Arrays/Vecs (C46_comm_partial, C46_violation_comm). Adjoint types are characterised exactly and no adjoint type involves Vecs."
  },
  {
   "property": "C47",
   "status": "proved",
   "theorems": [
    "Aegir.C47_named",
    "Aegir.C47_dirac",
    "Aegir.C47_sign",
    "Aegir.C47_inverse"
   ],
   "note": "Over exact real arithmetic, all nodes, types and contexts: 17 operators compute the functions they are named after (C47_named), 18 inverse pairs cancel on their domains (C47_inverse). Dirac and Sign are characterised over every scalar type."
  },
  {
   "property": "C48",
   "status": "proved",
   "theorems": [
    "Aegir.C48_type",
    "Aegir.C48_unique",
    "Aegir.C48_coherent",
    "Aegir.C48_resolve",
    "Aegir.C48_run",
    "Aegir.C48_runs"
   ],
   "note": "All expressions and all type assignments: an impl exists exactly for the types computed by the bottom-up rules (C48_type), and it is unique (C48_unique, C48_coherent). The lookup as a function finds it (C48_resolve), and running an expression, its specification, adjoint or dual compiles and yields what the derivation yields (C48_run, C48_runs)."
  },
  {
   "property": "C49",
   "status": "partial",
   "theorems": [
    "Aegir.C49_agree_partial",
    "Aegir.C49_violation_mulV"
   ],
   "note": "All programs, contexts, targets and commutative rings with lawful zero test: expression and dual computation agree in value and adjoint (C49_agree_partial). Violated for Dual * V, whose adjoint is not scaled (C49_violation_mulV)."
  },
  {
   "property": "C50",
   "status": "partial",
   "theorems": [
    "Aegir.C50_expands_iff",
    "Aegir.C50_header",
    "Aegir.C50_params",
    "Aegir.C50_contains_partial",
    "Aegir.C50_nodes",
    "Aegir.C50_violation_unmarked",
    "Aegir.C50_violation_empty",
    "Aegir.C50_violation_param"
   ],
   "note": "All inputs: when the macro succeeds and otherwise panics (C50_expands_iff), header and bounds (C50_header), meaning of the generated predicate for structs with at least one field (C50_contains_partial). Violated: unmarked fields are not skipped but panic, a struct without fields gets an empty body, a parameter named I is declared twice (C50_violation_*)."
  },
  {
   "property": "C51",
   "status": "partial",
   "theorems": [
    "Aegir.C51_expands",
    "Aegir.C51_accepted_iff",
    "Aegir.C51_read_partial",
    "Aegir.C51_violation_case"
   ],
   "note": "All keys and values: expansion (C51_expands), exact condition for acceptance (C51_accepted_iff), reads (C51_read_partial). Violated for identifiers that differ in case only (C51_violation_case)."
  },
  {
   "property": "C52",
   "status": "partial",
   "theorems": [
    "Aegir.C52_type",
    "Aegir.C52_contains",
    "Aegir.C52_subst_partial",
    "Aegir.C52_cached_partial",
    "Aegir.C52_violation"
   ],
   "note": "All expressions, replacements, contexts and values: replacing a variable by an expression agrees with binding the variable to its value (C52_subst_partial), also with Cached nodes whose caches hold the right values (C52_cached_partial); substitution preserves types (C52_type) and identifiers (C52_contains). Missing: adjoints that mention the variable, and the operators that treat compressed operands differently, for which the code violates the claim (C52_violation)."
  },
  {
   "property": "C53",
   "status": "proved",
   "theorems": [
    "Aegir.Examples.C53_adjoint",
    "Aegir.Examples.C53_gradient",
    "Aegir.Examples.C53_step",
    "Aegir.Examples.C53_run",
    "Aegir.Examples.C53_distance",
    "Aegir.Examples.C53_loss",
    "Aegir.Examples.C53_program"
   ],
   "note": "All runs, samples and states over the reals: the evaluated adjoint is the gradient (C53_gradient), a step is gradient descent (C53_step, C53_run), the exact change of distance (C53_distance), the loss bound (C53_loss) and the program with its constants (C53_program). The random draws are inputs; real instead of floating-point arithmetic."
  },
  {
   "property": "C54",
   "status": "proved",
   "theorems": [
    "Aegir.Examples.C54_adjoint",
    "Aegir.Examples.C54_gen_bool_iff",
    "Aegir.Examples.C54_gen_bool",
    "Aegir.Examples.C54_likelihood",
    "Aegir.Examples.C54_gradient",
    "Aegir.Examples.C54_initial",
    "Aegir.Examples.C54_step",
    "Aegir.Examples.C54_run",
    "Aegir.Examples.C54_ascent",
    "Aegir.Examples.C54_likelihood_increases",
    "Aegir.Examples.C54_regret",
    "Aegir.Examples.C54_program"
   ],
   "note": "All runs and draws over the reals: no panic in gen_bool (C54_gen_bool) or evaluate (C54_step, C54_run), the gradient (C54_gradient), the likelihood (C54_likelihood) and its growth in each step (C54_ascent, C54_likelihood_increases), the regret against any fixed weights (C54_regret) and the program with its own constants and initial context (C54_program). The random draws are inputs; real instead of floating-point arithmetic."
  },
  {
   "property": "C55",
   "status": "proved",
   "theorems": [
    "Aegir.Examples.C55_basic",
    "Aegir.Examples.C55_plain",
    "Aegir.Examples.C55_cached",
    "Aegir.Examples.C55_reuse"
   ],
   "note": "All vectors over any commutative ring with lawful scalars: both values (C55_plain, C55_cached), the cache afterwards, and independence of the vector once the cache is filled (C55_reuse). Times are not modelled."
  },
  {
   "property": "C56",
   "status": "partial",
   "theorems": [
    "Aegir.C56_meaning_partial",
    "Aegir.C56_display_partial",
    "Aegir.C56_denotation_partial",
    "Aegir.C56_violation_exp",
    "Aegir.C56_violation_div",
    "Aegir.C56_violation_power",
    "Aegir.C56_violation_sinh",
    "Aegir.C56_violation_addOne",
    "Aegir.C56_limits",
    "Aegir.C56_imaginary",
    "Aegir.C56_violation_digamma",
    "Aegir.C56_violation_quotient"
   ],
   "note": "All scalar expressions, contexts and ways of printing names and numbers, over exact reals: symbolic form and Display are notations for the value (C56_meaning_partial, C56_display_partial, C56_denotation_partial), and printed infinities are limits (C56_limits), outside of what Clear and ClearDisplay exclude. Violated there: doubled operands in exponents and denominators lose their brackets, sinh(1), 1 + x and asin print another function, digamma and quotients print an infinity of the wrong sign (C56_violation_*; asin, erf and the empty text in C37/C38). Not covered: arrays."
  },
  {
   "property": "C57",
   "status": "proved",
   "theorems": [
    "Aegir.Props.C57_value",
    "Aegir.Props.C57_derivative",
    "Aegir.Props.C57_gradient",
    "Aegir.Props.C57_increment",
    "Aegir.Props.C57_extensional",
    "Aegir.Props.C57_symmetric"
   ],
   "note": "Scalars in any commutative ring whose zero test is right, whose conversion from counts is the usual one and whose square is a product. The relation IsPoly between expressions and polynomials is the specification; C57_value ties it to evaluation. Cached nodes and arrays are not polynomial expressions (arrays over the reals: C29)."
  },
  {
   "property": "C58",
   "status": "proved",
   "theorems": [
    "Aegir.Benches.C58_linear_gradient",
    "Aegir.Benches.C58_linear",
    "Aegir.Benches.C58_linear_descent",
    "Aegir.Benches.C58_raw_panics",
    "Aegir.Benches.C58_logistic_gradient",
    "Aegir.Benches.C58_logistic",
    "Aegir.Benches.C58_logistic_caveat"
   ],
   "note": "Exact reals; the random draws, the learning rates and the table of true weights are inputs. For labels other than zero and one, which the benchmark never draws, the two logistic gradients differ (C58_logistic_caveat)."
  },
  {
   "property": "C59",
   "status": "proved",
   "theorems": [
    "Aegir.C59_shapes",
    "Aegir.C59_mismatch",
    "Aegir.C59_broadcast",
    "Aegir.C59_cause",
    "Aegir.C59_same",
    "Aegir.C59_unique",
    "Aegir.C59_first",
    "Aegir.C59_first_spec",
    "Aegir.C59_first_shape",
    "Aegir.C59_some_first",
    "Aegir.C59_reads_needed",
    "Aegir.C59_position_caveat"
   ],
   "note": "All expressions (caches included) for the cause (C59_cause); all shapes for the texts (C59_shapes, C59_mismatch). The order of look-ups (C59_first, C59_first_spec, C59_first_shape) is for expressions without Cached and Vec and with in-range matrix-vector products (C15), since those may panic or write. Messages do not say where in the expression the error arose (C59_position_caveat). A formatter that refuses writes is not modelled."
  },
  {
   "property": "C60",
   "status": "partial",
   "theorems": [
    "Aegir.C60_evaluate",
    "Aegir.C60_invariant",
    "Aegir.C60_default",
    "Aegir.C60_derived_lawful",
    "Aegir.C60_derived",
    "Aegir.C60_derived_frame",
    "Aegir.C60_history",
    "Aegir.C60_derivative_partial",
    "Aegir.C60_spec_caveat",
    "Aegir.C60_write_caveat"
   ],
   "note": "All lawful context types, all expressions, caches included (C60_evaluate, C60_history, C60_invariant); derived structs are lawful (C60_derived_lawful, C60_derived, C60_derived_frame). Partial only in the derivative: Cached nodes are excluded (C28_violation_cached). The specification law must say that read_spec returns Raw: a compressed read_spec with the right value changes 0^0 (C60_spec_caveat), and lost writes lose caches (C60_write_caveat)."
  },
  {
   "property": "C61",
   "status": "proved",
   "theorems": [
    "Aegir.Props.C61_error",
    "Aegir.Props.C61_spec",
    "Aegir.Props.C61_gamma",
    "Aegir.Props.C61_exact",
    "Aegir.Props.C61_relative",
    "Aegir.Props.C61_derivative",
    "Aegir.Props.C61_convergence",
    "Aegir.Props.C61_dot",
    "Aegir.Props.C61_cancellation_caveat",
    "Aegir.Props.C61_double"
   ],
   "note": "All scalar types satisfying the standard model of rounding (relative error u per operation, exact zero, one and negation), all ring expressions and contexts (C61_error, C61_spec, C61_exact, C61_relative, C61_convergence, C61_gamma), the dot product of any length (C61_dot), the evaluated adjoint against the derivative (C61_derivative). Round to nearest with p+1 significant bits is proved to satisfy the model (C61_double). Overflow and underflow are outside of the standard model, and division, powers, elementary functions and Cached are outside of the claim. Without the sign condition the relative error is unbounded (C61_cancellation_caveat)."
  },
  {
   "property": "C62",
   "status": "proved",
   "theorems": [
    "Aegir.Props.C62_evaluate",
    "Aegir.Props.C62_type",
    "Aegir.Props.C62_run",
    "Aegir.Props.C62_ring",
    "Aegir.Props.C62_modular",
    "Aegir.Props.C62_integers",
    "Aegir.Props.C62_integer_derivative",
    "Aegir.Props.C62_zero_caveat"
   ],
   "note": "All conversions with the laws ScalarMap and Respects, all expressions, caches included (C62_evaluate, C62_type, C62_run, C62_ring); integers against real numbers (C62_integers, C62_integer_derivative, the latter under the conditions of C28). Ring homomorphisms that may send non-zero scalars to zero: values of ring expressions that both evaluations return, outside of the irregular forms of C19 (C62_modular). Beyond ring expressions is_zero has to be preserved (C62_zero_caveat). Machine integers whose from_usize fails for large counts do not satisfy the laws."
  },
  {
   "property": "C63",
   "status": "proved",
   "theorems": [
    "Aegir.Props.C63_total",
    "Aegir.Props.C63_chain",
    "Aegir.Props.C63_descent"
   ],
   "note": "Under the conditions of C28 to C32 (CacheFree, Regular, Smooth at every varied variable): C63_total, the chain rule C63_chain and joint gradient descent C63_descent. Where those conditions fail the violations of C28, C31 and C32 apply."
  },
  {
   "property": "C64",
   "status": "proved",
   "theorems": [
    "Aegir.Props.C64_mixed",
    "Aegir.Props.C64_symmetric"
   ],
   "note": "Under the conditions of C28 to C32 for the expression and its first adjoints: C64_mixed, C64_symmetric. Which expressions have second adjoints at all is C36."
  },
  {
   "property": "C65",
   "status": "proved",
   "theorems": [
    "Aegir.C65_erase",
    "Aegir.C65_reads",
    "Aegir.C65_prefix",
    "Aegir.C65_linear",
    "Aegir.C65_hit",
    "Aegir.C65_miss",
    "Aegir.C65_again",
    "Aegir.C65_adjoint_size",
    "Aegir.C65_adjoint_poly",
    "Aegir.C65_adjoint_calls",
    "Aegir.C65_quadratic"
   ],
   "note": "C65_erase ties the recorded evaluation to the evaluation of C60; C65_reads, C65_prefix, C65_linear, C65_hit, C65_miss, C65_again count the calls; C65_adjoint_size, C65_adjoint_poly, C65_adjoint_calls bound derivatives; C65_quadratic is the lower bound."
  },
  {
   "property": "C66",
   "status": "proved",
   "theorems": [
    "Aegir.C66_compiles",
    "Aegir.C66_value",
    "Aegir.C66_derivative"
   ],
   "note": "C66_compiles, C66_value, C66_derivative, over the real numbers. The meaning of a program (Spec/Program) is defined on the source without reference to nodes."
  },
  {
   "property": "C67",
   "status": "proved",
   "theorems": [
    "Aegir.C67_parse",
    "Aegir.C67_accepts",
    "Aegir.C67_struct",
    "Aegir.C67_ctx",
    "Aegir.C67_coherent",
    "Aegir.C67_fresh",
    "Aegir.C67_program"
   ],
   "note": "C67_parse, C67_accepts, C67_struct, C67_ctx, C67_coherent, C67_fresh, C67_program. Whether rustc accepts the struct is a hypothesis (distinct type parameters); keywords count as tokens that are no identifiers."
  },
  {
   "property": "C68",
   "status": "partial",
   "theorems": [
    "Aegir.C68_unique",
    "Aegir.C68_agrees_iff_partial",
    "Aegir.C68_violation",
    "Aegir.C68_program_partial"
   ],
   "note": "Violated: aegir! writes powers with ^, which binds weaker than + in Rust, so aegir!(x ^ y + z) constructs x.pow(y.add(z)) (C68_violation). C68_agrees_iff_partial: the readings agree exactly if powers are bracketed where they are operands; C68_program_partial for programs of that form. C68_unique holds in general."
  },
  {
   "property": "C69",
   "status": "proved",
   "theorems": [
    "Aegir.Props.C69_value",
    "Aegir.Props.C69_adjoint",
    "Aegir.Props.C69_ring",
    "Aegir.Props.C69_derivative",
    "Aegir.Props.C69_runs",
    "Aegir.Props.C69_checked",
    "Aegir.Props.C69_checked_derivative",
    "Aegir.Props.C69_checked_caveat",
    "Aegir.Props.C69_nan",
    "Aegir.Props.C69_interval",
    "Aegir.Props.C69_slope"
   ],
   "note": "Any sound relation between scalars and a commutative ring. Regular expressions (no scalar - matrix or scalar / matrix, C11; only square matrix-vector products, C15); powers need an explicit base (C19). Instances: integers of any width with overflow checks, NaN, intervals. C69_checked_caveat: a panic can occur although the result fits."
  },
  {
   "property": "C70",
   "status": "proved",
   "theorems": [
    "Aegir.Props.C70_compiles",
    "Aegir.Props.C70_value",
    "Aegir.Props.C70_vector",
    "Aegir.Props.C70_gradient",
    "Aegir.Props.C70_derivative",
    "Aegir.Props.C70_readme"
   ],
   "note": "Exact real arithmetic. Entrywise products of vectors, products of a number and a vector, and sums over a vector are not in the language: their adjoints with respect to a vector have no impl or the wrong shape (C28, C31)."
  },
  {
   "property": "C71",
   "status": "proved",
   "theorems": [
    "Aegir.Props.C71_expansion",
    "Aegir.Props.C71_exact",
    "Aegir.Props.C71_entry",
    "Aegir.Props.C71_unique"
   ],
   "note": "Needs regular impls (C19) and contractions over the right axes (WellContracted, the shape part of Smooth; C29, C31, C32 show what happens otherwise). Division and Power are not ring operations."
  },
  {
   "property": "C72",
   "status": "proved",
   "theorems": [
    "Aegir.Props.C72_forward",
    "Aegir.Props.C72_total",
    "Aegir.Props.C72_adjoint"
   ],
   "note": "Needs regular impls (C19: no scalar minus or divided by array of rank two or more, only square matrix-vector products). The dual numbers are a scalar type supplied by the user (real functions extended by their derivatives), not the crate's own Dual (C39, C40)."
  },
  {
   "property": "C73",
   "status": "proved",
   "theorems": [
    "Aegir.Props.C73_exists",
    "Aegir.Props.C73_symmetric",
    "Aegir.Props.C73_real",
    "Aegir.Props.C73_negative_base"
   ],
   "note": "Sums only of scalars (C31) and regular impls (C19). C73_negative_base is the witness that bases must be positive; C73_real instantiates the laws for the reals."
  },
  {
   "property": "C74",
   "status": "proved",
   "theorems": [
    "Aegir.Props.C74_convergence",
    "Aegir.Props.C74_exact",
    "Aegir.Props.C74_derivative",
    "Aegir.Props.C74_float",
    "Aegir.Props.C74_limit",
    "Aegir.Props.C74_rounded",
    "Aegir.Props.C74_jump_caveat"
   ],
   "note": "Regular impls (C19). The library functions are only known through the error model, which C74_float verifies for binary floating point with unbounded exponent. C74_jump_caveat shows that the condition is needed."
  },
  {
   "property": "C75",
   "status": "proved",
   "theorems": [
    "Aegir.Examples.C75_window",
    "Aegir.Examples.C75_iff",
    "Aegir.Examples.C75_random",
    "Aegir.Examples.C75_program",
    "Aegir.Examples.C75_digits"
   ],
   "note": "Over exact reals. The random generator is idealised: the program seeds SmallRng with a constant; the theorems are about independent samples of any given distribution (C75_random, C75_program) or about given samples (C75_window, C75_iff)."
  },
  {
   "property": "C76",
   "status": "proved",
   "theorems": [
    "Aegir.Examples.C76_step",
    "Aegir.Examples.C76_run",
    "Aegir.Examples.C76_gamma",
    "Aegir.Examples.C76_random",
    "Aegir.Examples.C76_program",
    "Aegir.Examples.C76_double",
    "Aegir.Examples.C76_drawn"
   ],
   "note": "The standard model has no overflow, underflow or NaN (C61). The random generator is idealised as in C75: independent samples of a distribution on countably many machine numbers."
  },
  {
   "property": "C77",
   "status": "proved",
   "theorems": [
    "Aegir.Props.C77_accurate",
    "Aegir.Props.C77_accurate_spec",
    "Aegir.Props.C77_in_range",
    "Aegir.Props.C77_in_range_spec",
    "Aegir.Props.C77_derivative",
    "Aegir.Props.C77_moderate",
    "Aegir.Props.C77_double",
    "Aegir.Props.C77_double_safe",
    "Aegir.Props.C77_overflow_caveat",
    "Aegir.Props.C77_nan_caveat",
    "Aegir.Props.C77_underflow_caveat",
    "Aegir.Props.C77_not_standard_model"
   ],
   "note": "IEEE arithmetic is itself a model (Spec/Ieee.lean): finite numbers are the reals fixed by rounding and at most the largest number; the two zeros are identified; powf(x, 2) is assumed to be correctly rounded. Ring operations only, as in C61; results that are infinite or NaN are not described further."
  },
  {
   "property": "C78",
   "status": "proved",
   "theorems": [
    "Aegir.Examples.C78_step",
    "Aegir.Examples.C78_run",
    "Aegir.Examples.C78_random",
    "Aegir.Examples.C78_program",
    "Aegir.Examples.C78_drawn",
    "Aegir.Examples.C78_double"
   ],
   "note": "IEEE arithmetic is the model of C77 (one zero; powf(x, 2) correctly rounded). The random generator is idealised as in C75. The number of iterations is bounded because rounding errors of unrelated iterations are added up in the worst case."
  },
  {
   "property": "C79",
   "status": "proved",
   "theorems": [
    "Aegir.Examples.C79_random",
    "Aegir.Examples.C79_weights",
    "Aegir.Examples.C79_limit",
    "Aegir.Examples.C79_program"
   ],
   "note": "Exact reals. The random generator is idealised: independent samples, and gen_bool(p) compares a uniform number with p. With a constant rate the weights keep fluctuating, so the bounds are averages over the iterations."
  },
  {
   "property": "C80",
   "status": "partial",
   "theorems": [
    "Aegir.Examples.C80_sigmoid",
    "Aegir.Examples.C80_gen_bool",
    "Aegir.Examples.C80_gen_bool_iff",
    "Aegir.Examples.C80_gradient",
    "Aegir.Examples.C80_step",
    "Aegir.Examples.C80_run",
    "Aegir.Examples.C80_moderate",
    "Aegir.Examples.C80_double_partial",
    "Aegir.Examples.C80_saturates",
    "Aegir.Examples.C80_nan",
    "Aegir.Examples.C80_poison",
    "Aegir.Examples.C80_violation"
   ],
   "note": "The code violates the claim: C80_violation gives, for any true weights, a million draws within the range of the generator after which all weights are NaN (the computed probability reaches one, and with label zero the gradient is zero divided by zero). C80_double_partial proves the claim for the first 800000 iterations and all draws; C80_run for any run along which weights and log-odds of exact ascent stay moderate. The exponential function is taken to be correctly rounded in the double instance; the general theorems allow any relative error v."
  },
  {
   "property": "C81",
   "status": "proved",
   "theorems": [
    "Aegir.Examples.C81_far",
    "Aegir.Examples.C81_double"
   ],
   "note": "gen_bool(p) is idealised as comparing a uniform real number with p; the exponential function is correctly rounded, as in the double instance of C80. C81_far is the statement about exact ascent for any rate, dimension and distribution."
  },
  {
   "property": "C82",
   "status": "proved",
   "theorems": [
    "Aegir.Benches.C82_gradient",
    "Aegir.Benches.C82_linear",
    "Aegir.Benches.C82_example",
    "Aegir.Benches.C82_ieee"
   ],
   "note": ""
  },
  {
   "property": "C83",
   "status": "partial",
   "theorems": [
    "Aegir.Benches.C83_example",
    "Aegir.Benches.C83_gradient",
    "Aegir.Benches.C83_manual",
    "Aegir.Benches.C83_auto_two",
    "Aegir.Benches.C83_agree_two",
    "Aegir.Benches.C83_auto_five_partial",
    "Aegir.Benches.C83_violation"
   ],
   "note": "Holds for the gradient written by hand (C83_manual, any dimension up to five) and for the library's gradient in two dimensions (C83_auto_two, C83_agree_two). For the library's gradient in five dimensions it is false: C83_violation exhibits draws for which it ends with NaN while the other does not; it holds for the first 400000 iterations (C83_auto_five_partial). The exponential function is correctly rounded."
  },
  {
   "property": "C84",
   "status": "proved",
   "theorems": [
    "Aegir.Benches.C84_learns",
    "Aegir.Benches.C84_bench"
   ],
   "note": ""
  },
  {
   "property": "C85",
   "status": "proved",
   "theorems": [
    "Aegir.Props.C85_chain",
    "Aegir.Props.C85_chain_self",
    "Aegir.Props.C85_gradient",
    "Aegir.Props.C85_evaluates"
   ],
   "note": "scalar intermediate variable; caches excluded"
  },
  {
   "property": "C86",
   "status": "proved",
   "theorems": [
    "Aegir.Props.C86_scalarMap",
    "Aegir.Props.C86_unary",
    "Aegir.Props.C86_division",
    "Aegir.Props.C86_power",
    "Aegir.Props.C86_evaluate",
    "Aegir.Props.C86_run",
    "Aegir.Props.C86_violation",
    "Aegir.Benches.C86_linear",
    "Aegir.Benches.C86_logistic",
    "Aegir.Benches.C86_benches",
    "Aegir.Benches.C86_byHand",
    "Aegir.Benches.C86_learns"
   ],
   "note": ""
  },
  {
   "property": "C87",
   "status": "proved",
   "theorems": [
    "Aegir.Props.C87_unchecked",
    "Aegir.Props.C87_zip_self",
    "Aegir.Props.C87_zip_field_r",
    "Aegir.Props.C87_zip_field_l",
    "Aegir.Props.C87_zip_model",
    "Aegir.Props.C87_read",
    "Aegir.Props.C87_block",
    "Aegir.Props.C87_forget",
    "Aegir.Props.C87_contract_mv",
    "Aegir.Props.C87_contract_vm",
    "Aegir.Props.C87_contract_defined",
    "Aegir.Props.C87_contract_outcomes"
   ],
   "note": ""
  },
  {
   "property": "C88",
   "status": "proved",
   "theorems": [
    "Aegir.Examples.C88_growth",
    "Aegir.Examples.C88_far",
    "Aegir.Examples.C88_double",
    "Aegir.Examples.C88_example",
    "Aegir.Benches.C88_bench"
   ],
   "note": "As in C81, gen_bool(p) is idealised as comparing a uniform real number with p, and the exponential function is correctly rounded."
  },
  {
   "property": "C89",
   "status": "proved",
   "theorems": [
    "Aegir.Examples.C89_random",
    "Aegir.Examples.C89_double",
    "Aegir.Examples.C89_example",
    "Aegir.Benches.C89_bench"
   ],
   "note": "As in C81, gen_bool(p) is idealised as comparing a uniform real number with p, and the exponential function is correctly rounded."
  },
  {
   "property": "C90",
   "status": "partial",
   "theorems": [
    "Aegir.Props.C90_unary",
    "Aegir.Props.C90_range",
    "Aegir.Props.C90_rounded_partial",
    "Aegir.Props.C90_derivative_partial",
    "Aegir.Props.C90_sums",
    "Aegir.Props.C90_quotient_partial",
    "Aegir.Props.C90_power_partial",
    "Aegir.Props.C90_violation_xlnx",
    "Aegir.Props.C90_violation_quotient",
    "Aegir.Props.C90_violation_reciprocal",
    "Aegir.Props.C90_violation_power"
   ],
   "note": "False for four kinds of derivatives: x ln x at negative numbers (C90_violation_xlnx), quotients whose denominator has a square that underflows or overflows (C90_violation_quotient: NaN; C90_violation_reciprocal: zero or infinity for a derivative that is a number of the format), powers with base or exponent zero (C90_violation_power). Missing besides: the derivative of gamma; the rounding of the derivatives of xlnx, sigmoid and gamma, which round more than once; powers of negative bases. Functions are taken to be correctly rounded."
  },
  {
   "property": "C91",
   "status": "proved",
   "theorems": [
    "Aegir.Props.C91_shape",
    "Aegir.Props.C91_tangent",
    "Aegir.Props.C91_minimum",
    "Aegir.Props.C91_maximum",
    "Aegir.Props.C91_stationary"
   ],
   "note": "C91_tangent, C91_minimum, C91_maximum and C91_stationary under the hypotheses of C63; C91_shape needs no adjoint and no differentiability. Curvature by the rules of Spec/Convex.lean, which do not cover all convex expressions."
  },
  {
   "property": "C92",
   "status": "proved",
   "theorems": [
    "Aegir.Props.C92_gradient",
    "Aegir.Props.C92_decrease",
    "Aegir.Props.C92_rate",
    "Aegir.Examples.C92_sse",
    "Aegir.Examples.C92_linear",
    "Aegir.Examples.C92_logistic"
   ],
   "note": "C92_decrease and C92_rate for every expression that meets the hypotheses of C63 at all settings of the entries; C92_linear and C92_logistic for the gradients of the example programs on a batch. Exact real arithmetic; the programs themselves take one sample at a time (C53, C54, C75, C79)."
  },
  {
   "property": "C93",
   "status": "proved",
   "theorems": [
    "Aegir.Props.C93_test",
    "Aegir.Props.C93_necessary",
    "Aegir.Props.C93_global",
    "Aegir.Props.C93_newton",
    "Aegir.Props.C93_newton_run"
   ],
   "note": "C93_test, C93_necessary, C93_global, C93_newton and C93_newton_run. Exact real arithmetic and scalar expressions whose adjoint is differentiable again (C36 says which are not)."
  },
  {
   "property": "C94",
   "status": "proved",
   "theorems": [
    "Aegir.Props.C94_mean",
    "Aegir.Props.C94_bound",
    "Aegir.Props.C94_monotone",
    "Aegir.Props.C94_strict",
    "Aegir.Props.C94_constant",
    "Aegir.Props.C94_taylor"
   ],
   "note": "C94_mean, C94_bound, C94_monotone, C94_strict, C94_constant for all expressions that meet the hypotheses of C63 on the settings concerned; C94_taylor for scalar expressions with second adjoints. Exact real arithmetic."
  },
  {
   "property": "C95",
   "status": "proved",
   "theorems": [
    "Aegir.Props.C95_value",
    "Aegir.Props.C95_extensional",
    "Aegir.Props.C95_adjoint",
    "Aegir.Props.C95_integers"
   ],
   "note": "C95_value in every commutative ring with lawful operations (the hypotheses Regular and PowSafe are those of C19); C95_extensional and C95_adjoint in exact real arithmetic for expressions that meet the hypotheses of C56; C95_integers over the integers, for the expressions of C71."
  },
  {
   "property": "C96",
   "status": "proved",
   "theorems": [
    "Aegir.Props.C96_taylor",
    "Aegir.Props.C96_convex",
    "Aegir.Props.C96_unique",
    "Aegir.Props.C96_necessary",
    "Aegir.Props.C96_descent"
   ],
   "note": "C96_taylor, C96_convex, C96_unique, C96_necessary, C96_descent for all expressions that meet the hypotheses of C63 together with their adjoints on the settings concerned. Exact real arithmetic. By C36_violation_third the code has no third adjoints, so that second order is as far as this goes."
  }
 ]
}