STATUS={
"C01":("proved","All fixed shapes (any rank and extents): contains, indices and cardinality against the independent InBounds/lexicographic specification, including uniqueness of the enumeration."),
"C02":("partial","Proved for every runtime shape with DIM >= 1 and every number of next() calls, plus panic freedom. DIM = 0 is violated by the code (C02_dim0_violation): one index exists, none is yielded."),
"C03":("proved","Every state of an iteration up to its None; size_hint is characterised exactly in every state and for every word size. After exhaustion see C04."),
"C04":("partial","The code violates the property for every non-empty shape (C04_restarts, C04_periodic give the exact behaviour); it holds for shapes with a zero extent (C04_fused_partial)."),
"C05":("proved","All shapes; the impl table bounds (rank <= 6) are a special case."),
"C06":("proved","All Broadcast impls, fixed and runtime."),
}
STATUS.update({
"C07":("proved","All buffer types (scalar, tuple, Vec, arrays of every rank); includes full/zeroes/ones/diagonal/identity and extensionality."),
"C08":("proved","All buffer types, any index order and repetitions; out-of-range panics for arrays and Vec, is ignored for tuples (both proved)."),
"C09":("proved","All buffer types and functions, the in-place loops included."),
"C10":("proved","All buffer types; also the trait's default body."),
"C11":("partial","The code swaps the operands for a scalar on the left of an array of rank >= 2 (C11_violation, C11_violation_witness); C11_zip_pointwise_partial covers every other impl and every symmetric function."),
"C12":("proved","All impls of zip_map_id, zip_mut, zip_fold, zip_shape and Broadcast."),
"C13":("partial","shape/unwrap/map hold in full. zip_map holds except scalar-with-array of rank >= 2 on Full/Full with a non-symmetric function, where dense and Spec zips disagree (C13_zip_violation, consequence of C11)."),
"C14":("proved","All 11 impls, all Spec variants, every commutative semiring. C14_nan_caveat shows the algebraic laws are needed."),
"C15":("partial","Violated by the code for non-square matrices (C15_vm_violation truncates, C15_mv_violation panics; C15_panics_iff is exact). C15_contract_partial covers all other cases."),
"C16":("proved","All impls. C16_extents assumes a square matrix in the matrix-vector case, where the accepted types are otherwise not contractible."),
})
STATUS.update({
"C17":("proved","All nodes, all derivations and all contexts: outcome and final context of evaluate equal those of evaluate_spec followed by unwrap, over every commutative ring with a faithful is_zero/from_usize; a second theorem needs no scalar laws when no Sum of a compressed buffer occurs."),
"C18":("partial","Holds for successful evaluations of cache-free or Sum/Power-free trees (C18_shape_partial, C18_shape_of_spec_partial, C18_shape_cache_free_partial). Violated in general: Power and Sum report a shape although evaluation fails (C18_violation_error) and do not fill caches (C18_violation_shape)."),
})
STATUS.update({
"C20":("proved","All binary operators, all contexts, evaluate and evaluate_spec, no arithmetic laws (evaluate_shape too except Power, whose shape is constant); plus a whole-tree trace theorem: every reported error leads along its Left/Right tags to a subexpression whose own error is legitimate. C20_right and C20_output assume from_usize is total."),
"C21":("partial","Holds when every matrix-vector product has at least as many rows as columns and from_usize is total (C21_total_partial). Violated otherwise: C21_violation (1x2 matrix times 1-vector panics)."),
"C22":("partial","evaluate_shape and Div report the mismatch (C22_shape, C22_div). Add, Sub and Mul never return a value but panic on their general arm: C22_violation for every pair of Vec variables of different lengths; C22_mismatch_partial says on which arms they report."),
"C23":("proved","All expressions, all contexts, all three methods, every outcome."),
"C24":("proved","All expressions and pairs of contexts, all three methods, including the contexts left behind."),
"C25":("proved","All expressions, identifiers and targets; the adjoint's identifiers are characterised exactly."),
"C27":("proved","All expressions; histories are arbitrary interleavings of evaluations (any expression, any method) and assignments/clearings. C27_failure_entry assumes the inner node has no cache of the same name."),
})
STATUS.update({
"C19":("partial","All nodes, all contexts, every commutative ring with lawful is_zero/from_usize/==/powf shortcuts: evaluate, evaluate_spec and evaluate_shape agree with the tensor semantics `den`. Missing because the code violates the claim there: Power with compressed zero base (C19_violation_power), scalar minus / divided by an array of rank >= 2 (C19_violation_sub, C19_violation_div), non-square vector-matrix / matrix-vector products (C19_violation_vm, C15)."),
"C26":("partial","Holds for successful evaluation of expressions in which no operator tells compressed from explicit operands (CacheSafe), along arbitrary histories of evaluations and assignments. Violated for Power with a compressed zero base, scalar minus an array of rank >= 2, and failures may differ in kind (C26_violation_power, C26_violation_sub, C26_violation_error)."),
})
STATUS.update({
"C33":("proved","All nodes, types, contexts and targets, evaluate and evaluate_spec, every commutative ring whose division satisfies 0 / x = 0 for nonzero x; the denominators occurring in the adjoint are assumed nonzero, as in the statement (C33_nan_caveat shows why)."),
"C34":("proved","All buffer types with an adjoint, all contexts, all three methods, undefined identifiers included; no arithmetic laws."),
"C35":("proved","All expressions and contexts; no arithmetic laws. evaluate_dual is shown to be the value evaluation followed by the adjoint evaluation in the context it leaves; for cache-free trees both are taken in the given context (C35_cache_free). C35_cached_caveat shows caches make the order observable."),
})
STATUS.update({
"C28":("partial","Over exact real arithmetic: all scalar expressions without Cached nodes, all contexts where the operators are differentiable: the adjoint evaluates and its value is the derivative (HasDerivAt) of the function that evaluating the expression computes. Missing: Cached nodes, for which the code violates the claim (C28_violation_cached)."),
"C29":("proved","Over exact real arithmetic: all scalar-valued expressions (no Cached, no Sum) over scalars and vectors of any one length in which the left factor of each dot product is affine in the target; the right factor may be anything. C29_array_target covers operands of other types. Beyond the statement: without affinity the code is wrong (C29_limit_not_affine), and matrix-vector products have no evaluable adjoint (C29_matrix_not_evaluable)."),
"C30":("partial","Over exact real arithmetic: all tensor expressions without Cached and Sum nodes, outside the irregular forms for which evaluation itself is wrong (C19); the adjoint has the value's type and shape and the derivatives as entries."),
"C31":("partial","Violated by the code: the adjoint of Sum is the unreduced adjoint of the operand (C31_violation: wrong shape). Proved for scalar operands (C31_scalar_partial); in general, reducing the code's result over the operand's axes gives the derivative (C31_unreduced_partial)."),
"C32":("partial","Violated by the code when the target is an array, occurs in the left factor and the right factor is not a scalar (C32_violation: the transposed Jacobian). Proved in all other cases (C32_axis_order_partial)."),
"C36":("partial","Violated by the code: nothing can be differentiated three times (C36_violation_third), and expressions with constants, sign, gamma or loggamma not twice (C36_violation_second). Exact characterisation of the expressions with first and second adjoints (C36_first_exists, C36_second_exists), and second adjoints evaluate to second derivatives (C36_second_derivative_partial, C36_second_partials_partial)."),
})
STATUS.update({
"C37":("partial","All cache-free scalar expressions: an expression rendered as symbolic 0 or 1 evaluates to that number, over any lawful field, outside the cases in which the code violates the claim: Erf of a symbolic 0 or 1, DiGamma of a symbolic 1, powers with symbolic-zero base or exponent, and arrays (C37_violation_*)."),
"C38":("partial","Injective on the fragment Readable, by a parser that inverts the printer. Violated outside it: AddOne/OneSub against explicit sums, nested powers, negated powers, arcsin/arccos, and empty texts (C38_violation_*)."),
"C39":("proved","All programs over the Dual operators with any number of inputs, over every commutative ring (formal derivative of the denoted polynomial) and over the reals (HasDerivAt along curves); products with plain values are C40. variable, constant and conj for all buffer types."),
"C40":("partial","Addition and subtraction proved, owned and borrowed. Violated by the code for products: Dual * V leaves the adjoint unscaled (C40_violation_mul); C40_mul_partial says exactly when the product is right."),
})
STATUS.update({
"C45":("proved","Over exact real arithmetic: every named unary function applied entrywise computes its mathematical function (Sigmoid, XLnX, Square, Double, factorial through the gamma function, erfc, abs, sign), for all nodes, types and contexts; and the library's spellings of one function agree (C45_spelled)."),
"C46":("partial","All buffer classes and shapes: idempotent, unit, selects one operand, associative; commutative except for the pair Arrays/Vecs (C46_comm_partial, C46_violation_comm). Adjoint types are characterised exactly and no adjoint type involves Vecs."),
})
STATUS.update({
"C41":("partial","All source expressions: the expansion fails exactly on operators other than + - * ^ (C41_fails_iff); other forms are left in place and nothing special survives (C41_in_place, C41_complete); arithmetic expressions become the node they stand for, through the printed tokens and Rust's reading of them (C41_expansion), and for numbers that node evaluates to the denoted value (C41_meaning). Violated for prefix operators in operands: the expansion is printed without parentheses, so -x - y becomes -(x.sub(y)) (C41_violation_prefix); C41_tokens_partial covers the rest. Missing: tokens of forms other than names, literals, brackets, prefix operators and method calls; syn's parsing of the input."),
"C42":("proved","All derived structs with distinct identifiers, all states, all histories of write and write_spec; C42_refines connects them to the abstract store used by the evaluation model."),
})
STATUS.update({
"C43": ("partial", "Outcome of parsing a field is characterised exactly for fields without #[id(a::b)] and with Option< only in front of path types; outside that the code panics or accepts a wrong type (C43_violation_*). Accessors and ctx_type! fields are characterised without restriction."),
"C44": ("partial", "Equality, coherence of the generated impls, parsing and the built-in identifiers are proved in full. Display is right exactly for symbols without braces; identifiers without symbol all display type_id (C44_violation_*)."),
})
STATUS.update({
"C47":("proved","Over exact real arithmetic, all nodes, types and contexts: 17 operators compute the functions they are named after (C47_named), 18 inverse pairs cancel on their domains (C47_inverse). Dirac and Sign are characterised over every scalar type."),
"C48":("proved","All expressions and all type assignments: an impl exists exactly for the types computed by the bottom-up rules (C48_type), and it is unique (C48_unique, C48_coherent). The lookup as a function finds it (C48_resolve), and running an expression, its specification, adjoint or dual compiles and yields what the derivation yields (C48_run, C48_runs)."),
})
STATUS.update({
"C49":("partial","All programs, contexts, targets and commutative rings with lawful zero test: expression and dual computation agree in value and adjoint (C49_agree_partial). Violated for Dual * V, whose adjoint is not scaled (C49_violation_mulV)."),
"C50":("partial","All inputs: when the macro succeeds and otherwise panics (C50_expands_iff), header and bounds (C50_header), meaning of the generated predicate for structs with at least one field (C50_contains_partial). Violated: unmarked fields are not skipped but panic, a struct without fields gets an empty body, a parameter named I is declared twice (C50_violation_*)."),
"C51":("partial","All keys and values: expansion (C51_expands), exact condition for acceptance (C51_accepted_iff), reads (C51_read_partial). Violated for identifiers that differ in case only (C51_violation_case)."),
})
STATUS.update({
"C52":("partial","All expressions, replacements, contexts and values: replacing a variable by an expression agrees with binding the variable to its value (C52_subst_partial), also with Cached nodes whose caches hold the right values (C52_cached_partial); substitution preserves types (C52_type) and identifiers (C52_contains). Missing: adjoints that mention the variable, and the operators that treat compressed operands differently, for which the code violates the claim (C52_violation)."),
})
STATUS.update({
"C53":("proved","All runs, samples and states over the reals: the evaluated adjoint is the gradient (C53_gradient), a step is gradient descent (C53_step, C53_run), the exact change of distance (C53_distance), the loss bound (C53_loss) and the program with its constants (C53_program). The random draws are inputs; real instead of floating-point arithmetic."),
"C54":("proved","All runs and draws over the reals: no panic in gen_bool (C54_gen_bool) or evaluate (C54_step, C54_run), the gradient (C54_gradient), the likelihood (C54_likelihood) and its growth in each step (C54_ascent, C54_likelihood_increases). The random draws are inputs; real instead of floating-point arithmetic."),
"C55":("proved","All vectors over any commutative ring with lawful scalars: both values (C55_plain, C55_cached), the cache afterwards, and independence of the vector once the cache is filled (C55_reuse). Times are not modelled."),
})
STATUS.update({
"C56":("partial","All scalar expressions, contexts and ways of printing names and numbers, over exact reals: symbolic form and Display are notations for the value (C56_meaning_partial, C56_display_partial, C56_denotation_partial), and printed infinities are limits (C56_limits), outside of what Clear and ClearDisplay exclude. Violated there: doubled operands in exponents and denominators lose their brackets, sinh(1), 1 + x and asin print another function, digamma and quotients print an infinity of the wrong sign (C56_violation_*; asin, erf and the empty text in C37/C38). Not covered: arrays."),
})
STATUS.update({
"C57":("proved","Scalars in any commutative ring whose zero test is right, whose conversion from counts is the usual one and whose square is a product. The relation IsPoly between expressions and polynomials is the specification; C57_value ties it to evaluation. Cached nodes and arrays are not polynomial expressions (arrays over the reals: C29)."),
"C58":("proved","Exact reals; the random draws, the learning rates and the table of true weights are inputs. For labels other than zero and one, which the benchmark never draws, the two logistic gradients differ (C58_logistic_caveat)."),
})
STATUS.update({
"C59":("proved","All expressions (caches included) for the cause (C59_cause); all shapes for the texts (C59_shapes, C59_mismatch). The order of look-ups (C59_first, C59_first_spec, C59_first_shape) is for expressions without Cached and Vec and with in-range matrix-vector products (C15), since those may panic or write. Messages do not say where in the expression the error arose (C59_position_caveat). A formatter that refuses writes is not modelled."),
})
STATUS.update({
"C60":("partial","All lawful context types, all expressions, caches included (C60_evaluate, C60_history, C60_invariant); derived structs are lawful (C60_derived_lawful, C60_derived, C60_derived_frame). Partial only in the derivative: Cached nodes are excluded (C28_violation_cached). The specification law must say that read_spec returns Raw: a compressed read_spec with the right value changes 0^0 (C60_spec_caveat), and lost writes lose caches (C60_write_caveat)."),
})
STATUS.update({
"C61":("proved","All scalar types satisfying the standard model of rounding (relative error u per operation, exact zero, one and negation), all ring expressions and contexts (C61_error, C61_spec, C61_exact, C61_relative, C61_convergence, C61_gamma), the dot product of any length (C61_dot), the evaluated adjoint against the derivative (C61_derivative). Round to nearest with p+1 significant bits is proved to satisfy the model (C61_double). Overflow and underflow are outside of the standard model, and division, powers, elementary functions and Cached are outside of the claim. Without the sign condition the relative error is unbounded (C61_cancellation_caveat)."),
})
STATUS.update({
"C62":("proved","All conversions with the laws ScalarMap and Respects, all expressions, caches included (C62_evaluate, C62_type, C62_run, C62_ring); integers against real numbers (C62_integers, C62_integer_derivative, the latter under the conditions of C28). Ring homomorphisms that may send non-zero scalars to zero: values of ring expressions that both evaluations return, outside of the irregular forms of C19 (C62_modular). Beyond ring expressions is_zero has to be preserved (C62_zero_caveat). Machine integers whose from_usize fails for large counts do not satisfy the laws."),
})
STATUS.update({
"C63":("proved","Under the conditions of C28 to C32 (CacheFree, Regular, Smooth at every varied variable): C63_total, the chain rule C63_chain and joint gradient descent C63_descent. Where those conditions fail the violations of C28, C31 and C32 apply."),
"C54":("proved","All runs and draws over the reals: no panic in gen_bool (C54_gen_bool) or evaluate (C54_step, C54_run), the gradient (C54_gradient), the likelihood (C54_likelihood) and its growth in each step (C54_ascent, C54_likelihood_increases), the regret against any fixed weights (C54_regret) and the program with its own constants and initial context (C54_program). The random draws are inputs; real instead of floating-point arithmetic."),
})
STATUS.update({
"C64":("proved","Under the conditions of C28 to C32 for the expression and its first adjoints: C64_mixed, C64_symmetric. Which expressions have second adjoints at all is C36."),
})
STATUS.update({
"C65":("proved","C65_erase ties the recorded evaluation to the evaluation of C60; C65_reads, C65_prefix, C65_linear, C65_hit, C65_miss, C65_again count the calls; C65_adjoint_size, C65_adjoint_poly, C65_adjoint_calls bound derivatives; C65_quadratic is the lower bound."),
})
STATUS.update({
"C66":("proved","C66_compiles, C66_value, C66_derivative, over the real numbers. The meaning of a program (Spec/Program) is defined on the source without reference to nodes."),
})
a,b=STATUS["C41"]
STATUS["C41"]=(a,b.replace("C41_tokens_partial covers the rest.","C41_tokens_partial covers the rest. Violated for integer literals other than a square's exponent in expressions over floats: they become constants of type i64, and no impl mixes types (C41_literals, C41_violation_int)."))
STATUS.update({
"C67":("proved","C67_parse, C67_accepts, C67_struct, C67_ctx, C67_coherent, C67_fresh, C67_program. Whether rustc accepts the struct is a hypothesis (distinct type parameters); keywords count as tokens that are no identifiers."),
})
STATUS.update({
"C68":("partial","Violated: aegir! writes powers with ^, which binds weaker than + in Rust, so aegir!(x ^ y + z) constructs x.pow(y.add(z)) (C68_violation). C68_agrees_iff_partial: the readings agree exactly if powers are bracketed where they are operands; C68_program_partial for programs of that form. C68_unique holds in general."),
})
STATUS.update({
"C69":("proved","Any sound relation between scalars and a commutative ring. Regular expressions (no scalar - matrix or scalar / matrix, C11; only square matrix-vector products, C15); powers need an explicit base (C19). Instances: integers of any width with overflow checks, NaN, intervals. C69_checked_caveat: a panic can occur although the result fits."),
})
STATUS.update({
"C70":("proved","Exact real arithmetic. Entrywise products of vectors, products of a number and a vector, and sums over a vector are not in the language: their adjoints with respect to a vector have no impl or the wrong shape (C28, C31)."),
})
STATUS.update({
"C71":("proved","Needs regular impls (C19) and contractions over the right axes (WellContracted, the shape part of Smooth; C29, C31, C32 show what happens otherwise). Division and Power are not ring operations."),
})
STATUS.update({
"C72":("proved","Needs regular impls (C19: no scalar minus or divided by array of rank two or more, only square matrix-vector products). The dual numbers are a scalar type supplied by the user (real functions extended by their derivatives), not the crate's own Dual (C39, C40)."),
})
STATUS.update({
"C73":("proved","Sums only of scalars (C31) and regular impls (C19). C73_negative_base is the witness that bases must be positive; C73_real instantiates the laws for the reals."),
})
STATUS.update({
"C74":("proved","Regular impls (C19). The library functions are only known through the error model, which C74_float verifies for binary floating point with unbounded exponent. C74_jump_caveat shows that the condition is needed."),
})
STATUS.update({
"C75":("proved","Over exact reals. The random generator is idealised: the program seeds SmallRng with a constant; the theorems are about independent samples of any given distribution (C75_random, C75_program) or about given samples (C75_window, C75_iff)."),
})
STATUS["C36"]=(STATUS["C36"][0],STATUS["C36"][1].replace("(C36_violation_second).","(C36_violation_second), and the second adjoint of an inner product with respect to one of the vectors has no impl, so the Hessian of the linear regression example cannot be evaluated (C36_violation_hessian)."))
STATUS.update({
"C76":("proved","The standard model has no overflow, underflow or NaN (C61). The random generator is idealised as in C75: independent samples of a distribution on countably many machine numbers."),
})
STATUS.update({
"C77":("proved","IEEE arithmetic is itself a model (Spec/Ieee.lean): finite numbers are the reals fixed by rounding and at most the largest number; the two zeros are identified; powf(x, 2) is assumed to be correctly rounded. Ring operations only, as in C61; results that are infinite or NaN are not described further."),
})
STATUS.update({
"C78":("proved","IEEE arithmetic is the model of C77 (one zero; powf(x, 2) correctly rounded). The random generator is idealised as in C75. The number of iterations is bounded because rounding errors of unrelated iterations are added up in the worst case."),
})
STATUS.update({
"C79":("proved","Exact reals. The random generator is idealised: independent samples, and gen_bool(p) compares a uniform number with p. With a constant rate the weights keep fluctuating, so the bounds are averages over the iterations."),
})
STATUS.update({
"C80":("partial","The code violates the claim: C80_violation gives, for any true weights, a million draws within the range of the generator after which all weights are NaN (the computed probability reaches one, and with label zero the gradient is zero divided by zero). C80_double_partial proves the claim for the first 800000 iterations and all draws; C80_run for any run along which weights and log-odds of exact ascent stay moderate. The exponential function is taken to be correctly rounded in the double instance; the general theorems allow any relative error v."),
})
STATUS.update({
"C81":("proved","gen_bool(p) is idealised as comparing a uniform real number with p; the exponential function is correctly rounded, as in the double instance of C80. C81_far is the statement about exact ascent for any rate, dimension and distribution."),
})
STATUS.update({
"C82":("proved",""),
"C83":("partial","Holds for the gradient written by hand (C83_manual, any dimension up to five) and for the library's gradient in two dimensions (C83_auto_two, C83_agree_two). For the library's gradient in five dimensions it is false: C83_violation exhibits draws for which it ends with NaN while the other does not; it holds for the first 400000 iterations (C83_auto_five_partial). The exponential function is correctly rounded."),
})
STATUS.update({
"C84":("proved",""),
})
STATUS.update({
"C85":("proved","scalar intermediate variable; caches excluded"),
})
STATUS.update({
"C86":("proved",""),
})
STATUS.update({
"C87":("proved",""),
})
STATUS.update({
"C88":("proved","As in C81, gen_bool(p) is idealised as comparing a uniform real number with p, and the exponential function is correctly rounded."),
})
STATUS.update({
"C89":("proved","As in C81, gen_bool(p) is idealised as comparing a uniform real number with p, and the exponential function is correctly rounded."),
})
STATUS.update({
"C90":("partial","False for four kinds of derivatives: x ln x at negative numbers (C90_violation_xlnx), quotients whose denominator has a square that underflows or overflows (C90_violation_quotient: NaN; C90_violation_reciprocal: zero or infinity for a derivative that is a number of the format), powers with base or exponent zero (C90_violation_power). Missing besides: the derivative of gamma; the rounding of the derivatives of xlnx, sigmoid and gamma, which round more than once; powers of negative bases. Functions are taken to be correctly rounded."),
})
STATUS.update({
"C91":("proved","C91_tangent, C91_minimum, C91_maximum and C91_stationary under the hypotheses of C63; C91_shape needs no adjoint and no differentiability. Curvature by the rules of Spec/Convex.lean, which do not cover all convex expressions."),
})
STATUS.update({
"C92":("proved","C92_decrease and C92_rate for every expression that meets the hypotheses of C63 at all settings of the entries; C92_linear and C92_logistic for the gradients of the example programs on a batch. Exact real arithmetic; the programs themselves take one sample at a time (C53, C54, C75, C79)."),
})
STATUS.update({
"C93":("proved","C93_test, C93_necessary, C93_global, C93_newton and C93_newton_run. Exact real arithmetic and scalar expressions whose adjoint is differentiable again (C36 says which are not)."),
})
STATUS.update({
"C94":("proved","C94_mean, C94_bound, C94_monotone, C94_strict, C94_constant for all expressions that meet the hypotheses of C63 on the settings concerned; C94_taylor for scalar expressions with second adjoints. Exact real arithmetic."),
})
STATUS.update({
"C95":("proved","C95_value in every commutative ring with lawful operations (the hypotheses Regular and PowSafe are those of C19); C95_extensional and C95_adjoint in exact real arithmetic for expressions that meet the hypotheses of C56; C95_integers over the integers, for the expressions of C71."),
})
STATUS.update({
"C96":("proved","C96_taylor, C96_convex, C96_unique, C96_necessary, C96_descent for all expressions that meet the hypotheses of C63 together with their adjoints on the settings concerned. Exact real arithmetic. By C36_violation_third the code has no third adjoints, so that second order is as far as this goes."),
})
