# Formal model of aegir: design

Source under study: `/repo` (tspooner/aegir, pinned). It is read as text and never built.
Everything here is Lean 4.33.0 + Mathlib (imported module by module).

## Layers of the model

| layer | Lean modules (under `lean/Verif/`) | Rust source |
|---|---|---|
| scalars | `Model/Scalar` | `buffers/scalars.rs`, `num_traits`/`special_fun` signatures |
| outcomes | `Model/Res` | `Result`, `unwrap`, panics |
| shapes, indices, iterator | `Model/Shape`, `Model/MultiProduct` | `buffers/shapes/*.rs` |
| buffers, zips, compressed buffers, contraction | `Model/Array`, `Model/Buffer`, `Model/Zip`, `Model/BSpec`, `Model/Contract`, `Model/Unsafe` | `buffers/**` |
| nodes, containment, differentiation | `Model/Node` | structs of `ops/**`, `meta/**`; every `Contains`/`Differentiable` impl |
| evaluation | `Model/Eval` | every `Function` impl, `lib.rs`, `errors.rs` |
| evaluation in any context type | `Model/EvalIn` | the same impls, generic over `C: Read + Write` |
| calls made by an evaluation | `Model/Trace` | the same impls, with a list of the calls of `read`, `read_spec`, `read_shape`, `write` |
| trait resolution | `Model/Resolve` | the bounds of every `Function` impl |
| texts of shapes and errors | `Model/Messages` | `errors.rs`, `buffers/shapes/*.rs`, `meta/mod.rs` (`Display`) |
| buffer classes | `Model/Class` | `buffers/mod.rs` (`Precedence`), `meta/mod.rs` |
| formatting | `Model/Fmt` | `fmt.rs`, every `to_expr` |
| dual numbers | `Model/Dual` | `dual.rs` |
| `aegir!` | `Model/Compile` | `aegir_compile/src/lib.rs` |
| derived contexts | `Model/Store` | `aegir_derive/src/ctx/derive.rs` (generated code) |
| `#[derive(Context)]`, `ctx_type!`, `ctx!` | `Model/CtxParse` | `aegir_derive/src/ctx/*.rs`, `lib.rs` |
| tokens of `ctx_type!` | `Model/CtxTokens` | `aegir_derive/src/ctx/ctx_type.rs` L55-139 |
| `#[derive(Contains)]` | `Model/DeriveOps` | `aegir_derive/src/ops.rs` |
| `ids!` and the built-in identifiers | `Model/Ids` | `aegir_derive/src/ids.rs`, `lib.rs` |
| example programs | `Model/Examples` | `aegir/examples/*.rs`; random draws are inputs, printing and timing left out |
| benchmark programs | `Model/Benches` | `aegir/benches/*.rs`; random draws are inputs, the timing harness left out |
| specification (independent) | `Spec/*` | none: plain mathematics |
| tests of the translation | `Tests/Repo` | unit tests and documentation of the repository, run on the model |
| concrete cases | `Tests/Cases` | further applications of theorems to concrete inputs, beside those next to the theorems |
| helper lemmas | `Lemmas/*` | none |
| property theorems | `Props/C*.lean` | one file per property or group |

### Modelling conventions

* A Rust panic is an explicit value (`Res.panic`, or `none` in functions documented as such); a
  returned error is `Res.err`. Nothing is totalised silently.
* `&mut` becomes returning the new value; `evaluate*` is state-passing over the context (`EvalM`)
  because `Cached` writes to it.
* Types: Rust picks trait impls at compile time. `BTy` is the set of buffer types; `ZipImpl`,
  `ContractImpl`, `ConcatImpl` are the tables of trait impls (one constructor per `impl` block).
  `Node` is the untyped operator tree; `FnImpl Γ e τ` is the derivation that `e` implements
  `Function<C>` with value type `τ`, i.e. the tree after trait resolution. Evaluation is defined on
  `FnImpl`, differentiation on `Node` (as in the code, where `adjoint` only builds a node); a
  missing `Differentiable` impl is `none`.
* A scalar type is any type with the usual operators and `ScalarFns`; algebraic laws are explicit
  hypotheses (commutative ring, `LawfulScalar`, `LawfulPow`) and are used only where the claim needs
  them. Claims without them therefore also cover `f32`/`f64` and machine integers.
* Calculus claims (C28-C32, C36, C39_real, C45, C47, C56) and the programs of C53, C54 and C58 are about `ScalarFns ℝ`
  (`Spec/Real`), that is, exact real
  arithmetic with Mathlib's functions: an idealisation of floats. `Float::infinity` has no real
  counterpart; no theorem depends on the value chosen for it.
* Macros: `syn`'s parsing of tokens into syntax trees is trusted; for arithmetic in `aegir!` it is
  described by a grammar (`Spec/Source`). `Model/Compile` starts from the parsed expression and ends with the printed tokens, `Model/CtxParse` starts from parsed fields and
  attributes, `Model/Ids` from tokens. What `quote!` emits is modelled as data (method calls,
  accessors, impls), not as Rust text, except for `aegir!`, whose output tokens are read back by a
  model of Rust's precedence rules.

### Not modelled

Floating-point arithmetic is modelled in three ways: by the standard model of rounding (`Spec/Rounding`, C61, of which
`Spec/Float`, round to nearest with unbounded exponent, is an instance), qualitatively, as convergence when the precision grows
(C74), and by IEEE formats with overflow, underflow, infinities and NaN (`Spec/Ieee`, C77, C78, C80, C82, C83, C84, C86, C90). `Spec/Ieee` has
a single zero; C86 shows where the sign of zero matters (`Spec/SignedZero`). Not modelled are
payloads of NaN, and the actual errors of the platform's elementary functions: in `Spec/Ieee` these are
correctly rounded, `Spec/Exponential` allows any relative error for the exponential function. Integer scalars are mathematical integers, residues (C62, release builds) or integers with
overflow checks (C69, where a panicking operation leaves a marked entry instead of ending the run);
`usize` is unbounded except for saturation in `size_hint`. Also left out are the `ndarray` feature (commented out of the
build, `buffers/mod.rs` L613-616), `Debug` output, doc strings and spans generated by macros, memory
layout (except that an array is its elements one after the other, where `unsafe` code reads it: `Model/Unsafe`, C87), compile-time failures other than missing impls, performance.

## Trusted base

* Lean's kernel (4.33.0) and Mathlib's definitions used in statements (`ℝ`, `HasDerivAt`,
  `Real.Gamma`, ..).
* The axioms `propext`, `Classical.choice`, `Quot.sound`. `Verif/Audit.lean` collects the axioms of
  every theorem in MANIFEST.json at build time and fails on any other.
* The faithfulness of the hand translation of the Rust text (every definition cites file and lines).
  `Tests/Repo` runs the repository's own tests on the model; the few that compare transcendental
  functions with decimals are left to C45 and C47.
* The specification modules `Spec/*`.
* `syn`, `quote`, `paste` and Rust's semantics of the generated code, as far as described above.

`tools/` holds the scripts that generate MANIFEST.json, `Verif/Audit.lean` and `Verif.lean`, and the
mutation harness; none of them is trusted. `seeded/LOG.jsonl` records every mutation tried.

## Disagreements between code and properties

Each is proved with a concrete witness or for a whole class of inputs; the property is then `partial`.

| property | what the code does | theorem |
|---|---|---|
| C02 | the runtime iterator of a shape with no axes yields nothing, instead of the empty index | `C02_dim0_violation` |
| C04 | the runtime iterator restarts after its `None` | `C04_restarts`, `C04_periodic` |
| C11, C13 | `zip_map` of a scalar with an array of rank >= 2 swaps the arguments of the function | `C11_violation`, `C13_zip_violation` |
| C15 | matrix-vector panics with fewer rows than columns; vector-matrix drops columns | `C15_mv_violation`, `C15_vm_violation` |
| C18 | `Power` and `Sum` report a shape although evaluation fails, and do not fill caches | `C18_violation_error`, `C18_violation_shape` |
| C19 | `0 ^ 0` and `0 ^ -1` with compressed base are 0; consequences of C11 and C15 | `C19_violation_*` |
| C21 | consequence of C15: evaluation can panic without any mismatch | `C21_violation` |
| C22 | `Add`, `Sub`, `Mul` panic on `Vec`s of different lengths instead of reporting | `C22_violation` |
| C26 | a cache can change a value (through `Power`, or scalar minus array) or the kind of failure | `C26_violation_*` |
| C28 | `Cached` only has an adjoint with respect to its own identifier, and that one is wrong | `C28_violation_cached` |
| C31 | the adjoint of `Sum` is not summed | `C31_violation` |
| C32 | the adjoint of a tensor product has its axes in the wrong order | `C32_violation` |
| C36 | nothing has a third adjoint; constants, sign, gamma, loggamma have no second; the second adjoint of an inner product with respect to a vector has no impl | `C36_violation_*` |
| C37 | wrong symbolic rules for `Erf`, `DiGamma`, `Power`, and for arrays | `C37_violation_*` |
| C38 | different expressions are rendered alike | `C38_violation_*` |
| C40 | `Dual * V` does not scale the adjoint | `C40_violation_mul` |
| C41 | the expansion of `aegir!` is printed without brackets: prefix operators recapture | `C41_violation_prefix` |
| C41 | integer literals become constants of type `i64`, so `aegir!(x * 3)` is no expression over floats (`x ^ 2` is) | `C41_violation_int` |
| C68 | `aegir!` writes powers with `^`, which binds weaker than `+` and `*` in Rust: `x ^ y + z` is `x.pow(y.add(z))` | `C68_violation` |
| C43 | `#[cache]` on `Option<[T; N]>` and `#[id(a::b)]` panic; `Option<T>::S` is accepted | `C43_violation_*` |
| C44 | identifiers without symbol display `type_id`; symbols are format strings | `C44_violation_*` |
| C46 | class precedence is not commutative on `Arrays`/`Vecs` | `C46_violation_comm` |
| C49 | `Dual * V` leaves the adjoint unscaled, so `evaluate_dual` and dual arithmetic differ | `C49_violation_mulV` |
| C50 | `#[derive(Contains)]` panics on unmarked fields, emits an empty body for no fields, and a second parameter `I` if the struct has one | `C50_violation_unmarked`, `C50_violation_empty`, `C50_violation_param` |
| C51 | `ctx!` gives keys that differ in case only the same field name | `C51_violation_case` |
| C52 | A compressed zero as base of `Power` makes substitution differ from binding (the arm behind C19) | `C52_violation` |
| C56 | doubled operands lose their brackets in exponents and denominators (`𝑒^2 ∘ x`, `y / 2 ∘ x`); `sinh(1)` and `1 + x` are printed as something else; infinities of the wrong sign | `C56_violation_*` |
| C80 | in double precision the logistic example can end with all weights NaN: once the computed probability is one, a sample with label zero gives zero divided by zero; reachable with the program's own constants | `C80_violation`, `C80_nan`, `C80_poison` |
| C83 | the two logistic benchmarks do not compute the same thing in five dimensions in double precision: for some draws the library's gradient ends with all weights NaN, the one written by hand does not | `C83_violation` |
| C90 | derivatives computed as NaN where the function is differentiable: `x ln x` at negative numbers, `0/y` when `y²` underflows, `s⁰` at zero, `0ˢ`; the derivative `1/y` of `x/y` computed as zero or infinity when `y²` overflows or underflows | `C90_violation_*` |

Further facts, proved but not against a listed property: matrix-vector products have no evaluable
adjoint (`C29_matrix_not_evaluable`); the adjoint of a dot product is right only if the left factor is
affine (`C29_limit_not_affine`); evaluating value and adjoint together may fill caches that the adjoint
reads (`C35_cached_caveat`); `0 * x = 0` shortcuts are wrong for NaN (`C14_nan_caveat`,
`C33_nan_caveat`); the two logistic gradients of the benchmark differ for labels other than
zero and one (`C58_logistic_caveat`); error messages do not say where in
the expression the error arose (`C59_position_caveat`); a context type whose `read_spec` compresses changes `0 ^ 0` (`C60_spec_caveat`);
`Sigma`, `Tau`, `Upsilon` have the symbols of other letters (`C44_greek_caveat`).

## Plan per property

* C01 fixed shapes: `Shape.indices` as nested `iproduct`; prove membership, no duplicates,
  sortedness, length, by induction on the dimension list.
* C02-C04 runtime iterator: `MultiProduct` as a state machine over a list of per-axis states;
  invariant relating the state to a position in the lexicographic list; simulation by induction on
  the number of `next` calls. DIM = 0 and restart-after-exhaustion are expected violations.
* C05 concat/split on index lists. C06 broadcast on `ZipImpl`/shapes.
* C07-C10 buffers: nested arrays as `Vector (Vector ..)` by recursion on dimensions; loops kept as
  loops; characterise by `get`.
* C11-C12 zips over the impl table. Expected violation: scalar on the left of a rank>=2 array.
* C13 Spec refinement. C14-C16 contraction, dense/spec/shape. Expected violation: non-square
  matrix-vector and vector-matrix.
* C17-C22 evaluation: structural induction on `FnImpl`, refinement to the tensor semantics in
  `Spec/Tensor`. Expected violations: Power 0^0 shortcut, Vec mismatch panics.
* C23-C27 context effects: frame, non-interference (two-run), coherence invariant, memoisation.
* C28-C36 differentiation over ℝ with `HasDerivAt`: induction on expressions. Expected violations:
  Sum, tensor product axis order, third derivatives do not exist.
* C37-C38 formatting: rewriting soundness by induction; counterexamples for the wrong rules.
* C39-C40 dual numbers. Expected violation: `Dual * V`.
* C41 `aegir!`: syntax-tree fold, semantic preservation by induction.
* C42-C43 derived contexts and attribute parsing: store laws over histories, decision table.
* C44 identifiers. C45 special functions over ℝ. C46 precedence table.
* C47 elementary functions over ℝ. C48 typing rules on extents against the impl tables.
* C49 node adjoints against dual arithmetic. C50 `#[derive(Contains)]`. C51 `ctx!`. C52 substitution against binding, with caches by C26.
* C53-C55 the example programs, on top of C19, C21 and C27: refinement to a textbook specification, then
  an invariant over the list of draws.
* C56 rendered text: an inductive relation between texts and numbers by level of precedence (`Spec/Notation`),
  induction on expressions on top of C19.
* C57 formal derivatives: a relation between expressions and Mathlib's `MvPolynomial`
  (`Spec/Polynomial`); adjoints against `pderiv` by induction, values through C19 and C21.
* C58 the benchmark programs, on top of C53 and C54.
* C59 error messages: injectivity of the texts by splitting at non-digits; look-up order by a predicate
  closed under the combinators of evaluation.
* C60 context types: a second evaluator over an abstract `Read`/`Write` record, related to the first by a
  refinement relation closed under the combinators of evaluation; derived structs satisfy the laws by C42.
* C61 rounding: a relation "near" between rounded and exact tensors (error at most ((1+u)^k - 1) times a
  bound) closed under every operator and arm of the compressed arithmetic, by induction over `FnImpl`; the
  derivative by C30 on the exact side.
* C62 change of scalars: every operator of buffers and compressed buffers is natural in the scalars
  (`Lemmas/Convert`), so evaluation commutes with the conversion, by induction over `FnImpl`; modular
  arithmetic through the tensor semantics (`Lemmas/Image`).
* C63 joint derivatives: the tensor semantics is differentiable in all varied entries at once
  (`Lemmas/TotalDeriv`), its partial derivatives are those of C28-C32, and evaluation agrees with it near
  the context (`Lemmas/TotalEval`).
* C64 mixed second adjoints: the tensor semantics is twice continuously differentiable
  (`Lemmas/Second`), its second derivative is symmetric, and evaluation agrees with it near the context
  (`Lemmas/SecondEval`).
* C65 cost: a copy of the evaluator that records its calls of `Read` and `Write` (`Model/Trace`), shown
  equal to the evaluator after forgetting the record (`C65_erase`); the record is compared with the
  occurrences of identifiers (`Spec/Cost`), and sizes of adjoints are bounded by induction.
* C66 scalar programs end to end: the meaning of a program is defined on its source (`Spec/Program`);
  an invariant between nodes and meanings (`Represents` in `Lemmas/Program`) is carried through
  `C41_expansion`, then evaluated with C48 and C35 and differentiated with C28.
* C67 `ctx_type!` end to end: a grammar (`Spec/CtxTokens`) equals the parser by induction on the
  tokens; the declared struct is followed through C43 into the store of C42, and programs of C66 are
  evaluated in it with C60 and C24.
* C68 reading the source of `aegir!`: both grammars are tables of binding strengths (`Spec/Source`);
  Rust's is shown to be unambiguous with a precedence-climbing parser (`Lemmas/Source`), and the two
  are compared by induction on derivations.
* C69 scalars that stand for numbers: a relation between scalars and numbers that the arithmetic
  respects (`Spec/Abstraction`) is carried through evaluation by induction on the derivation
  (`Lemmas/AbstractionExpr`); machine integers, NaN and intervals are instances (`Spec/Machine`).
* C70 programs with vectors: every source expression with a meaning (`Spec/VecProgram`) stands for a
  node that is well typed together with its adjoints, denotes that meaning and satisfies `Smooth`
  where calculus applies (`Lemmas/VecProgram`, by induction on the source); then C19, C28 and C41.
* C71 formal derivatives: first-order agreement modulo the square of an ideal (`Lemmas/Formal`,
  `Near`) is preserved by the ring operations and by finite sums, so that induction on the expression
  gives the expansion for one target; several targets follow by changing one after the other, since
  adjoints at contexts that agree modulo the ideal agree modulo the ideal (`den_mod`).
* C72 forward mode: the tensor semantics over dual numbers (`Spec/Forward`) is compared with a curve of
  real tensors, by induction on the expression (`Lemmas/Forward`, `den_forward`); evaluations over both
  number systems are instances of C19, whose condition on `Power` holds near the point by continuity.
  C63 and uniqueness of derivatives give the agreement with adjoints.
* C73 mixed second derivatives: an adjoint with respect to a scalar has the extents and the type of the
  expression (`level_adjoint`, `scalar_target_impl`); the values of the two second adjoints are equal by
  induction on the expression and ring identities (`mixed_val`); C19 carries this over to evaluation.
* C74 convergence: an arithmetic of finite precision (`Spec/Approx`) extends the standard model by division,
  powers and library functions; every operator is continuous as computed (`lim_un`, `step_two`,
  `step_sum`), so that by induction every tolerance of a node is met by some precision of its operands
  (`exists_suffices`). `Approximates.adjoint` and `ContinuousFor.adjoint` carry this over to adjoints.
* C75 convergence of linear.rs: `C53_run` reduces the program to least mean squares (`Spec/Learning`). For given
  samples the errors of the first weights are bounded by those made along the way (`sumErr_le`), which
  C53 bounds by the loss of distance; a positive definite form is bounded below on the sphere
  (`exists_excitation`). For random samples the weights are independent of the next sample
  (`indep_weights`), so that by Fubini one step shrinks the mean (`step_mean`, `mean_dist`), and summable
  means give convergence almost everywhere (`weights_tendsto`).
* C76 linear.rs with rounding: `FnImpl.near_spec` (C61) bounds the evaluated adjoint, `near` is threaded through
  the label and the update (`linearStep_near`), the triangle inequality turns the entrywise bound into one
  for the distance (`perturbed_step`), and `mean_affine` iterates a bound `E V' <= c V + b` along independent
  samples. Samples come from a countable set, so that nothing need be known about the measurability of
  machine operations.
* C77 overflow and underflow: `Spec/Range.lean` states what IEEE operations promise (`Ranged`), `Spec/Ieee.lean`
  constructs the binary formats and proves they keep the promise (`Fp.ranged`). The analysis of C61 is stated over an
  abstract judgement of entries (`Calc`, Lemmas/Calc.lean, Lemmas/RoundingContract.lean, Lemmas/RoundingExpr.lean) and
  instantiated three times: `nearJ` (C61), `finiteJ` (accurate if finite), `rangedJ` (finite and accurate),
  Lemmas/RangeCalc.lean. Underflow is absorbed by a floor: a magnitude that is not zero is at least `t^(k+1)` after `k`
  roundings when all data count as at least `t`. Lemmas/RangeBound.lean bounds magnitudes by `B^(k+1)`.
* C78 linear.rs in IEEE arithmetic: the judgement `rangedJ` of C77 in place of `near` throughout C76
  (Lemmas/LearningRange.lean). `Sizes` collects how large data may be for no intermediate result to leave the range;
  the weights stay within `R` of the true ones because an exact step does not increase the distance and rounding adds
  at most `beta` per iteration. The mean is C76's (`noisy_mean`, Lemmas/LearningMean.lean).
* C79 logistic.rs with random labels: averaged over the label, a step of ascent changes the squared distance to the true
  weights by `-2 eta gap + eta^2 |x|^2 (variance + squared error)` (`ascent_mean`), where the gap
  `(p - q)(a - b)` is at least four times the squared error of the probability (`sq_le_gap`) and at least
  `m t^2 / (1 + |t|)` (`gap_ge`). `mean_spent` (Lemmas/LearningIter.lean) adds this up along independent draws;
  Markov's inequality gives `C79_limit`.
* C80 logistic.rs in IEEE arithmetic: `likelihood_op` (Lemmas/LogisticOp.lean) says what the gradient computes, operation by
  operation, for arbitrary scalars; `Spec/Exponential` adds comparison, division and the exponential function to the laws of
  `Spec/Range`; `C80_gradient` bounds the error of the quotient, which is exact where it matters because labels are zero or
  one. `C80_run` follows exact ascent, whose steps do not expand distances (`ascent_nonexpansive`). `C80_moderate`: the squared
  length of the weights grows by at most `0.564 eta + eta^2 N` per step for any draws, hence 800000 iterations are safe
  (`C80_double_partial`). For the negation, `climb` chooses samples that keep the log-odds near 1.278, where ascent gains most,
  until a sample with log-odds above 37 can be drawn (`C80_violation`); `C80_poison`: NaN spreads and stays.
* C81 likelihood of the failure of C80: `exp(kappa * squared distance to the true weights)` grows by a factor close to one per
  iteration on average as long as the distance is below `l`, because a correctly labelled sample moves the weights towards
  the true ones on average. Stopping at `l` (`Lemmas/LearningStop`, `ever_le`) bounds the probability that the distance ever
  exceeds `l` (`C81_far`); where it does not, `C80_run` applies (`C81_double`).
* C82 linear benches in any arithmetic: `sse_op`, `manual_op` say what the gradients compute, operation by operation; they
  differ from the plain loop by products with one and by the order of factors (`C82_gradient`, `C82_linear`). `C82_ieee`
  shows that neither matters in `Spec/Ieee`. `C82_example` reduces the benchmark to the example.
* C83 logistic benches in double precision: `C83_example` reduces the program with the library's gradient to the example, hence
  C80 applies with the other rate (`C83_auto_two`, `C83_auto_five_partial`, `nan_of_rate`). The gradient written by hand does not
  divide, so `C83_gradient` and `C83_manual` need no bound on the log-odds.
* C84 linear benches learn: C78 (for any dimension up to thirty) transferred by C82; Markov's inequality turns the expected
  distance into a probability, and the error of rounding the table is added.
* C85 chain rule: in the tensor semantics every adjoint is linear in the adjoints of the operands (`Lemmas/Chain`), by
  induction on the expression; no smoothness is used, so the rule also holds for the code's wrong formulas (e.g. of `Sum`).
  C19 and totality carry it over to evaluation. The substituted variable is a scalar, since an array-valued one would call
  for a contraction that the code does not perform.
* C86 signed zeros: `Spec/SignedZero` adds the sign bit of zeros to `Spec/Ieee`. Forgetting it is a conversion of scalars in
  the sense of C62, which settles expressions; `C86_violation` shows that the exclusion of quotients is needed. For the
  programs the loops are followed operation by operation (C80, C82): the divisor in the logistic gradient is a sum whose first
  term has no sign, and a sum is the negative zero only if both terms are. C77, C78, C80-C84 are thereby not affected by the
  single zero of their arithmetic, as far as they concern these programs.
* C87 `unsafe`: `Model/Unsafe` has undefined behaviour as an outcome beside returning and panicking, and models
  `unwrap_unchecked`, the raw read and the ownership of the elements read. By induction over the rank the rows are never
  errors; the guard `M == N` makes the read the identity. The model of safe code (`Model/Array`, `Model/Contract`) is shown to
  be what the unsafe code computes. Trusted: `array_init`, and that arrays are laid out without padding.
* C88 rare failures: the supermartingale of C81 with the drift it neglected. Where the log-odds are off by d, the expected pull
  is at least the variance of the label times d^2 / (1 + |d|) (`logistic_away`), so it outweighs the noise for exponents up
  to a quarter of the reciprocal of rate times distance; that gives 10^-240 instead of 10^-12, and covers the benchmark, whose rate is
  twice that of the example.
* C89 learning in double precision: `outcome` is the specification (mean squared error of the returned weights, one for a failed
  run). The expected squared distance is used up as in C79, with labels whose probability is off by 2^-40
  (`flip_mean_le`); the program follows that ascent within 10^-8 except on the rare draws of C88, which count with error one.
* C90 NaN: `Fp.Defined` (`Spec/Defined.lean`) tabulates where each operator has a value or limit. `adjointAt`
  (`Lemmas/AdjointAt.lean`) runs `evaluate_adjoint` in a context with two scalars; the lemmas beside it say which operations are
  carried out, shortcuts for zero buffers included. For C90 the functions of `Spec/Ieee` have their limits as values at
  infinities and NaN at poles.
* C91 Minima: `Curved` (`Spec/Convex.lean`) has the rules by which an expression is affine, convex or concave by construction,
  without domains; among them is the log-likelihood of `logistic.rs` as a whole, whose parts are neither convex nor concave.
  `Curvature.Rel` is `=`, `≤` or `≥`.
* C92 Batches: `Spec/Batch.lean` has sums of values and of adjoints over a family of contexts in which the same entries are set, and
  the sequence of entries of gradient descent. The examples in the repository are stochastic; nothing in it runs batches, the loop
  is part of the specification.
* C93 Second adjoints: no new specification; statements are about the values `evaluate` returns for an expression, its adjoint and
  its second adjoint as one scalar variable changes. Newton's iteration is a hypothesis on a sequence of numbers, as nothing in the
  repository runs it.
* C94 Finite changes: no new specification; mean values, bounds, monotonicity and independence are stated of what `evaluate`
  returns for the expression and its adjoints in contexts that differ in the entries `S` (`setEntries`, `Spec/TotalDeriv`).
* C95 Laws: `Spec/Laws` lists the equations (`Law`), closed under replacing operands; the code has no such rewriting, the
  property is that evaluation of differently written expressions agrees, and that adjoints, though built from the way an
  expression is written, depend on its values alone.
* C96 Hessians: `HasEntry` (`Spec/Entry`) says that an entry of what `evaluate` returns is a given number; the matrices are
  made of the entries of evaluated second adjoints. No third order: `ConstantAdjoint` is not differentiable (C36).
