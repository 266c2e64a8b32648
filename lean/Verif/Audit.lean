import Verif.Props.C01_C06_Shapes
import Verif.Props.C02_C04_RuntimeIter
import Verif.Props.C07_C10_Buffers
import Verif.Props.C11_C12_Zip
import Verif.Props.C13_C16_SpecContract
import Verif.Props.C17_C18_Agreement
import Verif.Props.C19_Tensor
import Verif.Props.C20_C22_Errors
import Verif.Props.C23_C27_Contexts
import Verif.Props.C26_Caching
import Verif.Props.C28_C32_Derivatives
import Verif.Props.C33_AbsentTarget
import Verif.Props.C34_C35_Adjoints
import Verif.Props.C36_Repeat
import Verif.Props.C37_C38_Rendering
import Verif.Props.C39_C40_Dual
import Verif.Props.C41_Compile
import Verif.Props.C42_Store
import Verif.Props.C43_CtxParse
import Verif.Props.C44_Ids
import Verif.Props.C45_Special
import Verif.Props.C46_Precedence
import Verif.Props.C47_Elementary
import Verif.Props.C48_Typing
import Verif.Props.C49_DualNodes
import Verif.Props.C50_DeriveContains
import Verif.Props.C51_CtxMacro
import Verif.Props.C52_Substitution
import Verif.Props.C53_LinearExample
import Verif.Props.C54_LogisticExample
import Verif.Props.C55_CachingExample
import Verif.Props.C56_Notation
import Verif.Props.C57_Polynomial
import Verif.Props.C58_Benches
import Verif.Props.C59_Messages
import Verif.Props.C60_Contexts
import Verif.Props.C61_Rounding
import Verif.Props.C62_Scalars
import Verif.Props.C63_Total
import Verif.Props.C64_Symmetric
import Verif.Props.C65_Cost
import Verif.Props.C66_Programs
import Verif.Props.C67_ContextSource
import Verif.Props.C68_Source
import Verif.Props.C69_Abstraction
import Verif.Props.C70_VectorPrograms
import Verif.Props.C71_FormalDerivatives
import Verif.Props.C72_ForwardMode
import Verif.Props.C73_MixedDerivatives
import Verif.Props.C74_Precision
import Verif.Props.C75_LinearConverges
import Verif.Props.C76_LinearFloat
import Verif.Props.C77_Range
import Verif.Props.C78_LinearDouble
import Verif.Props.C79_LogisticLearns
import Verif.Props.C80_LogisticDouble
import Verif.Props.C81_LogisticLikely
import Verif.Props.C82_LinearBenches
import Verif.Props.C83_LogisticBenches
import Verif.Props.C84_LinearLearns
import Verif.Props.C85_ChainRule
import Verif.Props.C86_SignedZeros
import Verif.Props.C87_Unsafe
import Verif.Props.C88_LogisticRare
import Verif.Props.C89_LogisticLearnsDouble
import Verif.Props.C90_Nan
import Verif.Props.C91_Convex
import Verif.Props.C92_Batch
import Verif.Props.C93_Second
import Verif.Props.C94_Changes
import Verif.Props.C95_Laws
import Verif.Props.C96_Hessian
import Lean.Elab.Command
import Lean.Util.CollectAxioms
/-!
# Axiom audit

Fails to build if a property theorem depends on an axiom other than `propext`, `Classical.choice`
and `Quot.sound`. Generated list: every theorem named in MANIFEST.json.
-/

open Lean Elab Command in
/-- `audit_axioms n₁ n₂ ..` checks the axioms of each constant. -/
elab "audit_axioms " ns:ident* : command => do
  for n in ns do
    let axs ← liftCoreM (collectAxioms n.getId)
    for a in axs do
      unless a ∈ [``propext, ``Classical.choice, ``Quot.sound] do
        throwError "{n.getId} depends on axiom {a}"

audit_axioms
  Aegir.Props.C01_contains_iff
  Aegir.Props.C01_indices_rowMajor
  Aegir.Props.C01_indices_exact
  Aegir.Props.C01_cardinality
  Aegir.Props.C01_rowMajor_unique
  Aegir.Props.C01_equivalent
  Aegir.Props.C01_dim
  Aegir.Props.C02_iterator_exact_partial
  Aegir.Props.C02_never_panics
  Aegir.Props.C02_dim0_violation
  Aegir.Props.C03_count_remaining
  Aegir.Props.C03_sizeHint_exact
  Aegir.Props.C03_sizeHint_brackets
  Aegir.Props.C03_hint_arithmetic
  Aegir.Props.C03_hint_sharp
  Aegir.Props.C04_fused_partial
  Aegir.Props.C04_periodic
  Aegir.Props.C04_restarts
  Aegir.Props.C05_contains_concat
  Aegir.Props.C05_cardinality_concat
  Aegir.Props.C05_indices_concat
  Aegir.Props.C05_concatIndices_injective
  Aegir.Props.C05_split_concat
  Aegir.Props.C05_splitIndex_concat
  Aegir.Props.C05_concat_split
  Aegir.Props.C05_contains_split
  Aegir.Props.C05_concat_impls
  Aegir.Props.C05_concat_assoc
  Aegir.Props.C06_broadcast_sound
  Aegir.Props.C06_scalar_unit
  Aegir.Props.C06_idempotent
  Aegir.Props.C06_dynamic
  Aegir.Props.C06_error_only_dynamic
  Aegir.Props.C06_comm
  Aegir.Props.C06_reverse_involutive
  Aegir.Props.C07_shape_build
  Aegir.Props.C07_get_build
  Aegir.Props.C07_get_total
  Aegir.Props.C07_get_unchecked
  Aegir.Props.C07_ext
  Aegir.Props.C07_build_get
  Aegir.Props.C07_special_builders
  Aegir.Props.C07_special_shapes
  Aegir.Props.C08_build_subset
  Aegir.Props.C08_out_of_range_panics
  Aegir.Props.C08_tuple_ignores
  Aegir.Props.C09_map_pointwise
  Aegir.Props.C09_mapRef_eq_map
  Aegir.Props.C09_mutate_eq_map
  Aegir.Props.C09_mapRef_default
  Aegir.Props.C09_map_functor
  Aegir.Props.C10_fold_rowMajor
  Aegir.Props.C10_entries_unique
  Aegir.Props.C10_default_fold
  Aegir.Props.C10_sum
  Aegir.Props.C11_zip_pointwise_partial
  Aegir.Props.C11_zip_ok_iff
  Aegir.Props.C11_zip_error
  Aegir.Props.C11_zip_unique
  Aegir.Props.C11_violation
  Aegir.Props.C11_violation_witness
  Aegir.Props.C12_zipMapId
  Aegir.Props.C12_zipMut
  Aegir.Props.C12_zipFold
  Aegir.Props.C12_zipShape_entries
  Aegir.Props.C12_zipShape
  Aegir.Props.C12_broadcast
  Aegir.Props.C13_shape
  Aegir.Props.C13_unwrap_entries
  Aegir.Props.C13_map
  Aegir.Props.C13_zip_partial
  Aegir.Props.C13_zip_violation
  Aegir.Props.C14_contract_spec
  Aegir.Props.C14_no_error
  Aegir.Props.C14_nan_caveat
  Aegir.Props.C15_contract_partial
  Aegir.Props.C15_panics_iff
  Aegir.Props.C15_vm_truncates
  Aegir.Props.C15_vm_violation
  Aegir.Props.C15_mv_violation
  Aegir.Props.C15_mv_ill_typed
  Aegir.Props.C16_contract_shape
  Aegir.Props.C16_extents
  Aegir.Props.C16_lookup
  Aegir.Props.C17_evaluate_eq_spec_unwrap
  Aegir.Props.C17_evaluate_eq_spec_unwrap_no_laws
  Aegir.Props.C18_shape_partial
  Aegir.Props.C18_shape_of_spec_partial
  Aegir.Props.C18_shape_cache_free_partial
  Aegir.Props.C18_violation_error
  Aegir.Props.C18_violation_shape
  Aegir.Props.C19_value_partial
  Aegir.Props.C19_spec_shape_partial
  Aegir.Props.C19_value_cache_free_partial
  Aegir.Props.C19_violation_power
  Aegir.Props.C19_violation_sub
  Aegir.Props.C19_violation_div
  Aegir.Props.C19_violation_vm
  Aegir.C20_left
  Aegir.C20_left_shape
  Aegir.C20_right
  Aegir.C20_right_shape
  Aegir.C20_output
  Aegir.C20_undefined
  Aegir.C20_defined
  Aegir.C20_unary
  Aegir.C20_sum
  Aegir.C20_trace
  Aegir.C20_trace_subexpr
  Aegir.C21_total_partial
  Aegir.C21_violation
  Aegir.C22_shape
  Aegir.C22_div
  Aegir.C22_mismatch_partial
  Aegir.C22_violation
  Aegir.C23_only_caches
  Aegir.C23_no_overwrite
  Aegir.C23_no_caches
  Aegir.C24_local
  Aegir.C24_local_ctx
  Aegir.C25_contains_iff
  Aegir.C25_adjoint
  Aegir.C25_adjoint_occurs
  Aegir.Props.C26_transparent_partial
  Aegir.Props.C26_transparent_spec_partial
  Aegir.Props.C26_history_partial
  Aegir.Props.C26_empty
  Aegir.Props.C26_violation_power
  Aegir.Props.C26_violation_sub
  Aegir.Props.C26_violation_error
  Aegir.C27_hit
  Aegir.C27_miss
  Aegir.C27_failure
  Aegir.C27_failure_entry
  Aegir.C27_step_keeps
  Aegir.C27_first_value_wins
  Aegir.C27_idempotent
  Aegir.C27_repeatable
  Aegir.Props.C28_along_self
  Aegir.Props.C28_evaluable_partial
  Aegir.Props.C28_scalar_partial
  Aegir.Props.C28_violation_cached
  Aegir.Props.C29_gradient
  Aegir.Props.C29_array_target
  Aegir.Props.C29_matrix_not_evaluable
  Aegir.Props.C29_limit_not_affine
  Aegir.Props.C30_tensor_partial
  Aegir.Props.C31_unreduced_partial
  Aegir.Props.C31_scalar_partial
  Aegir.Props.C31_violation
  Aegir.Props.C32_axis_order_partial
  Aegir.Props.C32_violation
  Aegir.Props.C33_zero
  Aegir.Props.C33_zero_spec
  Aegir.Props.C33_nan_caveat
  Aegir.Props.C34_identity
  Aegir.Props.C34_zero
  Aegir.Props.C34_shape
  Aegir.Props.C34_left
  Aegir.Props.C34_right
  Aegir.Props.C34_constant
  Aegir.Props.C35_ok_iff
  Aegir.Props.C35_err_iff
  Aegir.Props.C35_cache_free
  Aegir.Props.C35_cached_caveat
  Aegir.Props.C36_first_exists
  Aegir.Props.C36_second_exists
  Aegir.Props.C36_second_derivative_partial
  Aegir.Props.C36_second_partials_partial
  Aegir.Props.C36_violation_third
  Aegir.Props.C36_violation_second
  Aegir.Props.C36_violation_hessian
  Aegir.C37_sound_partial
  Aegir.C37_violation_erf
  Aegir.C37_violation_digamma
  Aegir.C37_violation_power
  Aegir.C37_violation_arrays
  Aegir.C37_text
  Aegir.C38_injective_partial
  Aegir.C38_violation_addOne
  Aegir.C38_violation_power
  Aegir.C38_violation_negate
  Aegir.C38_violation_asin
  Aegir.C38_violation_empty
  Aegir.C39_polynomial
  Aegir.C39_directional
  Aegir.C39_constants
  Aegir.C39_init
  Aegir.C39_conj_conj
  Aegir.C39_conj_run
  Aegir.C39_mul_conj
  Aegir.C39_real
  Aegir.C40_add_sub
  Aegir.C40_refs
  Aegir.C40_mul_partial
  Aegir.C40_mul_only
  Aegir.C40_violation_mul
  Aegir.C41_fails_iff
  Aegir.C41_in_place
  Aegir.C41_complete
  Aegir.C41_node
  Aegir.C41_tokens_partial
  Aegir.C41_expansion
  Aegir.C41_violation_prefix
  Aegir.C41_meaning
  Aegir.C41_literals
  Aegir.C41_violation_int
  Aegir.C42_read_write
  Aegir.C42_frame
  Aegir.C42_independent
  Aegir.C42_reads_agree
  Aegir.C42_plain_some
  Aegir.C42_none_iff
  Aegir.C42_history_unwritten
  Aegir.C42_history_written
  Aegir.C42_refines
  Aegir.C43_verdict_partial
  Aegir.C43_accepts_iff_partial
  Aegir.C43_order
  Aegir.C43_cache_type
  Aegir.C43_violation_cache
  Aegir.C43_violation_prefix
  Aegir.C43_violation_id_path
  Aegir.C43_accessors
  Aegir.C43_accessor_iff
  Aegir.C43_ctx_type
  Aegir.C44_parse
  Aegir.C44_eq
  Aegir.C44_coherent
  Aegir.C44_foreign
  Aegir.C44_display_partial
  Aegir.C44_violation_name
  Aegir.C44_violation_alike
  Aegir.C44_violation_braces
  Aegir.C44_builtin
  Aegir.C44_letters
  Aegir.C44_greek_caveat
  Aegir.C45_entrywise
  Aegir.C45_compose
  Aegir.C45_entry
  Aegir.C45_sigmoid
  Aegir.C45_sigmoid_range
  Aegir.C45_square
  Aegir.C45_double
  Aegir.C45_xlnx
  Aegir.C45_arithmetic
  Aegir.C45_factorial
  Aegir.C45_erfc
  Aegir.C45_abs_sign
  Aegir.C45_spelled
  Aegir.C46_idempotent
  Aegir.C46_unit
  Aegir.C46_selects
  Aegir.C46_assoc
  Aegir.C46_comm_partial
  Aegir.C46_violation_comm
  Aegir.C46_concat_rank
  Aegir.C46_buffer
  Aegir.C46_adjoint_types
  Aegir.C46_no_vec
  Aegir.C46_adjoint_class_comm
  Aegir.C47_named
  Aegir.C47_dirac
  Aegir.C47_sign
  Aegir.C47_inverse
  Aegir.C48_type
  Aegir.C48_unique
  Aegir.C48_coherent
  Aegir.C48_resolve
  Aegir.C48_run
  Aegir.C48_runs
  Aegir.C49_agree_partial
  Aegir.C49_violation_mulV
  Aegir.C50_expands_iff
  Aegir.C50_header
  Aegir.C50_params
  Aegir.C50_contains_partial
  Aegir.C50_nodes
  Aegir.C50_violation_unmarked
  Aegir.C50_violation_empty
  Aegir.C50_violation_param
  Aegir.C51_expands
  Aegir.C51_accepted_iff
  Aegir.C51_read_partial
  Aegir.C51_violation_case
  Aegir.C52_type
  Aegir.C52_contains
  Aegir.C52_subst_partial
  Aegir.C52_cached_partial
  Aegir.C52_violation
  Aegir.Examples.C53_adjoint
  Aegir.Examples.C53_gradient
  Aegir.Examples.C53_step
  Aegir.Examples.C53_run
  Aegir.Examples.C53_distance
  Aegir.Examples.C53_loss
  Aegir.Examples.C53_program
  Aegir.Examples.C54_adjoint
  Aegir.Examples.C54_gen_bool_iff
  Aegir.Examples.C54_gen_bool
  Aegir.Examples.C54_likelihood
  Aegir.Examples.C54_gradient
  Aegir.Examples.C54_initial
  Aegir.Examples.C54_step
  Aegir.Examples.C54_run
  Aegir.Examples.C54_ascent
  Aegir.Examples.C54_likelihood_increases
  Aegir.Examples.C54_regret
  Aegir.Examples.C54_program
  Aegir.Examples.C55_basic
  Aegir.Examples.C55_plain
  Aegir.Examples.C55_cached
  Aegir.Examples.C55_reuse
  Aegir.C56_meaning_partial
  Aegir.C56_display_partial
  Aegir.C56_denotation_partial
  Aegir.C56_violation_exp
  Aegir.C56_violation_div
  Aegir.C56_violation_power
  Aegir.C56_violation_sinh
  Aegir.C56_violation_addOne
  Aegir.C56_limits
  Aegir.C56_imaginary
  Aegir.C56_violation_digamma
  Aegir.C56_violation_quotient
  Aegir.Props.C57_value
  Aegir.Props.C57_derivative
  Aegir.Props.C57_gradient
  Aegir.Props.C57_increment
  Aegir.Props.C57_extensional
  Aegir.Props.C57_symmetric
  Aegir.Benches.C58_linear_gradient
  Aegir.Benches.C58_linear
  Aegir.Benches.C58_linear_descent
  Aegir.Benches.C58_raw_panics
  Aegir.Benches.C58_logistic_gradient
  Aegir.Benches.C58_logistic
  Aegir.Benches.C58_logistic_caveat
  Aegir.C59_shapes
  Aegir.C59_mismatch
  Aegir.C59_broadcast
  Aegir.C59_cause
  Aegir.C59_same
  Aegir.C59_unique
  Aegir.C59_first
  Aegir.C59_first_spec
  Aegir.C59_first_shape
  Aegir.C59_some_first
  Aegir.C59_reads_needed
  Aegir.C59_position_caveat
  Aegir.C60_evaluate
  Aegir.C60_invariant
  Aegir.C60_default
  Aegir.C60_derived_lawful
  Aegir.C60_derived
  Aegir.C60_derived_frame
  Aegir.C60_history
  Aegir.C60_derivative_partial
  Aegir.C60_spec_caveat
  Aegir.C60_write_caveat
  Aegir.Props.C61_error
  Aegir.Props.C61_spec
  Aegir.Props.C61_gamma
  Aegir.Props.C61_exact
  Aegir.Props.C61_relative
  Aegir.Props.C61_derivative
  Aegir.Props.C61_convergence
  Aegir.Props.C61_dot
  Aegir.Props.C61_cancellation_caveat
  Aegir.Props.C61_double
  Aegir.Props.C62_evaluate
  Aegir.Props.C62_type
  Aegir.Props.C62_run
  Aegir.Props.C62_ring
  Aegir.Props.C62_modular
  Aegir.Props.C62_integers
  Aegir.Props.C62_integer_derivative
  Aegir.Props.C62_zero_caveat
  Aegir.Props.C63_total
  Aegir.Props.C63_chain
  Aegir.Props.C63_descent
  Aegir.Props.C64_mixed
  Aegir.Props.C64_symmetric
  Aegir.C65_erase
  Aegir.C65_reads
  Aegir.C65_prefix
  Aegir.C65_linear
  Aegir.C65_hit
  Aegir.C65_miss
  Aegir.C65_again
  Aegir.C65_adjoint_size
  Aegir.C65_adjoint_poly
  Aegir.C65_adjoint_calls
  Aegir.C65_quadratic
  Aegir.C66_compiles
  Aegir.C66_value
  Aegir.C66_derivative
  Aegir.C67_parse
  Aegir.C67_accepts
  Aegir.C67_struct
  Aegir.C67_ctx
  Aegir.C67_coherent
  Aegir.C67_fresh
  Aegir.C67_program
  Aegir.C68_unique
  Aegir.C68_agrees_iff_partial
  Aegir.C68_violation
  Aegir.C68_program_partial
  Aegir.Props.C69_value
  Aegir.Props.C69_adjoint
  Aegir.Props.C69_ring
  Aegir.Props.C69_derivative
  Aegir.Props.C69_runs
  Aegir.Props.C69_checked
  Aegir.Props.C69_checked_derivative
  Aegir.Props.C69_checked_caveat
  Aegir.Props.C69_nan
  Aegir.Props.C69_interval
  Aegir.Props.C69_slope
  Aegir.Props.C70_compiles
  Aegir.Props.C70_value
  Aegir.Props.C70_vector
  Aegir.Props.C70_gradient
  Aegir.Props.C70_derivative
  Aegir.Props.C70_readme
  Aegir.Props.C71_expansion
  Aegir.Props.C71_exact
  Aegir.Props.C71_entry
  Aegir.Props.C71_unique
  Aegir.Props.C72_forward
  Aegir.Props.C72_total
  Aegir.Props.C72_adjoint
  Aegir.Props.C73_exists
  Aegir.Props.C73_symmetric
  Aegir.Props.C73_real
  Aegir.Props.C73_negative_base
  Aegir.Props.C74_convergence
  Aegir.Props.C74_exact
  Aegir.Props.C74_derivative
  Aegir.Props.C74_float
  Aegir.Props.C74_limit
  Aegir.Props.C74_rounded
  Aegir.Props.C74_jump_caveat
  Aegir.Examples.C75_window
  Aegir.Examples.C75_iff
  Aegir.Examples.C75_random
  Aegir.Examples.C75_program
  Aegir.Examples.C75_digits
  Aegir.Examples.C76_step
  Aegir.Examples.C76_run
  Aegir.Examples.C76_gamma
  Aegir.Examples.C76_random
  Aegir.Examples.C76_program
  Aegir.Examples.C76_double
  Aegir.Examples.C76_drawn
  Aegir.Props.C77_accurate
  Aegir.Props.C77_accurate_spec
  Aegir.Props.C77_in_range
  Aegir.Props.C77_in_range_spec
  Aegir.Props.C77_derivative
  Aegir.Props.C77_moderate
  Aegir.Props.C77_double
  Aegir.Props.C77_double_safe
  Aegir.Props.C77_overflow_caveat
  Aegir.Props.C77_nan_caveat
  Aegir.Props.C77_underflow_caveat
  Aegir.Props.C77_not_standard_model
  Aegir.Examples.C78_step
  Aegir.Examples.C78_run
  Aegir.Examples.C78_random
  Aegir.Examples.C78_program
  Aegir.Examples.C78_drawn
  Aegir.Examples.C78_double
  Aegir.Examples.C79_random
  Aegir.Examples.C79_weights
  Aegir.Examples.C79_limit
  Aegir.Examples.C79_program
  Aegir.Examples.C80_sigmoid
  Aegir.Examples.C80_gen_bool
  Aegir.Examples.C80_gen_bool_iff
  Aegir.Examples.C80_gradient
  Aegir.Examples.C80_step
  Aegir.Examples.C80_run
  Aegir.Examples.C80_moderate
  Aegir.Examples.C80_double_partial
  Aegir.Examples.C80_saturates
  Aegir.Examples.C80_nan
  Aegir.Examples.C80_poison
  Aegir.Examples.C80_violation
  Aegir.Examples.C81_far
  Aegir.Examples.C81_double
  Aegir.Benches.C82_gradient
  Aegir.Benches.C82_linear
  Aegir.Benches.C82_example
  Aegir.Benches.C82_ieee
  Aegir.Benches.C83_example
  Aegir.Benches.C83_gradient
  Aegir.Benches.C83_manual
  Aegir.Benches.C83_auto_two
  Aegir.Benches.C83_agree_two
  Aegir.Benches.C83_auto_five_partial
  Aegir.Benches.C83_violation
  Aegir.Benches.C84_learns
  Aegir.Benches.C84_bench
  Aegir.Props.C85_chain
  Aegir.Props.C85_chain_self
  Aegir.Props.C85_gradient
  Aegir.Props.C85_evaluates
  Aegir.Props.C86_scalarMap
  Aegir.Props.C86_unary
  Aegir.Props.C86_division
  Aegir.Props.C86_power
  Aegir.Props.C86_evaluate
  Aegir.Props.C86_run
  Aegir.Props.C86_violation
  Aegir.Benches.C86_linear
  Aegir.Benches.C86_logistic
  Aegir.Benches.C86_benches
  Aegir.Benches.C86_byHand
  Aegir.Benches.C86_learns
  Aegir.Props.C87_unchecked
  Aegir.Props.C87_zip_self
  Aegir.Props.C87_zip_field_r
  Aegir.Props.C87_zip_field_l
  Aegir.Props.C87_zip_model
  Aegir.Props.C87_read
  Aegir.Props.C87_block
  Aegir.Props.C87_forget
  Aegir.Props.C87_contract_mv
  Aegir.Props.C87_contract_vm
  Aegir.Props.C87_contract_defined
  Aegir.Props.C87_contract_outcomes
  Aegir.Examples.C88_growth
  Aegir.Examples.C88_far
  Aegir.Examples.C88_double
  Aegir.Examples.C88_example
  Aegir.Benches.C88_bench
  Aegir.Examples.C89_random
  Aegir.Examples.C89_double
  Aegir.Examples.C89_example
  Aegir.Benches.C89_bench
  Aegir.Props.C90_unary
  Aegir.Props.C90_range
  Aegir.Props.C90_rounded_partial
  Aegir.Props.C90_derivative_partial
  Aegir.Props.C90_sums
  Aegir.Props.C90_quotient_partial
  Aegir.Props.C90_power_partial
  Aegir.Props.C90_violation_xlnx
  Aegir.Props.C90_violation_quotient
  Aegir.Props.C90_violation_reciprocal
  Aegir.Props.C90_violation_power
  Aegir.Props.C91_shape
  Aegir.Props.C91_tangent
  Aegir.Props.C91_minimum
  Aegir.Props.C91_maximum
  Aegir.Props.C91_stationary
  Aegir.Props.C92_gradient
  Aegir.Props.C92_decrease
  Aegir.Props.C92_rate
  Aegir.Examples.C92_sse
  Aegir.Examples.C92_linear
  Aegir.Examples.C92_logistic
  Aegir.Props.C93_test
  Aegir.Props.C93_necessary
  Aegir.Props.C93_global
  Aegir.Props.C93_newton
  Aegir.Props.C93_newton_run
  Aegir.Props.C94_mean
  Aegir.Props.C94_bound
  Aegir.Props.C94_monotone
  Aegir.Props.C94_strict
  Aegir.Props.C94_constant
  Aegir.Props.C94_taylor
  Aegir.Props.C95_value
  Aegir.Props.C95_extensional
  Aegir.Props.C95_adjoint
  Aegir.Props.C95_integers
  Aegir.Props.C96_taylor
  Aegir.Props.C96_convex
  Aegir.Props.C96_unique
  Aegir.Props.C96_necessary
  Aegir.Props.C96_descent
