# Axioms of each theorem

Written by tools/axioms.py from `#print axioms`.

## Classical.choice, Quot.sound, propext (441 theorems)

- Npplus.C01_polyfun
- Npplus.C02_constant_wrong
- Npplus.C02_polyddx_partial
- Npplus.C03_translate
- Npplus.C04_at_knot
- Npplus.C04_call_partial
- Npplus.C04_constant_wrong
- Npplus.C04_docstring_refuted
- Npplus.C05_docstring_refuted
- Npplus.C05_eval_at_knots
- Npplus.C05_hermite
- Npplus.C05_local
- Npplus.C05_rejects
- Npplus.C06_extrapolation
- Npplus.C07_decreasing_partial
- Npplus.C07_even_refuted
- Npplus.C07_ragged_fails
- Npplus.C08_even_parabola
- Npplus.C08_even_partial
- Npplus.C08_even_refuted
- Npplus.C08_histogram_less
- Npplus.C08_histogram_more
- Npplus.C08_single_knot_error
- Npplus.C09_deriv
- Npplus.C09_deriv_agrees_partial
- Npplus.C09_hasDerivAt
- Npplus.C09_not_differentiable
- Npplus.C100_hermite_bound
- Npplus.C100_hermite_error
- Npplus.C100_pline_bound
- Npplus.C101_admissible
- Npplus.C101_clamped
- Npplus.C101_natural
- Npplus.C101_periodic
- Npplus.C101_pythagoras
- Npplus.C102_clamped
- Npplus.C102_natural
- Npplus.C102_periodic
- Npplus.C102_smooth
- Npplus.C102_smooth_clamped
- Npplus.C103_binary_partial
- Npplus.C103_copy
- Npplus.C103_deriv
- Npplus.C103_integ
- Npplus.C103_item
- Npplus.C103_make
- Npplus.C103_neg
- Npplus.C103_values
- Npplus.C104_convex
- Npplus.C104_inverse
- Npplus.C104_monotone
- Npplus.C104_range
- Npplus.C105_contDiff_iff
- Npplus.C105_iteratedDeriv
- Npplus.C105_periodic
- Npplus.C105_splfit
- Npplus.C105_spline
- Npplus.C106_call
- Npplus.C106_call_piece
- Npplus.C106_periodic
- Npplus.C106_polyddx
- Npplus.C106_polyfun
- Npplus.C107_add
- Npplus.C107_addknots
- Npplus.C107_deriv
- Npplus.C107_jumps
- Npplus.C107_mul
- Npplus.C107_sub
- Npplus.C107_values
- Npplus.C108_antiderivative
- Npplus.C108_default1_fails
- Npplus.C108_integ
- Npplus.C108_integ_one
- Npplus.C108_integral
- Npplus.C108_list1_fails
- Npplus.C108_list2_fails
- Npplus.C108_list2_one
- Npplus.C108_list2_wrong
- Npplus.C109_empty_error
- Npplus.C109_even
- Npplus.C109_even_shape_error
- Npplus.C109_hermite
- Npplus.C109_histogram
- Npplus.C109_init
- Npplus.C109_reknot
- Npplus.C109_shapes_error
- Npplus.C10_default_k_scalar
- Npplus.C10_definite
- Npplus.C10_excess_constants
- Npplus.C10_integ_once
- Npplus.C10_integ_partial
- Npplus.C10_integral
- Npplus.C110_derivatives
- Npplus.C110_ellipsis_fails
- Npplus.C110_getitem
- Npplus.C110_int
- Npplus.C110_iterate
- Npplus.C110_range
- Npplus.C110_reverse
- Npplus.C110_slice
- Npplus.C110_too_many_error
- Npplus.C111_histogram
- Npplus.C111_idiom
- Npplus.C111_polyline
- Npplus.C111_rebin
- Npplus.C111_rebin_total
- Npplus.C112_best_fit
- Npplus.C112_conditioned
- Npplus.C112_linear_model
- Npplus.C112_succeeds
- Npplus.C113_bounds_refuted
- Npplus.C113_orthogonal_partial
- Npplus.C114_agree
- Npplus.C114_both
- Npplus.C114_independent
- Npplus.C115_alias_wrong
- Npplus.C115_branch_partial
- Npplus.C115_one
- Npplus.C115_principal
- Npplus.C115_refuted
- Npplus.C116_history
- Npplus.C116_info
- Npplus.C116_missing_error
- Npplus.C116_options
- Npplus.C116_unchanged
- Npplus.C117_plfit_exact
- Npplus.C117_plfit_interp
- Npplus.C117_plfit_pline
- Npplus.C117_same
- Npplus.C117_splfit_exact
- Npplus.C118_mirror
- Npplus.C118_mirror_default
- Npplus.C118_mirror_given
- Npplus.C118_poly
- Npplus.C118_unique
- Npplus.C118_units
- Npplus.C119_decreasing_partial
- Npplus.C119_even_refuted
- Npplus.C119_increasing
- Npplus.C119_odd
- Npplus.C11_deriv_integ
- Npplus.C11_integ_deriv
- Npplus.C120_plfit
- Npplus.C120_sigma
- Npplus.C120_splfit
- Npplus.C121_plfit
- Npplus.C121_splfit
- Npplus.C122_plfit
- Npplus.C122_splfit
- Npplus.C123_errs
- Npplus.C123_exact
- Npplus.C123_linear
- Npplus.C123_more_models
- Npplus.C123_recovers
- Npplus.C124_integ_sum
- Npplus.C124_parts
- Npplus.C124_product
- Npplus.C124_sum
- Npplus.C125_errs_written_out
- Npplus.C125_order
- Npplus.C125_orthogonal_kept
- Npplus.C126_chi2prob
- Npplus.C126_limit
- Npplus.C126_two
- Npplus.C127_classical
- Npplus.C127_growth
- Npplus.C128_span
- Npplus.C128_span_le
- Npplus.C129_units
- Npplus.C12_continuous
- Npplus.C12_continuous_iff
- Npplus.C12_jumps
- Npplus.C130_span_affine
- Npplus.C130_span_refine
- Npplus.C130_span_reverse
- Npplus.C130_span_zcen
- Npplus.C130_spanl_refine
- Npplus.C130_spanl_reverse
- Npplus.C13_even_refuted
- Npplus.C13_reknot_decreasing
- Npplus.C13_reknot_even_partial
- Npplus.C13_reknot_exact
- Npplus.C13_reknot_odd_partial
- Npplus.C13_zero_refuted
- Npplus.C14_addknots_partial
- Npplus.C14_addknots_same_function
- Npplus.C14_refuted
- Npplus.C15_allknots_partial
- Npplus.C15_dropped_are_close
- Npplus.C15_own_knot_lost
- Npplus.C16_add_partial
- Npplus.C16_neg
- Npplus.C16_refuted
- Npplus.C16_separated
- Npplus.C16_sub_partial
- Npplus.C17_mul_partial
- Npplus.C17_separated
- Npplus.C18_scalar_partial
- Npplus.C19_components
- Npplus.C19_negative_index
- Npplus.C21_empty_refuted
- Npplus.C21_index_error_refuted
- Npplus.C21_no_root_error
- Npplus.C21_periodic_refuted
- Npplus.C21_piecewise_constant
- Npplus.C21_piecewise_linear
- Npplus.C21_roots_sound_partial
- Npplus.C21_spurious_refuted
- Npplus.C21_wrong_degree_refuted
- Npplus.C22_all_nonlinear
- Npplus.C22_missed_refuted
- Npplus.C22_missed_silently_refuted
- Npplus.C22_piecewise_linear
- Npplus.C22_roots_complete_partial
- Npplus.C22_roots_exact_partial
- Npplus.C23_periodic
- Npplus.C24_cubic_succeeds
- Npplus.C24_default_iff
- Npplus.C24_enough_points
- Npplus.C24_one_sided
- Npplus.C24_returns_iff
- Npplus.C24_spline
- Npplus.C25_boundary
- Npplus.C25_given
- Npplus.C26_completion
- Npplus.C26_too_many
- Npplus.C26_unique
- Npplus.C27_cubic_succeeds
- Npplus.C27_periodic
- Npplus.C27_returns_iff
- Npplus.C27_start
- Npplus.C28_extrapolation
- Npplus.C29_decreasing
- Npplus.C29_interpolates
- Npplus.C30_pline
- Npplus.C31_plfit
- Npplus.C31_succeeds
- Npplus.C32_periodic
- Npplus.C32_two_knots_fails
- Npplus.C33_constraints
- Npplus.C33_periodic
- Npplus.C34_determined
- Npplus.C34_independent
- Npplus.C34_minimal
- Npplus.C34_periodic
- Npplus.C34_periodic_independent
- Npplus.C34_periodic_one_interval_error
- Npplus.C34_periodic_succeeds
- Npplus.C34_periodic_succeeds_data
- Npplus.C34_succeeds
- Npplus.C34_succeeds_data
- Npplus.C35_cost_partial
- Npplus.C35_periodic_equidistant_partial
- Npplus.C35_periodic_partial
- Npplus.C35_periodic_refuted
- Npplus.C35_sensitivity_partial
- Npplus.C35_sign_refuted
- Npplus.C36_beyond
- Npplus.C36_decreasing
- Npplus.C36_interval
- Npplus.C36_periodic_args
- Npplus.C36_too_few_knots
- Npplus.C37_outcome
- Npplus.C37_singular_band_error
- Npplus.C37_singular_error
- Npplus.C37_solve_periodic
- Npplus.C37_succeeds
- Npplus.C38_diag_to_norm
- Npplus.C39_banded_succeeds
- Npplus.C39_periodic_succeeds
- Npplus.C39_solves_banded
- Npplus.C39_solves_periodic
- Npplus.C39_symmetric
- Npplus.C40_discards
- Npplus.C40_errs_shape_refuted
- Npplus.C40_optimal
- Npplus.C40_optimal_kept
- Npplus.C40_succeeds
- Npplus.C41_discarded
- Npplus.C41_pythagoras
- Npplus.C41_shortest
- Npplus.C42_chi2
- Npplus.C42_model
- Npplus.C42_ndof
- Npplus.C42_pcov
- Npplus.C42_pcov_general
- Npplus.C43_bounds
- Npplus.C43_first_call
- Npplus.C44_fixed
- Npplus.C45_no_worse
- Npplus.C46_terminates
- Npplus.C47_affine
- Npplus.C47_quotients
- Npplus.C47_zero_step
- Npplus.C48_fewer_data
- Npplus.C48_ndof
- Npplus.C48_ndof_zero_accepted
- Npplus.C48_pcov
- Npplus.C48_pcov_at_p_refuted
- Npplus.C49_call_after_assignment
- Npplus.C49_call_generator
- Npplus.C49_call_plain
- Npplus.C49_errors
- Npplus.C49_levmar_errors
- Npplus.C49_levmar_variances
- Npplus.C49_regress
- Npplus.C52_dunder_error
- Npplus.C54_redict
- Npplus.C54_roundtrip
- Npplus.C55_boundary_refuted
- Npplus.C55_dispatch_partial
- Npplus.C55_domains
- Npplus.C56_breakpoints
- Npplus.C56_length
- Npplus.C56_string_pieces
- Npplus.C57_errors
- Npplus.C57_one_point_wrong
- Npplus.C57_span
- Npplus.C57_values
- Npplus.C58_axis_wrong
- Npplus.C58_sign_error
- Npplus.C58_spanl
- Npplus.C59_cat
- Npplus.C59_errors
- Npplus.C59_zero_length_fails
- Npplus.C60_errors
- Npplus.C60_scalar_axis_wrong
- Npplus.C60_stack
- Npplus.C61_grouping
- Npplus.C61_max
- Npplus.C61_min
- Npplus.C61_not_conformable
- Npplus.C61_order
- Npplus.C62_complex
- Npplus.C62_one
- Npplus.C62_order
- Npplus.C62_real
- Npplus.C63_branch
- Npplus.C63_one
- Npplus.C63_principal
- Npplus.C63_unique
- Npplus.C64_cum
- Npplus.C64_cum_diff
- Npplus.C64_cum_flat
- Npplus.C64_diff_cum
- Npplus.C65_pcen
- Npplus.C65_pcen_empty_wrong
- Npplus.C65_trapezoid
- Npplus.C65_zcen
- Npplus.C66_incircle
- Npplus.C66_returns
- Npplus.C67_insphere_partial
- Npplus.C67_returns
- Npplus.C67_small_refuted
- Npplus.C68_oncircle
- Npplus.C68_onsphere
- Npplus.C69_rotation3
- Npplus.C70_fd
- Npplus.C70_ifd
- Npplus.C71_fd
- Npplus.C71_ifd
- Npplus.C71_positive
- Npplus.C73_name
- Npplus.C73_object
- Npplus.C73_stale_object
- Npplus.C74_no_yellow
- Npplus.C75_nd_data_refuted
- Npplus.C76_idempotent
- Npplus.C76_style
- Npplus.C77_all_refuted
- Npplus.C77_import_star_partial
- Npplus.C77_my_overwritten_refuted
- Npplus.C77_private_refuted
- Npplus.C79_fd_accuracy
- Npplus.C79_fd_accuracy_below_two
- Npplus.C80_arrays_plfit
- Npplus.C80_arrays_splfit
- Npplus.C80_leading_axes_fails
- Npplus.C80_plfit
- Npplus.C80_splfit
- Npplus.C81_chi2prob
- Npplus.C81_chi2prob_default
- Npplus.C82_add_partial
- Npplus.C82_addknots_partial
- Npplus.C82_addknots_refuted
- Npplus.C82_deriv_partial
- Npplus.C82_integ_partial
- Npplus.C82_integ_refuted
- Npplus.C82_mixed_refuted
- Npplus.C82_mul_partial
- Npplus.C82_neg
- Npplus.C82_period_refuted
- Npplus.C82_reknot_decreasing
- Npplus.C82_reknot_partial
- Npplus.C82_sub_partial
- Npplus.C83_components
- Npplus.C83_constructor
- Npplus.C83_spline
- Npplus.C83_superposition
- Npplus.C84_order_default
- Npplus.C84_plfit_order
- Npplus.C84_splfit_order
- Npplus.C85_ifd_inverse
- Npplus.C85_roundtrip
- Npplus.C86_incircle
- Npplus.C86_one_point
- Npplus.C87_oncircle
- Npplus.C87_onsphere
- Npplus.C87_unique
- Npplus.C88_rotation3
- Npplus.C88_unique
- Npplus.C88_vectors
- Npplus.C89_insphere_partial
- Npplus.C89_small_refuted
- Npplus.C90_best
- Npplus.C90_chi2_mean
- Npplus.C90_fit_unbiased
- Npplus.C90_normal_uncorrelated
- Npplus.C90_pcov
- Npplus.C90_unbiased
- Npplus.C91_indep
- Npplus.C91_normal
- Npplus.C94_call
- Npplus.C94_polyfun
- Npplus.C95_monotone
- Npplus.C95_span
- Npplus.C96_cum
- Npplus.C96_zcen
- Npplus.C97_histogram_refuted
- Npplus.C97_nan_iff_partial
- Npplus.C97_numbers
- Npplus.C97_pcwise
- Npplus.C98_example_refuted
- Npplus.C98_product_changes_refuted
- Npplus.C98_unchanged_partial
- Npplus.C99_arguments_partial
- Npplus.C99_history_partial
- Npplus.C99_last_array_refuted
- Npplus.C99_twice_refuted
- Npplus.Cmaps.C93_brightness
- Npplus.Cmaps.C93_distinct

## Quot.sound, propext (29 theorems)

- Npplus.C107_neg
- Npplus.C10_default_k_vector_fails
- Npplus.C18_scalar_refuted
- Npplus.C20_periodic_refuted
- Npplus.C20_pickle
- Npplus.C45_path_called
- Npplus.C50_adict_history
- Npplus.C50_adict_ops
- Npplus.C51_dunder_refuted
- Npplus.C51_escape_partial
- Npplus.C51_history_partial
- Npplus.C51_reserved_names
- Npplus.C52_decorator
- Npplus.C52_items
- Npplus.C53_inherited_fails
- Npplus.C53_keyword_partial
- Npplus.C53_refuted
- Npplus.C64_errors
- Npplus.C73_failure
- Npplus.C73_failure_cause
- Npplus.C75_1d_partial
- Npplus.C76_title_no_y
- Npplus.C76_title_y
- Npplus.C76_title_y_none_refuted
- Npplus.C82_pw
- Npplus.C82_pw_mul
- Npplus.C99_value
- Npplus.Cmaps.C93_call
- Npplus.Cmaps.C93_table

## none (6 theorems)

- Npplus.C72_logxy_both
- Npplus.C72_logxy_separate
- Npplus.C72_wrapper
- Npplus.C72_xylim
- Npplus.C74_distinct
- Npplus.C74_sizes

## propext (8 theorems)

- Npplus.C52_class_attrs
- Npplus.C53_argument_ignored_refuted
- Npplus.C74_axes_argument_refuted
- Npplus.C74_set_color_cycle
- Npplus.C92_default_partial
- Npplus.C92_default_refuted
- Npplus.C92_given
- Npplus.Cmaps.C93_import
