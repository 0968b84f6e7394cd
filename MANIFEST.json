{"claims": [
 {"property": "C01", "status": "proved", "theorems": ["Npplus.C01_polyfun"], "note": ""},
 {"property": "C02", "status": "partial", "theorems": ["Npplus.C02_polyddx_partial", "Npplus.C02_constant_wrong"], "note": "False for a single coefficient and nd>=1 (C02_constant_wrong); proved for every other input."},
 {"property": "C03", "status": "proved", "theorems": ["Npplus.C03_translate"], "note": ""},
 {"property": "C04", "status": "partial", "theorems": ["Npplus.C04_call_partial", "Npplus.C04_at_knot", "Npplus.C04_docstring_refuted", "Npplus.C04_constant_wrong"], "note": "At a knot the code uses the left piece, not the right one of the docstring (C04_docstring_refuted); p(x,nd>=1) is wrong for degree 0 (C04_constant_wrong). Everything else proved."},
 {"property": "C05", "status": "partial", "theorems": ["Npplus.C05_hermite", "Npplus.C05_eval_at_knots", "Npplus.C05_local", "Npplus.C05_docstring_refuted", "Npplus.C05_rejects"], "note": "Proved for derivatives as arguments; the docstring says Taylor coefficients, which is false (C05_docstring_refuted)."},
 {"property": "C06", "status": "proved", "theorems": ["Npplus.C06_extrapolation"], "note": ""},
 {"property": "C07", "status": "partial", "theorems": ["Npplus.C07_decreasing_partial", "Npplus.C07_ragged_fails", "Npplus.C07_even_refuted"], "note": "Proved for equal-length data; fails for even degree, where the arrays are ragged (C07_ragged_fails, C07_even_refuted)."},
 {"property": "C08", "status": "partial", "theorems": ["Npplus.C08_histogram_more", "Npplus.C08_histogram_less", "Npplus.C08_single_knot_error", "Npplus.C08_even_partial", "Npplus.C08_even_parabola", "Npplus.C08_even_refuted"], "note": "Histograms and parabolas proved; for even degree >= 4 the top coefficient is divided by (2h)!/h! (C08_even_refuted), the exact value is proved in C08_even_partial."},
 {"property": "C09", "status": "partial", "theorems": ["Npplus.C09_hasDerivAt", "Npplus.C09_not_differentiable", "Npplus.C09_deriv", "Npplus.C09_deriv_agrees_partial"], "note": "deriv proved in full (C09_deriv); agreement with p(x,m) fails only for degree 0 (finding 1). Over the reals: C09_hasDerivAt, C09_not_differentiable."},
 {"property": "C10", "status": "partial", "theorems": ["Npplus.C10_integral", "Npplus.C10_definite", "Npplus.C10_integ_partial", "Npplus.C10_integ_once", "Npplus.C10_default_k_scalar", "Npplus.C10_default_k_vector_fails", "Npplus.C10_excess_constants"], "note": "Proved with explicit constants; default k fails for vector valued p, extra constants integrate more often. Over the reals integ is the integral (C10_integral, C10_definite)."},
 {"property": "C11", "status": "proved", "theorems": ["Npplus.C11_deriv_integ", "Npplus.C11_integ_deriv"], "note": ""},
 {"property": "C12", "status": "proved", "theorems": ["Npplus.C12_continuous_iff", "Npplus.C12_jumps", "Npplus.C12_continuous"], "note": ""},
 {"property": "C13", "status": "partial", "theorems": ["Npplus.C13_reknot_decreasing", "Npplus.C13_reknot_odd_partial", "Npplus.C13_reknot_even_partial", "Npplus.C13_even_refuted", "Npplus.C13_zero_refuted", "Npplus.C13_reknot_exact"], "note": "Odd degrees and exactness proved; even degrees violate the claim (C13_even_refuted, exact factor in C13_reknot_even_partial), n=0 gives degree 2."},
 {"property": "C14", "status": "partial", "theorems": ["Npplus.C14_addknots_partial", "Npplus.C14_addknots_same_function", "Npplus.C14_refuted"], "note": "Same function proved when no knot is dropped; knots closer than 1e-6 of a gap are merged (C14_refuted)."},
 {"property": "C15", "status": "partial", "theorems": ["Npplus.C15_allknots_partial", "Npplus.C15_dropped_are_close", "Npplus.C15_own_knot_lost"], "note": "Proved up to merging tolerance; own knots may be lost (C15_own_knot_lost)."},
 {"property": "C16", "status": "partial", "theorems": ["Npplus.C16_add_partial", "Npplus.C16_sub_partial", "Npplus.C16_neg", "Npplus.C16_separated", "Npplus.C16_refuted"], "note": "Proved wherever the merged knots keep both functions' knots (in particular separated knots); false otherwise (C16_refuted)."},
 {"property": "C17", "status": "partial", "theorems": ["Npplus.C17_mul_partial", "Npplus.C17_separated"], "note": "Same limit as C16."},
 {"property": "C18", "status": "partial", "theorems": ["Npplus.C18_scalar_partial", "Npplus.C18_scalar_refuted"], "note": "Scalar operands always raise TypeError in the code (C18_scalar_refuted)."},
 {"property": "C19", "status": "proved", "theorems": ["Npplus.C19_components", "Npplus.C19_negative_index"], "note": ""},
 {"property": "C20", "status": "partial", "theorems": ["Npplus.C20_pickle", "Npplus.C20_periodic_refuted"], "note": "PwPoly proved; PerPwPoly loses its period (C20_periodic_refuted)."},
 {"property": "C21", "status": "partial", "theorems": ["Npplus.C21_roots_sound_partial", "Npplus.C21_no_root_error", "Npplus.C21_piecewise_linear", "Npplus.C21_piecewise_constant", "Npplus.C21_empty_refuted", "Npplus.C21_spurious_refuted", "Npplus.C21_wrong_degree_refuted", "Npplus.C21_index_error_refuted", "Npplus.C21_periodic_refuted"], "note": "Violated by the code in general (spurious roots, wrong degree used, IndexError, ValueError instead of an empty array, periodic functions: the _refuted theorems). Proved for every function whose may-vanish pieces are nonlinear-first with non-negligible leading coefficients and without the linear-mask defect; unconditional (tol=0) for piecewise linear and constant functions and (C22_all_nonlinear) for functions all of whose pieces have degree 2 or more."},
 {"property": "C22", "status": "partial", "theorems": ["Npplus.C22_roots_complete_partial", "Npplus.C22_roots_exact_partial", "Npplus.C22_piecewise_linear", "Npplus.C22_all_nonlinear", "Npplus.C22_missed_refuted", "Npplus.C22_missed_silently_refuted"], "note": "Violated by the code in general (roots beyond one width of the last knot missed: the _refuted theorems). Completeness proved, with the exact bound from near-duplicate removal, under the conditions stated in the theorem; unconditional iff for piecewise linear functions with tol=0; C22_all_nonlinear: with tol=0, for functions all of whose pieces have degree 2 or more, every solution up to one width beyond the last knot."},
 {"property": "C23", "status": "proved", "theorems": ["Npplus.C23_periodic"], "note": ""},
 {"property": "C24", "status": "proved", "theorems": ["Npplus.C24_spline", "Npplus.C24_returns_iff", "Npplus.C24_enough_points", "Npplus.C24_default_iff", "Npplus.C24_one_sided", "Npplus.C24_cubic_succeeds"], "note": "What a returned spline satisfies, and exactly when spline returns, for all degrees, points, data and boundary conditions."},
 {"property": "C25", "status": "proved", "theorems": ["Npplus.C25_boundary", "Npplus.C25_given"], "note": ""},
 {"property": "C26", "status": "proved", "theorems": ["Npplus.C26_completion", "Npplus.C26_too_many", "Npplus.C26_unique"], "note": "Completion proved and unique; more than n-1 conditions raise."},
 {"property": "C27", "status": "proved", "theorems": ["Npplus.C27_periodic", "Npplus.C27_returns_iff", "Npplus.C27_start", "Npplus.C27_cubic_succeeds"], "note": "What a returned periodic spline satisfies, and exactly when it exists (degree or number of intervals odd)."},
 {"property": "C28", "status": "proved", "theorems": ["Npplus.C28_extrapolation"], "note": ""},
 {"property": "C29", "status": "proved", "theorems": ["Npplus.C29_decreasing", "Npplus.C29_interpolates"], "note": ""},
 {"property": "C30", "status": "proved", "theorems": ["Npplus.C30_pline"], "note": ""},
 {"property": "C31", "status": "proved", "theorems": ["Npplus.C31_plfit", "Npplus.C31_succeeds"], "note": ""},
 {"property": "C32", "status": "partial", "theorems": ["Npplus.C32_two_knots_fails", "Npplus.C32_periodic"], "note": "Proved for every call that returns; two knots with both end values given raises IndexError instead of returning the line (C32_two_knots_fails)."},
 {"property": "C33", "status": "proved", "theorems": ["Npplus.C33_constraints", "Npplus.C33_periodic"], "note": "Non-periodic and periodic fits."},
 {"property": "C34", "status": "proved", "theorems": ["Npplus.C34_minimal", "Npplus.C34_succeeds", "Npplus.C34_independent", "Npplus.C34_determined", "Npplus.C34_succeeds_data", "Npplus.C34_periodic", "Npplus.C34_periodic_one_interval_error", "Npplus.C34_periodic_independent", "Npplus.C34_periodic_succeeds", "Npplus.C34_periodic_succeeds_data"], "note": "Optimality over all competitors (non-periodic and periodic), and existence under a data condition (C34_succeeds*, C34_periodic_succeeds*); a periodic fit with a single interval always fails."},
 {"property": "C35", "status": "partial", "theorems": ["Npplus.C35_cost_partial", "Npplus.C35_sensitivity_partial", "Npplus.C35_sign_refuted", "Npplus.C35_periodic_partial", "Npplus.C35_periodic_equidistant_partial", "Npplus.C35_periodic_refuted"], "note": "Proved with the opposite sign: -cost is the derivative of the optimal chi2 (C35_sensitivity_partial, C35_sign_refuted). Periodic: proved up to the factor (dx_j/dx_{j+1})^k (exact for equidistant knots); the documented meaning is refuted for unequal knots."},
 {"property": "C36", "status": "proved", "theorems": ["Npplus.C36_periodic_args", "Npplus.C36_too_few_knots", "Npplus.C36_beyond", "Npplus.C36_decreasing", "Npplus.C36_interval"], "note": ""},
 {"property": "C37", "status": "proved", "theorems": ["Npplus.C37_solve_periodic", "Npplus.C37_succeeds", "Npplus.C37_singular_band_error", "Npplus.C37_singular_error", "Npplus.C37_outcome"], "note": ""},
 {"property": "C38", "status": "proved", "theorems": ["Npplus.C38_diag_to_norm"], "note": ""},
 {"property": "C39", "status": "proved", "theorems": ["Npplus.C39_symmetric", "Npplus.C39_solves_periodic", "Npplus.C39_solves_banded", "Npplus.C39_banded_succeeds", "Npplus.C39_periodic_succeeds"], "note": ""},
 {"property": "C40", "status": "partial", "theorems": ["Npplus.C40_optimal_kept", "Npplus.C40_optimal", "Npplus.C40_discards", "Npplus.C40_succeeds", "Npplus.C40_errs_shape_refuted"], "note": "Optimality and success proved for scalar errs and errs with one element per datum (1-D); errs with the shape of multi-dimensional data raises ValueError (C40_errs_shape_refuted)."},
 {"property": "C41", "status": "proved", "theorems": ["Npplus.C41_discarded", "Npplus.C41_pythagoras", "Npplus.C41_shortest"], "note": ""},
 {"property": "C42", "status": "proved", "theorems": ["Npplus.C42_model", "Npplus.C42_chi2", "Npplus.C42_ndof", "Npplus.C42_pcov", "Npplus.C42_pcov_general"], "note": ""},
 {"property": "C43", "status": "proved", "theorems": ["Npplus.C43_bounds", "Npplus.C43_first_call"], "note": "Proviso of the property: p0 within the bounds (p0 itself is not clipped, C43_first_call) and non-negative step sizes."},
 {"property": "C44", "status": "proved", "theorems": ["Npplus.C44_fixed"], "note": ""},
 {"property": "C45", "status": "proved", "theorems": ["Npplus.C45_no_worse", "Npplus.C45_path_called"], "note": ""},
 {"property": "C46", "status": "proved", "theorems": ["Npplus.C46_terminates"], "note": "Bound uniform in f, data and solver; the fuel of the model is shown to be irrelevant."},
 {"property": "C47", "status": "proved", "theorems": ["Npplus.C47_quotients", "Npplus.C47_affine", "Npplus.C47_zero_step"], "note": ""},
 {"property": "C48", "status": "partial", "theorems": ["Npplus.C48_pcov", "Npplus.C48_ndof", "Npplus.C48_fewer_data", "Npplus.C48_pcov_at_p_refuted", "Npplus.C48_ndof_zero_accepted"], "note": "Proved at the last point where the gradient was computed; at the returned p the claim is false (C48_pcov_at_p_refuted). Fewer data than free parameters cannot return (LinAlgError); ndof = 0 is accepted."},
 {"property": "C49", "status": "proved", "theorems": ["Npplus.C49_call_plain", "Npplus.C49_call_generator", "Npplus.C49_call_after_assignment", "Npplus.C49_errors", "Npplus.C49_levmar_variances", "Npplus.C49_levmar_errors", "Npplus.C49_regress"], "note": "chi2prob is C81."},
 {"property": "C50", "status": "proved", "theorems": ["Npplus.C50_adict_history", "Npplus.C50_adict_ops"], "note": ""},
 {"property": "C51", "status": "partial", "theorems": ["Npplus.C51_escape_partial", "Npplus.C51_history_partial", "Npplus.C51_reserved_names", "Npplus.C51_dunder_refuted"], "note": "The escape is proved for every name; for names beginning with __ the trailing underscore is removed too, contradicting the docstring (C51_dunder_refuted)."},
 {"property": "C52", "status": "proved", "theorems": ["Npplus.C52_items", "Npplus.C52_class_attrs", "Npplus.C52_dunder_error", "Npplus.C52_decorator"], "note": ""},
 {"property": "C53", "status": "partial", "theorems": ["Npplus.C53_keyword_partial", "Npplus.C53_argument_ignored_refuted", "Npplus.C53_refuted", "Npplus.C53_inherited_fails"], "note": "False: @items_are_attrs(MyMethods) ignores its argument (C53_refuted); the keyword form works (C53_keyword_partial) when the class itself defines all three methods (C53_inherited_fails)."},
 {"property": "C54", "status": "proved", "theorems": ["Npplus.C54_redict", "Npplus.C54_roundtrip"], "note": ""},
 {"property": "C55", "status": "partial", "theorems": ["Npplus.C55_dispatch_partial", "Npplus.C55_domains", "Npplus.C55_boundary_refuted"], "note": "Proved, but a point equal to a breakpoint belongs to the lower function, not the documented upper one (C55_boundary_refuted)."},
 {"property": "C56", "status": "proved", "theorems": ["Npplus.C56_string_pieces", "Npplus.C56_breakpoints", "Npplus.C56_length"], "note": ""},
 {"property": "C57", "status": "partial", "theorems": ["Npplus.C57_span", "Npplus.C57_values", "Npplus.C57_one_point_wrong", "Npplus.C57_errors"], "note": "Proved for num >= 2 and any axis; with num=1 the only point is stop instead of start (C57_one_point_wrong)."},
 {"property": "C58", "status": "partial", "theorems": ["Npplus.C58_spanl", "Npplus.C58_sign_error", "Npplus.C58_axis_wrong"], "note": "Proved when start has all the axes of the result or the new axis is first; otherwise the negative axis is counted from start's own shape (C58_axis_wrong)."},
 {"property": "C59", "status": "partial", "theorems": ["Npplus.C59_cat", "Npplus.C59_errors", "Npplus.C59_zero_length_fails"], "note": "Proved; lengths 0 and 1 do not broadcast (C59_zero_length_fails)."},
 {"property": "C60", "status": "partial", "theorems": ["Npplus.C60_stack", "Npplus.C60_errors", "Npplus.C60_scalar_axis_wrong"], "note": "Proved; positive axis not rejected for scalar arguments (C60_scalar_axis_wrong)."},
 {"property": "C61", "status": "proved", "theorems": ["Npplus.C61_max", "Npplus.C61_min", "Npplus.C61_not_conformable", "Npplus.C61_order", "Npplus.C61_grouping"], "note": ""},
 {"property": "C62", "status": "proved", "theorems": ["Npplus.C62_real", "Npplus.C62_one", "Npplus.C62_complex", "Npplus.C62_order"], "note": ""},
 {"property": "C63", "status": "proved", "theorems": ["Npplus.C63_branch", "Npplus.C63_principal", "Npplus.C63_one", "Npplus.C63_unique"], "note": ""},
 {"property": "C64", "status": "proved", "theorems": ["Npplus.C64_cum", "Npplus.C64_cum_flat", "Npplus.C64_diff_cum", "Npplus.C64_cum_diff", "Npplus.C64_errors"], "note": ""},
 {"property": "C65", "status": "partial", "theorems": ["Npplus.C65_zcen", "Npplus.C65_pcen", "Npplus.C65_pcen_empty_wrong", "Npplus.C65_trapezoid"], "note": "Proved; pcen of an axis of length 0 stays empty (C65_pcen_empty_wrong)."},
 {"property": "C66", "status": "proved", "theorems": ["Npplus.C66_incircle", "Npplus.C66_returns"], "note": ""},
 {"property": "C67", "status": "partial", "theorems": ["Npplus.C67_insphere_partial", "Npplus.C67_small_refuted", "Npplus.C67_returns"], "note": "Proved for 70 or more points; for fewer the code uses sqrt(1-mu) instead of sqrt(1-mu^2) and can return points outside the sphere (C67_small_refuted)."},
 {"property": "C68", "status": "proved", "theorems": ["Npplus.C68_oncircle", "Npplus.C68_onsphere"], "note": ""},
 {"property": "C69", "status": "proved", "theorems": ["Npplus.C69_rotation3"], "note": ""},
 {"property": "C70", "status": "proved", "theorems": ["Npplus.C70_fd", "Npplus.C70_ifd"], "note": ""},
 {"property": "C71", "status": "proved", "theorems": ["Npplus.C71_fd", "Npplus.C71_positive", "Npplus.C71_ifd"], "note": ""},
 {"property": "C72", "status": "proved", "theorems": ["Npplus.C72_wrapper", "Npplus.C72_xylim", "Npplus.C72_logxy_both", "Npplus.C72_logxy_separate"], "note": ""},
 {"property": "C73", "status": "proved", "theorems": ["Npplus.C73_object", "Npplus.C73_name", "Npplus.C73_failure", "Npplus.C73_failure_cause", "Npplus.C73_stale_object"], "note": "Refined by C77; running a module's source is a parameter (any function on namespaces that may raise)."},
 {"property": "C74", "status": "partial", "theorems": ["Npplus.C74_no_yellow", "Npplus.C74_distinct", "Npplus.C74_sizes", "Npplus.C74_set_color_cycle", "Npplus.C74_axes_argument_refuted"], "note": "Finite tables, so kernel evaluation over the whole domain; the axes argument of set_color_cycle is ignored (refuted)."},
 {"property": "C75", "status": "partial", "theorems": ["Npplus.C75_nd_data_refuted", "Npplus.C75_1d_partial"], "note": "1-D data only; for 2-D and higher the code raises ValueError (C75_nd_data_refuted)."},
 {"property": "C76", "status": "partial", "theorems": ["Npplus.C76_style", "Npplus.C76_idempotent", "Npplus.C76_title_no_y", "Npplus.C76_title_y", "Npplus.C76_title_y_none_refuted"], "note": "title(y=None) with outward ticks raises TypeError (refuted); everything else proved. matplotlib's rc is a key-value map."},
 {"property": "C77", "status": "partial", "theorems": ["Npplus.C77_import_star_partial", "Npplus.C77_private_refuted", "Npplus.C77_all_refuted", "Npplus.C77_my_overwritten_refuted"], "note": "Holds for modules without __all__ whose underscore names are all dunder names (partial); private names and names outside __all__ are also copied, and the second reloadx overwrites a user variable my in __main__ (refuted)."},
 {"property": "C79", "status": "proved", "theorems": ["Npplus.C79_fd_accuracy_below_two", "Npplus.C79_fd_accuracy"], "note": "Every real x. x<2: Chebyshev series of the integrand with bounded truncation and rounding. x>=2: the integral is split at t=x, 1/(1+u) replaced by a degree-19 polynomial (error 1/T_20(3)), the two resulting functions (Dawson and erfc-like) approximated by certified piecewise polynomials; all polynomial inequalities by Bernstein certificates in the kernel. fdm12 is proved to 3e-12 above 2 (its true error there reaches 2.7e-12), the others to 1e-12."},
 {"property": "C83", "status": "proved", "theorems": ["Npplus.C83_constructor", "Npplus.C83_spline", "Npplus.C83_components", "Npplus.C83_superposition"], "note": ""},
 {"property": "C80", "status": "partial", "theorems": ["Npplus.C80_splfit", "Npplus.C80_plfit", "Npplus.C80_arrays_splfit", "Npplus.C80_arrays_plfit", "Npplus.C80_leading_axes_fails"], "note": "components (C80_splfit, C80_plfit) and arrays with at most one leading axis (C80_arrays_*) proved; for two or more leading axes, promised by the docstrings, the code always raises (C80_leading_axes_fails)"},
 {"property": "C84", "status": "proved", "theorems": ["Npplus.C84_splfit_order", "Npplus.C84_plfit_order", "Npplus.C84_order_default"], "note": ""},
 {"property": "C85", "status": "proved", "theorems": ["Npplus.C85_ifd_inverse", "Npplus.C85_roundtrip"], "note": "Every array, every positive element; the integral is Mathlib's. The bound for ifd52 is 2.5e-8 (the code's true maximum is 2.1e-8; documented 'about 1e-8')."},
 {"property": "C86", "status": "proved", "theorems": ["Npplus.C86_incircle", "Npplus.C86_one_point"], "note": "Joint distribution as the measure of every rectangle (IsSample): all sets whole = returns with probability 1; C86_one_point spells out the marginal. Ideal generator is a hypothesis, shown satisfiable (exists_idealRng)."},
 {"property": "C87", "status": "proved", "theorems": ["Npplus.C87_oncircle", "Npplus.C87_onsphere", "Npplus.C87_unique"], "note": "Uniform = probability on the circle/sphere invariant under every rotation; C87_unique shows there is exactly one."},
 {"property": "C88", "status": "proved", "theorems": ["Npplus.C88_rotation3", "Npplus.C88_unique", "Npplus.C88_vectors"], "note": "Two-sided invariance, uniqueness, and the image of unit vectors."},
 {"property": "C89", "status": "partial", "theorems": ["Npplus.C89_insphere_partial", "Npplus.C89_small_refuted"], "note": "Proved for 70 or more points; for 1 to 69 points the code's sqrt(1-mu) makes the points leave the ball with positive probability (C89_small_refuted)."},
 {"property": "C81", "status": "proved", "theorems": ["Npplus.C81_chi2prob", "Npplus.C81_chi2prob_default"], "note": "scipy.special.gammaincc is a parameter assumed to be the regularised upper incomplete gamma function. ndof > 0 is required: with ndof = 0 the code calls gammaincc(0, 0)."},
 {"property": "C90", "status": "proved", "theorems": ["Npplus.C90_pcov", "Npplus.C90_unbiased", "Npplus.C90_fit_unbiased", "Npplus.C90_best", "Npplus.C90_normal_uncorrelated", "Npplus.C90_chi2_mean"], "note": "Errors of any distribution with finite variance; the models and errs are not random."},
 {"property": "C91", "status": "proved", "theorems": ["Npplus.C91_normal", "Npplus.C91_indep"], "note": "Mathlib's multivariateGaussian and IndepFun."},
 {"property": "C92", "status": "partial", "theorems": ["Npplus.C92_given", "Npplus.C92_default_partial", "Npplus.C92_default_refuted"], "note": "With dictionaries proved for every call; without, the file runs in the namespace of npplus.interactive instead of the caller's (C92_default_refuted)."},
 {"property": "C93", "status": "proved", "theorems": ["Npplus.Cmaps.C93_import", "Npplus.Cmaps.C93_call", "Npplus.Cmaps.C93_table", "Npplus.Cmaps.C93_brightness", "Npplus.Cmaps.C93_distinct"], "note": "matplotlib's registry, rc, gci and set_cmap are modelled as a state; the tables are finite, evaluated by the kernel."},
 {"property": "C94", "status": "proved", "theorems": ["Npplus.C94_polyfun", "Npplus.C94_call"], "note": "The model's functions themselves, run on rounded numbers; binary numbers of any precision shown to be such a system. Overflow and underflow not modelled."},
 {"property": "C95", "status": "proved", "theorems": ["Npplus.C95_span", "Npplus.C95_monotone"], "note": "As C94. Without the condition on the step the last step may go down (num^2 u near 1); not excluded."},
 {"property": "C96", "status": "proved", "theorems": ["Npplus.C96_cum", "Npplus.C96_zcen"], "note": "As C94."},
 {"property": "C97", "status": "partial", "theorems": ["Npplus.C97_numbers", "Npplus.C97_nan_iff_partial", "Npplus.C97_histogram_refuted", "Npplus.C97_pcwise"], "note": "For degree at least 1; a histogram at NaN is the last constant (C97_histogram_refuted). Infinities not modelled."},
 {"property": "C98", "status": "partial", "theorems": ["Npplus.C98_unchanged_partial", "Npplus.C98_product_changes_refuted", "Npplus.C98_example_refuted"], "note": "Proved for every history without the operations p+q, p-q, p*q of a periodic p and a q that is not periodic and has fewer dimensions; these overwrite the outer pieces of q (C98_product_changes_refuted, C98_example_refuted)."},
 {"property": "C99", "status": "partial", "theorems": ["Npplus.C99_value", "Npplus.C99_arguments_partial", "Npplus.C99_history_partial", "Npplus.C99_last_array_refuted", "Npplus.C99_twice_refuted"], "note": "Proved except for even degree 4 or more with a float array as last argument: that array is divided in place (C99_last_array_refuted, C99_twice_refuted)."},
 {"property": "C100", "status": "proved", "theorems": ["Npplus.C100_hermite_error", "Npplus.C100_hermite_bound", "Npplus.C100_pline_bound"], "note": "Real functions; exact arithmetic."},
 {"property": "C101", "status": "proved", "theorems": ["Npplus.C101_admissible", "Npplus.C101_pythagoras", "Npplus.C101_natural", "Npplus.C101_clamped", "Npplus.C101_periodic"], "note": "Scalar splines over the reals; exact arithmetic. `lo`, `hi` are Taylor coefficients as in C25."},
 {"property": "C102", "status": "proved", "theorems": ["Npplus.C102_natural", "Npplus.C102_clamped", "Npplus.C102_smooth", "Npplus.C102_smooth_clamped", "Npplus.C102_periodic"], "note": "As C101. The constants are not optimal."},
 {"property": "C82", "status": "partial", "theorems": ["Npplus.C82_add_partial", "Npplus.C82_sub_partial", "Npplus.C82_mul_partial", "Npplus.C82_pw", "Npplus.C82_pw_mul", "Npplus.C82_neg", "Npplus.C82_deriv_partial", "Npplus.C82_addknots_partial", "Npplus.C82_integ_partial", "Npplus.C82_reknot_partial", "Npplus.C82_reknot_decreasing", "Npplus.C82_period_refuted", "Npplus.C82_addknots_refuted", "Npplus.C82_mixed_refuted", "Npplus.C82_integ_refuted"], "note": "Proved for operands with the same ends (and knots that addknots does not merge), knots added inside the period, and integ within one period; the code gives wrong functions otherwise: C82_period_refuted (different periods), C82_addknots_refuted (knots outside the period), C82_mixed_refuted (plain + periodic), C82_integ_refuted (integral over several periods)."},
 {"property": "C103", "status": "partial", "theorems": ["Npplus.C103_deriv", "Npplus.C103_integ", "Npplus.C103_neg", "Npplus.C103_item", "Npplus.C103_copy", "Npplus.C103_make", "Npplus.C103_binary_partial", "Npplus.C103_values"], "note": "Proved for all operations; for binary operators when the operands have the same class or the same number of dimensions. Otherwise _binary converts the other operand to the class of self, which also changes it (C98_product_changes_refuted)."},
 {"property": "C104", "status": "proved", "theorems": ["Npplus.C104_range", "Npplus.C104_monotone", "Npplus.C104_inverse", "Npplus.C104_convex"], "note": ""},
 {"property": "C105", "status": "proved", "theorems": ["Npplus.C105_contDiff_iff", "Npplus.C105_iteratedDeriv", "Npplus.C105_spline", "Npplus.C105_periodic", "Npplus.C105_splfit"], "note": ""},
 {"property": "C106", "status": "proved", "theorems": ["Npplus.C106_polyfun", "Npplus.C106_polyddx", "Npplus.C106_call", "Npplus.C106_call_piece", "Npplus.C106_periodic"], "note": ""},
 {"property": "C107", "status": "proved", "theorems": ["Npplus.C107_add", "Npplus.C107_sub", "Npplus.C107_neg", "Npplus.C107_deriv", "Npplus.C107_jumps", "Npplus.C107_mul", "Npplus.C107_values", "Npplus.C107_addknots"], "note": ""},
 {"property": "C108", "status": "partial", "theorems": ["Npplus.C108_integ", "Npplus.C108_integ_one", "Npplus.C108_list1_fails", "Npplus.C108_default1_fails", "Npplus.C108_list2_fails", "Npplus.C108_list2_wrong", "Npplus.C108_list2_one", "Npplus.C108_antiderivative", "Npplus.C108_integral"], "note": "proved for constants given per component (shape (j,)+U or U); the documented list of constants and the default are refuted for values with axes: ValueError (C108_list1_fails, C108_default1_fails, C108_list2_fails) or constants distributed over the last component axis (C108_list2_wrong)"},
 {"property": "C109", "status": "proved", "theorems": ["Npplus.C109_init", "Npplus.C109_hermite", "Npplus.C109_even", "Npplus.C109_histogram", "Npplus.C109_shapes_error", "Npplus.C109_even_shape_error", "Npplus.C109_empty_error", "Npplus.C109_reknot"], "note": "proved for data arrays V+(l,) with 0 not in V; the scalar constructor's own defects (C05, C07, C08, C13 partials) hold for each component; in-place change of the caller's last array: C99"},
 {"property": "C110", "status": "partial", "theorems": ["Npplus.C110_getitem", "Npplus.C110_derivatives", "Npplus.C110_too_many_error", "Npplus.C110_ellipsis_fails", "Npplus.C110_int", "Npplus.C110_slice", "Npplus.C110_range", "Npplus.C110_reverse", "Npplus.C110_iterate"], "note": "Proved for every key of integers, slices and newaxis (errors included); violated by the code for keys containing an Ellipsis (C110_ellipsis_fails). Index arrays and masks are not modelled."},
 {"property": "C111", "status": "proved", "theorems": ["Npplus.C111_rebin", "Npplus.C111_rebin_total", "Npplus.C111_histogram", "Npplus.C111_polyline", "Npplus.C111_idiom"], "note": "integration constant and lower bound explicit (C10 on the default constant of vector valued functions)"},
 {"property": "C112", "status": "proved", "theorems": ["Npplus.C112_linear_model", "Npplus.C112_succeeds", "Npplus.C112_conditioned", "Npplus.C112_best_fit"], "note": "no bounds pmin, pmax; C112_best_fit: for independent columns mu exists and levmar returns without exception"},
 {"property": "C113", "status": "partial", "theorems": ["Npplus.C113_orthogonal_partial", "Npplus.C113_bounds_refuted"], "note": "proved for orthogonal columns (in particular a single free parameter); false in general (C113_bounds_refuted)"},
 {"property": "C114", "status": "proved", "theorems": ["Npplus.C114_independent", "Npplus.C114_agree", "Npplus.C114_both"], "note": "svd, solve and inv are parameters assumed to satisfy their defining equations (shown satisfiable); mu as in C112"},
 {"property": "C115", "status": "partial", "theorems": ["Npplus.C115_branch_partial", "Npplus.C115_principal", "Npplus.C115_one", "Npplus.C115_alias_wrong", "Npplus.C115_refuted"], "note": "Proved for out different from branch (out may be a or b); with out=branch the cut is overwritten before it is used (C115_alias_wrong, C115_refuted). Overlapping views of different arrays are not modelled."},
 {"property": "C116", "status": "proved", "theorems": ["Npplus.C116_unchanged", "Npplus.C116_options", "Npplus.C116_missing_error", "Npplus.C116_info", "Npplus.C116_history"], "note": "dict objects on a heap; itmax an int (a float limit is not modelled)"},
 {"property": "C117", "status": "proved", "theorems": ["Npplus.C117_splfit_exact", "Npplus.C117_plfit_exact", "Npplus.C117_plfit_pline", "Npplus.C117_plfit_interp", "Npplus.C117_same"], "note": "not periodic; increasing knots"},
 {"property": "C118", "status": "proved", "theorems": ["Npplus.C118_unique", "Npplus.C118_poly", "Npplus.C118_units", "Npplus.C118_mirror", "Npplus.C118_mirror_given", "Npplus.C118_mirror_default"], "note": "not periodic; for a<0 with defaults and even n the function changes (C119_even_refuted)"},
 {"property": "C119", "status": "partial", "theorems": ["Npplus.C119_increasing", "Npplus.C119_decreasing_partial", "Npplus.C119_odd", "Npplus.C119_even_refuted"], "note": "true for increasing x and for odd n; for decreasing x and even n the extra condition is at the other end (C119_even_refuted)"},
 {"property": "C120", "status": "proved", "theorems": ["Npplus.C120_splfit", "Npplus.C120_plfit", "Npplus.C120_sigma"], "note": "not periodic; increasing knots (decreasing ones reduce to them by C36_decreasing)"},
 {"property": "C121", "status": "proved", "theorems": ["Npplus.C121_splfit", "Npplus.C121_plfit"], "note": "not periodic; increasing knots (decreasing ones reduce to them by C36_decreasing)"},
 {"property": "C122", "status": "proved", "theorems": ["Npplus.C122_splfit", "Npplus.C122_plfit"], "note": "not periodic; increasing knots (decreasing ones reduce to them by C36_decreasing)"},
 {"property": "C123", "status": "proved", "theorems": ["Npplus.C123_linear", "Npplus.C123_exact", "Npplus.C123_recovers", "Npplus.C123_more_models", "Npplus.C123_errs"], "note": "laws about minimality require that no nonzero singular value is discarded (explicit hypothesis); svd is a parameter assumed to be one (shown satisfiable)"},
 {"property": "C124", "status": "proved", "theorems": ["Npplus.C124_sum", "Npplus.C124_integ_sum", "Npplus.C124_product", "Npplus.C124_parts"], "note": "knots of the operands equal or separated (as C16_separated, C17_separated); products of real valued functions"},
 {"property": "C125", "status": "proved", "theorems": ["Npplus.C125_order", "Npplus.C125_errs_written_out", "Npplus.C125_orthogonal_kept"], "note": "no nonzero singular value discarded (explicit hypothesis); svd is a parameter assumed to be one (shown satisfiable)"},
 {"property": "C126", "status": "proved", "theorems": ["Npplus.C126_chi2prob", "Npplus.C126_limit", "Npplus.C126_two"], "note": "scipy.special.gammaincc is a parameter assumed to be the regularised upper incomplete gamma function"},
 {"property": "C127", "status": "proved", "theorems": ["Npplus.C127_classical", "Npplus.C127_growth"], "note": ""},
 {"property": "C128", "status": "proved", "theorems": ["Npplus.C128_span_le", "Npplus.C128_span"], "note": "no nonzero singular value discarded (explicit hypothesis); svd is a parameter assumed to be one (shown satisfiable)"},
 {"property": "C129", "status": "proved", "theorems": ["Npplus.C129_units"], "note": "Odd and even degree; numpy.linalg.inv as a parameter with its defining equation."},
 {"property": "C130", "status": "proved", "theorems": ["Npplus.C130_span_reverse", "Npplus.C130_span_refine", "Npplus.C130_span_affine", "Npplus.C130_span_zcen", "Npplus.C130_spanl_reverse", "Npplus.C130_spanl_refine"], "note": "Exact arithmetic (rounding of span: C95). spanl: axis 0 or operands of the full number of dimensions, because of the axis bug C58_axis_wrong."}
]}
