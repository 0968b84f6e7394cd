{
 "C02": "False for a single coefficient and nd>=1 (C02_constant_wrong); proved for every other input.",
 "C04": "At a knot the code uses the left piece, not the right one of the docstring (C04_docstring_refuted); p(x,nd>=1) is wrong for degree 0 (C04_constant_wrong). Everything else proved.",
 "C05": "Proved for derivatives as arguments; the docstring says Taylor coefficients, which is false (C05_docstring_refuted).",
 "C07": "Proved for equal-length data; fails for even degree, where the arrays are ragged (C07_ragged_fails, C07_even_refuted).",
 "C08": "Histograms and parabolas proved; for even degree >= 4 the top coefficient is divided by (2h)!/h! (C08_even_refuted), the exact value is proved in C08_even_partial.",
 "C09": "deriv proved in full (C09_deriv); agreement with p(x,m) fails only for degree 0 (finding 1). Over the reals: C09_hasDerivAt, C09_not_differentiable.",
 "C10": "Proved with explicit constants; default k fails for vector valued p, extra constants integrate more often. Over the reals integ is the integral (C10_integral, C10_definite).",
 "C13": "Odd degrees and exactness proved; even degrees violate the claim (C13_even_refuted, exact factor in C13_reknot_even_partial), n=0 gives degree 2.",
 "C14": "Same function proved when no knot is dropped; knots closer than 1e-6 of a gap are merged (C14_refuted).",
 "C15": "Proved up to merging tolerance; own knots may be lost (C15_own_knot_lost).",
 "C16": "Proved wherever the merged knots keep both functions' knots (in particular separated knots); false otherwise (C16_refuted).",
 "C17": "Same limit as C16.",
 "C18": "Scalar operands always raise TypeError in the code (C18_scalar_refuted).",
 "C20": "PwPoly proved; PerPwPoly loses its period (C20_periodic_refuted).",
 "C24": "What a returned spline satisfies, and exactly when spline returns, for all degrees, points, data and boundary conditions.",
 "C26": "Completion proved and unique; more than n-1 conditions raise.",
 "C32": "Proved for every call that returns; two knots with both end values given raises IndexError instead of returning the line (C32_two_knots_fails).",
 "C40": "Optimality and success proved for scalar errs and errs with one element per datum (1-D); errs with the shape of multi-dimensional data raises ValueError (C40_errs_shape_refuted).",
 "C43": "Proviso of the property: p0 within the bounds (p0 itself is not clipped, C43_first_call) and non-negative step sizes.",
 "C46": "Bound uniform in f, data and solver; the fuel of the model is shown to be irrelevant.",
 "C48": "Proved at the last point where the gradient was computed; at the returned p the claim is false (C48_pcov_at_p_refuted). Fewer data than free parameters cannot return (LinAlgError); ndof = 0 is accepted.",
 "C49": "chi2prob is C81.",
 "C51": "The escape is proved for every name; for names beginning with __ the trailing underscore is removed too, contradicting the docstring (C51_dunder_refuted).",
 "C53": "False: @items_are_attrs(MyMethods) ignores its argument (C53_refuted); the keyword form works (C53_keyword_partial) when the class itself defines all three methods (C53_inherited_fails).",
 "C55": "Proved, but a point equal to a breakpoint belongs to the lower function, not the documented upper one (C55_boundary_refuted).",
 "C57": "Proved for num >= 2 and any axis; with num=1 the only point is stop instead of start (C57_one_point_wrong).",
 "C58": "Proved when start has all the axes of the result or the new axis is first; otherwise the negative axis is counted from start's own shape (C58_axis_wrong).",
 "C59": "Proved; lengths 0 and 1 do not broadcast (C59_zero_length_fails).",
 "C60": "Proved; positive axis not rejected for scalar arguments (C60_scalar_axis_wrong).",
 "C65": "Proved; pcen of an axis of length 0 stays empty (C65_pcen_empty_wrong).",
 "C67": "Proved for 70 or more points; for fewer the code uses sqrt(1-mu) instead of sqrt(1-mu^2) and can return points outside the sphere (C67_small_refuted).",
 "C75": "1-D data only; for 2-D and higher the code raises ValueError (C75_nd_data_refuted).",
 "C73": "Refined by C77; running a module's source is a parameter (any function on namespaces that may raise).",
 "C74": "Finite tables, so kernel evaluation over the whole domain; the axes argument of set_color_cycle is ignored (refuted).",
 "C76": "title(y=None) with outward ticks raises TypeError (refuted); everything else proved. matplotlib's rc is a key-value map.",
 "C77": "Holds for modules without __all__ whose underscore names are all dunder names (partial); private names and names outside __all__ are also copied, and the second reloadx overwrites a user variable my in __main__ (refuted).",
 "C34": "Optimality over all competitors (non-periodic and periodic), and existence under a data condition (C34_succeeds*, C34_periodic_succeeds*); a periodic fit with a single interval always fails.",
 "C35": "Proved with the opposite sign: -cost is the derivative of the optimal chi2 (C35_sensitivity_partial, C35_sign_refuted). Periodic: proved up to the factor (dx_j/dx_{j+1})^k (exact for equidistant knots); the documented meaning is refuted for unequal knots.",
 "C33": "Non-periodic and periodic fits.",
 "C21": "Violated by the code in general (spurious roots, wrong degree used, IndexError, ValueError instead of an empty array, periodic functions: the _refuted theorems). Proved for every function whose may-vanish pieces are nonlinear-first with non-negligible leading coefficients and without the linear-mask defect; unconditional (tol=0) for piecewise linear and constant functions and (C22_all_nonlinear) for functions all of whose pieces have degree 2 or more.",
 "C22": "Violated by the code in general (roots beyond one width of the last knot missed: the _refuted theorems). Completeness proved, with the exact bound from near-duplicate removal, under the conditions stated in the theorem; unconditional iff for piecewise linear functions with tol=0; C22_all_nonlinear: with tol=0, for functions all of whose pieces have degree 2 or more, every solution up to one width beyond the last knot.",
 "C79": "Every real x. x<2: Chebyshev series of the integrand with bounded truncation and rounding. x>=2: the integral is split at t=x, 1/(1+u) replaced by a degree-19 polynomial (error 1/T_20(3)), the two resulting functions (Dawson and erfc-like) approximated by certified piecewise polynomials; all polynomial inequalities by Bernstein certificates in the kernel. fdm12 is proved to 3e-12 above 2 (its true error there reaches 2.7e-12), the others to 1e-12.",
 "C80": "components (C80_splfit, C80_plfit) and arrays with at most one leading axis (C80_arrays_*) proved; for two or more leading axes, promised by the docstrings, the code always raises (C80_leading_axes_fails)",
 "C27": "What a returned periodic spline satisfies, and exactly when it exists (degree or number of intervals odd).",
 "C85": "Every array, every positive element; the integral is Mathlib's. The bound for ifd52 is 2.5e-8 (the code's true maximum is 2.1e-8; documented 'about 1e-8').",
 "C86": "Joint distribution as the measure of every rectangle (IsSample): all sets whole = returns with probability 1; C86_one_point spells out the marginal. Ideal generator is a hypothesis, shown satisfiable (exists_idealRng).",
 "C87": "Uniform = probability on the circle/sphere invariant under every rotation; C87_unique shows there is exactly one.",
 "C88": "Two-sided invariance, uniqueness, and the image of unit vectors.",
 "C89": "Proved for 70 or more points; for 1 to 69 points the code's sqrt(1-mu) makes the points leave the ball with positive probability (C89_small_refuted).",
 "C81": "scipy.special.gammaincc is a parameter assumed to be the regularised upper incomplete gamma function. ndof > 0 is required: with ndof = 0 the code calls gammaincc(0, 0).",
 "C90": "Errors of any distribution with finite variance; the models and errs are not random.",
 "C91": "Mathlib's multivariateGaussian and IndepFun.",
 "C92": "With dictionaries proved for every call; without, the file runs in the namespace of npplus.interactive instead of the caller's (C92_default_refuted).",
 "C93": "matplotlib's registry, rc, gci and set_cmap are modelled as a state; the tables are finite, evaluated by the kernel.",
 "C94": "The model's functions themselves, run on rounded numbers; binary numbers of any precision shown to be such a system. Overflow and underflow not modelled.",
 "C95": "As C94. Without the condition on the step the last step may go down (num^2 u near 1); not excluded.",
 "C96": "As C94.",
 "C97": "For degree at least 1; a histogram at NaN is the last constant (C97_histogram_refuted). Infinities not modelled.",
 "C98": "Proved for every history without the operations p+q, p-q, p*q of a periodic p and a q that is not periodic and has fewer dimensions; these overwrite the outer pieces of q (C98_product_changes_refuted, C98_example_refuted).",
 "C99": "Proved except for even degree 4 or more with a float array as last argument: that array is divided in place (C99_last_array_refuted, C99_twice_refuted).",
 "C100": "Real functions; exact arithmetic.",
 "C101": "Scalar splines over the reals; exact arithmetic. `lo`, `hi` are Taylor coefficients as in C25.",
 "C102": "As C101. The constants are not optimal.",
 "C82": "Proved for operands with the same ends (and knots that addknots does not merge), knots added inside the period, and integ within one period; the code gives wrong functions otherwise: C82_period_refuted (different periods), C82_addknots_refuted (knots outside the period), C82_mixed_refuted (plain + periodic), C82_integ_refuted (integral over several periods).",
 "C103": "Proved for all operations; for binary operators when the operands have the same class or the same number of dimensions. Otherwise _binary converts the other operand to the class of self, which also changes it (C98_product_changes_refuted).",
 "C108": "proved for constants given per component (shape (j,)+U or U); the documented list of constants and the default are refuted for values with axes: ValueError (C108_list1_fails, C108_default1_fails, C108_list2_fails) or constants distributed over the last component axis (C108_list2_wrong)",
 "C109": "proved for data arrays V+(l,) with 0 not in V; the scalar constructor's own defects (C05, C07, C08, C13 partials) hold for each component; in-place change of the caller's last array: C99",
 "C110": "Proved for every key of integers, slices and newaxis (errors included); violated by the code for keys containing an Ellipsis (C110_ellipsis_fails). Index arrays and masks are not modelled.",
 "C111": "integration constant and lower bound explicit (C10 on the default constant of vector valued functions)",
 "C112": "no bounds pmin, pmax; C112_best_fit: for independent columns mu exists and levmar returns without exception",
 "C113": "proved for orthogonal columns (in particular a single free parameter); false in general (C113_bounds_refuted)",
 "C114": "svd, solve and inv are parameters assumed to satisfy their defining equations (shown satisfiable); mu as in C112",
 "C115": "Proved for out different from branch (out may be a or b); with out=branch the cut is overwritten before it is used (C115_alias_wrong, C115_refuted). Overlapping views of different arrays are not modelled.",
 "C116": "dict objects on a heap; itmax an int (a float limit is not modelled)",
 "C117": "not periodic; increasing knots",
 "C118": "not periodic; for a<0 with defaults and even n the function changes (C119_even_refuted)",
 "C119": "true for increasing x and for odd n; for decreasing x and even n the extra condition is at the other end (C119_even_refuted)",
 "C120": "not periodic; increasing knots (decreasing ones reduce to them by C36_decreasing)",
 "C121": "not periodic; increasing knots (decreasing ones reduce to them by C36_decreasing)",
 "C122": "not periodic; increasing knots (decreasing ones reduce to them by C36_decreasing)",
 "C123": "laws about minimality require that no nonzero singular value is discarded (explicit hypothesis); svd is a parameter assumed to be one (shown satisfiable)",
 "C124": "knots of the operands equal or separated (as C16_separated, C17_separated); products of real valued functions",
 "C125": "no nonzero singular value discarded (explicit hypothesis); svd is a parameter assumed to be one (shown satisfiable)",
 "C126": "scipy.special.gammaincc is a parameter assumed to be the regularised upper incomplete gamma function",
 "C127": "",
 "C128": "no nonzero singular value discarded (explicit hypothesis); svd is a parameter assumed to be one (shown satisfiable)",
 "C129": "Odd and even degree; numpy.linalg.inv as a parameter with its defining equation.",
 "C130": "Exact arithmetic (rounding of span: C95). spanl: axis 0 or operands of the full number of dimensions, because of the axis bug C58_axis_wrong."
}