{"id": "C01", "title": "polyfun evaluates the polynomial", "statement": "polyfun(c, x) returns c[0] + c[1]*x + c[2]*x**2 + ... for a coefficient array of any length >= 1 (and raises for an empty coefficient array).", "quantifier": "every coefficient sequence of every length, every x (exact arithmetic)", "why_tests_cant": "a test fixes a degree and a few points; the two-coefficient start-up of the Horner loop and its backwards slice could be off by one at some degree", "anchors": ["npplus/pwpoly.py: polyfun, _polysetup"]}
{"id": "C02", "title": "polyddx returns derivatives", "statement": "polyddx(c, x, nd) returns nd+1 rows, row k being the k-th derivative of the polynomial at x divided by k!; with norm=True row k is the k-th derivative itself. Asking for more derivatives than the degree gives zero rows.", "quantifier": "every coefficient sequence, every x, every nd (smaller than, equal to and larger than the degree), both norm settings", "why_tests_cant": "the in-place shifting loop couples every row; tests sample one degree and nd; the degree-0 start-up is never tested", "anchors": ["npplus/pwpoly.py: polyddx, _polysetup"]}
{"id": "C03", "title": "polyddx is translation of the polynomial", "statement": "polyddx(c, x) are the coefficients of the polynomial translated by x: evaluating them at t gives the value of c at x+t, and polyddx(polyddx(c, x), y-x) equals polyddx(c, y).", "quantifier": "every coefficient sequence, every x, y, t", "why_tests_cant": "an identity between two nested loops for all degrees", "anchors": ["npplus/pwpoly.py: polyddx"]}
{"id": "C04", "title": "evaluation selects the right piece", "statement": "p(x) is the value, at x minus the left end of the piece containing x, of that piece's polynomial; before the first knot the origin is the first knot; the pieces tile the whole line, each x belonging to exactly one piece; p(x, nd) returns the value and nd derivatives of that same piece. The docstring promises xk[i-1] <= x < xk[i].", "quantifier": "every knot array, every coefficient array, every x including knots and points outside, every nd", "why_tests_cant": "boundary behaviour at every knot of every array; at discontinuous knots the two conventions differ", "anchors": ["npplus/pwpoly.py: PwPoly.__call__, PwPoly._rawinit"]}
{"id": "C05", "title": "constructor is two-sided Hermite interpolation", "statement": "PwPoly(xk, y, dydx, d2ydx2, ...) with h+1 arrays of the knots' size is a piecewise polynomial of degree 2h+1 whose value and first h derivatives at every knot, from both sides, are the given ones, and whose pieces depend only on the data at the two ends of the interval.", "quantifier": "every h, every strictly increasing knot array of size >= 2, every data array", "why_tests_cant": "holds for every degree; the matrix inverse and the powers-of-dx scaling must cancel for every spacing", "anchors": ["npplus/pwpoly.py: PwPoly.__init__, PwPoly._two_sided_inverse"]}
{"id": "C06", "title": "constructor extrapolation", "statement": "Outside the end knots a PwPoly built from knot data has just the given derivatives: to the left (right) of the end knots it is the degree-h Taylor polynomial of the data at the first (last) knot.", "quantifier": "every h, knots, data and x outside the knots", "why_tests_cant": "quantifies over all outside points", "anchors": ["npplus/pwpoly.py: PwPoly.__init__"]}
{"id": "C07", "title": "decreasing knots are accepted", "statement": "Passing strictly decreasing xk (with data in the same order) to PwPoly gives exactly the object obtained from the reversed, increasing arrays.", "quantifier": "every strictly decreasing knot array and data", "why_tests_cant": "order of reversal of several arrays for all sizes", "anchors": ["npplus/pwpoly.py: PwPoly.__init__"]}
{"id": "C08", "title": "histograms and even degrees", "statement": "PwPoly(x, y) with one more y than x is piecewise constant with value y[i] in piece i; with one fewer y it is the histogram that is 0 outside the knots. When the final argument has one point fewer than xk the result has even degree 2N, matches the N given values/derivatives at all knots and its P-th (P=2N) derivative/P! in each interval equals the final values given.", "quantifier": "every knot and value array, every N", "why_tests_cant": "the even path is never exercised by the tests beyond N=0", "anchors": ["npplus/pwpoly.py: PwPoly.__init__"]}
{"id": "C09", "title": "deriv is the derivative", "statement": "p.deriv(m)(x) is the m-th derivative of the piece of p containing x, for every m including m greater than the degree; it agrees with the m-th derivative returned by p(x, m).", "quantifier": "every PwPoly, every m, every x", "why_tests_cant": "all m and degrees; agreement between two different code paths", "anchors": ["npplus/pwpoly.py: PwPoly.deriv, PwPoly.__call__"]}
{"id": "C10", "title": "integ is the continuous antiderivative", "statement": "p.integ(m, k, lbnd) is a PwPoly whose j-th derivative (j=1..m) steps back through the integrals to p, which is continuous at every knot, and the j-th integral takes value k[j-1] (0 when missing) at lbnd. This holds for p of any dimensionality with the default k.", "quantifier": "every PwPoly, m, k, lbnd (inside or outside the knots)", "why_tests_cant": "continuity of a running sum over an unbounded number of knots, for every lbnd", "anchors": ["npplus/pwpoly.py: PwPoly.integ"]}
{"id": "C11", "title": "deriv and integ are mutually inverse", "statement": "p.integ().deriv() has the coefficients of p; p.deriv().integ(lbnd=a, k=p(a)) is p whenever p is continuous of degree >= 1.", "quantifier": "every PwPoly, every a", "why_tests_cant": "algebraic law for all sizes", "anchors": ["npplus/pwpoly.py: PwPoly.deriv, PwPoly.integ"]}
{"id": "C12", "title": "jumps measures discontinuity", "statement": "p.jumps(n)[k] at knot i is (k-th Taylor coefficient from the right) minus (from the left); it is zero for k<=n iff p is C^n at that knot; a continuous p takes the same value from both sides.", "quantifier": "every PwPoly, n <= degree, every knot", "why_tests_cant": "relates coefficients for all knots/degrees", "anchors": ["npplus/pwpoly.py: PwPoly.jumps"]}
{"id": "C13", "title": "reknot matches at the new knots", "statement": "p.reknot(xk, n) has degree n, and matches value and (n-1)//2 derivatives of p at every new knot; for even n the n-th derivative at every interval midpoint also matches; when xk contains the knots of p and n is p's odd degree 2h+1 with p C^h, the result is the same function between the end knots.", "quantifier": "every PwPoly, new knots, n", "why_tests_cant": "all n; even n is never value-checked away from the knots", "anchors": ["npplus/pwpoly.py: PwPoly.reknot"]}
{"id": "C14", "title": "addknots does not change the function", "statement": "p.addknots(xk) has as knots the union and is everywhere (including outside the knots) equal to p.", "quantifier": "every PwPoly, every added knot array (separated by more than the tolerance), every x", "why_tests_cant": "equality of functions on the whole line", "anchors": ["npplus/pwpoly.py: PwPoly.addknots"]}
{"id": "C15", "title": "allknots is the sorted union", "statement": "p.allknots(q, ...) is strictly increasing, contains p's knots and every point that is not within tol of an existing knot, contains nothing else, and is the knot array itself when the arguments add nothing.", "quantifier": "every list of knot arrays, every tol", "why_tests_cant": "all sizes and all near-coincidences", "anchors": ["npplus/pwpoly.py: PwPoly.allknots"]}
{"id": "C16", "title": "sum and difference are pointwise", "statement": "(p+q)(x) = p(x)+q(x), (p-q)(x) = p(x)-q(x), (-p)(x) = -p(x) for every x, whatever the two knot arrays and degrees.", "quantifier": "every p, q (different knots and degrees), every x", "why_tests_cant": "function equality on the whole line for arbitrary pairs of knot arrays", "anchors": ["npplus/pwpoly.py: PwPoly._binary, __add__, __sub__, __neg__"]}
{"id": "C17", "title": "product is pointwise", "statement": "(p*q)(x) = p(x)*q(x) and deg(p*q) = deg p + deg q.", "quantifier": "every p, q, x", "why_tests_cant": "as C16", "anchors": ["npplus/pwpoly.py: PwPoly.__mul__"]}
{"id": "C18", "title": "scalar operands", "statement": "2*p, p+2, p-2, p/2, 2-p are the pointwise results for a scalar operand; p/q for a PwPoly q raises TypeError.", "quantifier": "every p, every scalar, every x", "why_tests_cant": "all coefficients of all pieces must be treated according to the operation", "anchors": ["npplus/pwpoly.py: PwPoly._binary, __add__, __mul__, __truediv__, __rsub__, asfarray"]}
{"id": "C19", "title": "components", "statement": "For a multidimensional p, len(p) is its first dimension, p[i](x) = p(x)[i], and len of a scalar p raises TypeError.", "quantifier": "every shape, index and x", "why_tests_cant": "all shapes", "anchors": ["npplus/pwpoly.py: PwPoly.__getitem__, __len__"]}
{"id": "C20", "title": "pickle and copy", "statement": "Restoring the pickled state of a PwPoly (or PerPwPoly) gives an object that evaluates identically at every x.", "quantifier": "every PwPoly / PerPwPoly and x", "why_tests_cant": "state must carry every attribute evaluation uses", "anchors": ["npplus/pwpoly.py: PwPoly.__getstate__, __setstate__, PerPwPoly.__call__"]}
{"id": "C21", "title": "roots are roots", "statement": "Every x returned by p.roots(v) is a point with p(x)=v or a knot where p jumps across v; when there is none the result is an empty array.", "quantifier": "every scalar PwPoly and v", "why_tests_cant": "all sign patterns of all pieces, including ones where several filters interact", "anchors": ["npplus/pwpoly.py: PwPoly.roots"]}
{"id": "C22", "title": "all roots are found", "statement": "Every isolated x with p(x)=v (within the tolerance documented) is returned by p.roots(v).", "quantifier": "every scalar PwPoly, v", "why_tests_cant": "completeness over every piece including the semi-infinite ones", "anchors": ["npplus/pwpoly.py: PwPoly.roots"]}
{"id": "C23", "title": "periodic evaluation", "statement": "A PerPwPoly p satisfies p(x+m*period) = p(x) for every x and integer m, equals the underlying pieces inside the first period, and needs at least two knots.", "quantifier": "every PerPwPoly, x, integer m", "why_tests_cant": "all x and all m", "anchors": ["npplus/pwpoly.py: PerPwPoly.__call__, PerPwPoly._rawinit"]}
{"id": "C24", "title": "spline interpolates and is C^(n-1)", "statement": "A spline returned by spline(x, y, n) passes through every (x[i], y[i]) and has n-1 continuous derivatives at every interior knot, for every degree n >= 1. It returns exactly when for every d < n more than d of the data and (completed) boundary conditions on the first d derivatives are given - with default conditions, when there are at least (n+1)/2 points - and raises LinAlgError otherwise.", "quantifier": "every n, every strictly monotonic x with at least 2 points, every y", "why_tests_cant": "the banded system must encode these equations for every n and size", "anchors": ["npplus/pwpoly.py: spline, _bico"]}
{"id": "C25", "title": "spline boundary conditions", "statement": "The k-th Taylor coefficients given in lo (hi) are taken by the spline at x[0] (x[-1]), and the ones left unspecified by the default rule are 0.", "quantifier": "every n, lo, hi with at most n-1 specified, all sizes", "why_tests_cant": "row placement/scaling of boundary rows for all n and all subsets of specified derivatives", "anchors": ["npplus/pwpoly.py: spline"]}
{"id": "C26", "title": "default boundary conditions complete lo and hi", "statement": "When fewer than n-1 derivatives are given spline fills the highest unspecified ones with zero, starting at lo and alternating, until exactly n-1 are specified, never overriding a given value and never reaching the 'impossible error'; when more than n-1 are given it raises.", "quantifier": "every n, lo, hi", "why_tests_cant": "a loop with two counters over all subsets of given derivatives", "anchors": ["npplus/pwpoly.py: spline"]}
{"id": "C27", "title": "periodic spline", "statement": "spline(x, y, per=True) is a PerPwPoly through the points (y[-1] ignored, taken as y[0]) with n-1 continuous derivatives at every knot including across the period. It returns exactly when the degree or the number of intervals is odd, and raises LinAlgError otherwise.", "quantifier": "every n, x, y", "why_tests_cant": "cyclic system for every n, size", "anchors": ["npplus/pwpoly.py: spline", "npplus/solveper.py: solve_periodic"]}
{"id": "C28", "title": "spline extrapolation degree", "statement": "With extrap=(a,b) the spline keeps exactly a (b) continuous derivatives beyond the first (last) knot: left of x[0] it is the degree-a Taylor polynomial of the first piece at x[0], right of x[-1] the degree-b Taylor polynomial of the last piece at x[-1]; default n-1.", "quantifier": "every n, a, b, x, y", "why_tests_cant": "all degrees and points outside", "anchors": ["npplus/pwpoly.py: spline"]}
{"id": "C29", "title": "spline accepts decreasing x", "statement": "spline(x[::-1], y[::-1], lo=b, hi=a, extrap=(q,p)) is the same function as spline(x, y, lo=a, hi=b, extrap=(p,q)).", "quantifier": "every x, y, lo, hi, extrap", "why_tests_cant": "swap of several paired arguments", "anchors": ["npplus/pwpoly.py: spline"]}
{"id": "C30", "title": "pline is linear interpolation", "statement": "pline(x, y)(t) is numpy.interp(t, x, y): the linear interpolant between neighbouring points and constant outside; pline(x, y, 1) extrapolates linearly.", "quantifier": "every x, y, t", "why_tests_cant": "all t, all sizes", "anchors": ["npplus/pwpoly.py: pline, spline"]}
{"id": "C31", "title": "plfit is the least squares polyline", "statement": "Among all continuous piecewise linear functions with knots xk, plfit(xk, x, y, sigy) minimises chi2 = sum(((f(x)-y)/sigy)**2).", "quantifier": "every data set, knots, weights, every competing polyline", "why_tests_cant": "optimality quantifies over all competitors", "anchors": ["npplus/pwpoly.py: plfit, _plfitter, _splfit_args"]}
{"id": "C32", "title": "plfit constraints", "statement": "With lo/hi plfit returns a polyline with exactly these end values, optimal among those; with per=True it is periodic and optimal among periodic polylines.", "quantifier": "every data set, knots, lo, hi", "why_tests_cant": "as C31, with the reduced system", "anchors": ["npplus/pwpoly.py: _plfitter"]}
{"id": "C33", "title": "splfit satisfies its constraints", "statement": "splfit(xk, x, y, n=n, nc=nc, lo=, hi=) has degree n, nc continuous derivatives at every interior knot, and takes the lo/hi values and derivatives at the end knots.", "quantifier": "every n, nc, knots, data", "why_tests_cant": "placement of Lagrange rows in a banded matrix for all n, nc, sizes", "anchors": ["npplus/pwpoly.py: splfit, _bico"]}
{"id": "C34", "title": "splfit is the constrained least squares optimum", "statement": "Among all piecewise polynomials of degree n with knots xk and nc continuous derivatives (and the lo/hi values), splfit minimises chi2.", "quantifier": "every data set and every competitor", "why_tests_cant": "optimality over all competitors", "anchors": ["npplus/pwpoly.py: splfit"]}
{"id": "C35", "title": "splfit cost is the Lagrange multiplier", "statement": "cost[k][i] returned by splfit is the partial derivative of the optimal chi2 with respect to the jump of the k-th coefficient at interior knot i, normalised in x units.", "quantifier": "every data set, n, nc", "why_tests_cant": "sensitivity statement about all perturbations", "anchors": ["npplus/pwpoly.py: splfit"]}
{"id": "C36", "title": "fit argument handling", "statement": "Data beyond the end knots extends the knot array to the data range; lo (hi) is rejected with ValueError when data lie below xk[0] (above xk[-1]); per=True rejects lo, hi, extrap; every data point is assigned to an interval that contains it.", "quantifier": "every xk, x, lo, hi, per", "why_tests_cant": "all positions of data relative to knots", "anchors": ["npplus/pwpoly.py: _splfit_setup, _splfit_args"]}
{"id": "C37", "title": "solve_periodic solves the cyclic system", "statement": "x = solve_periodic((l,u), ab, b) satisfies A x = b where A[i,j] = sum of ab[r,j] over r with i = j+r-u modulo n: band elements plus wrapped corner elements.", "quantifier": "every l, u, n >= l+u, ab, b for which the inner solves succeed", "why_tests_cant": "Woodbury style correction for every bandwidth and size", "anchors": ["npplus/solveper.py: solve_periodic, _diag_to_norm"]}
{"id": "C38", "title": "diagonal-ordered form conversion", "statement": "_diag_to_norm((l,u), ab) is the matrix with a[i,j] = ab[u+i-j, j] inside the band and 0 outside; inconsistent shapes raise ValueError.", "quantifier": "every l, u, n, ab", "why_tests_cant": "strided flat index arithmetic for all sizes", "anchors": ["npplus/solveper.py: _diag_to_norm"]}
{"id": "C39", "title": "symmetric solvers", "statement": "solves_banded/solves_periodic given the lower (or upper) half of a symmetric (cyclic) band matrix solve the full symmetric system; the assembled matrix is symmetric.", "quantifier": "every bandwidth, size, ab, lower/upper", "why_tests_cant": "roll amounts for all bandwidths", "anchors": ["npplus/solveper.py: solves_banded, solves_periodic, _solves_symgen"]}
{"id": "C40", "title": "regress is least squares", "statement": "p = regress(data, m1, m2, ..., errs=s) minimises sum(((sum_i p_i m_i - data)/s)**2) over all p when no nonzero singular value is discarded.", "quantifier": "every data, models, errs, every competing p", "why_tests_cant": "optimality over all p", "anchors": ["npplus/lsqfit.py: regress"]}
{"id": "C41", "title": "regress picks the smallest solution", "statement": "Among all minimisers regress returns the one of smallest Euclidean norm; discarded directions do not contribute to p.", "quantifier": "every data, model matrix (any rank)", "why_tests_cant": "optimality over all p", "anchors": ["npplus/lsqfit.py: regress"]}
{"id": "C42", "title": "regress statistics", "statement": "With model=1: model() is the fitted data in data units, chi2 is the residual sum of squares over max(ndof,1), ndof is #data minus the number of kept singular values, pcov is the inverse of the normal matrix when nothing is discarded.", "quantifier": "every data, models, errs", "why_tests_cant": "matrix identities for all sizes", "anchors": ["npplus/lsqfit.py: regress, ModelFit"]}
{"id": "C43", "title": "levmar respects bounds", "statement": "levmar never calls f with parameters outside [pmin, pmax] (including the finite difference calls), provided pmin <= p0 <= pmax.", "quantifier": "every f, data, p0, bounds, and every iteration of every run", "why_tests_cant": "history property over all iterations and all user functions", "anchors": ["npplus/lsqfit.py: levmar, numerical_partials"]}
{"id": "C44", "title": "levmar keeps pfix parameters", "statement": "Every call of f made by levmar, and the returned parameters, have the pfix components equal to p0.", "quantifier": "every f, data, p0, pfix, every iteration", "why_tests_cant": "history property", "anchors": ["npplus/lsqfit.py: levmar, numerical_partials"]}
{"id": "C45", "title": "levmar does not make the fit worse", "statement": "The returned chi2 is at most 1.000001 times the chi2 of the initial guess, and the chi2 of accepted steps decreases strictly until the last.", "quantifier": "every f, data, p0, configuration with tol >= 0", "why_tests_cant": "monotonicity over all iterations", "anchors": ["npplus/lsqfit.py: levmar"]}
{"id": "C46", "title": "levmar terminates", "statement": "With gain > 1, lambda0 > 0 and itmax >= 1 levmar returns or raises LevmarError after finitely many calls of f, at most itmax gradient evaluations.", "quantifier": "every f, data and configuration", "why_tests_cant": "termination for all inputs", "anchors": ["npplus/lsqfit.py: levmar"]}
{"id": "C47", "title": "numerical partials", "statement": "numerical_partials returns the one-sided difference quotients (f(p+dp e_i)-f(p))/dp_i with |dp_i| = max(prel*|p_i|, pabs), exact for affine f, one row per free parameter; a zero step raises ValueError.", "quantifier": "every f, p, prel, pabs, mask", "why_tests_cant": "all f and p", "anchors": ["npplus/lsqfit.py: numerical_partials"]}
{"id": "C48", "title": "levmar results", "statement": "The returned pcov has zero rows and columns for fixed parameters and the inverse of the normal matrix elsewhere; ndof is data size minus free parameters; fewer data than parameters is rejected.", "quantifier": "every run", "why_tests_cant": "all masks", "anchors": ["npplus/lsqfit.py: levmar"]}
{"id": "C49", "title": "ModelFit evaluates at the best fit", "statement": "model(args) = f(model.p, args), for both plain and generator f; perr, chi2pcov and chiperr are sqrt of diag pcov, chi2*pcov and sqrt of its diagonal.", "quantifier": "every f, p, args", "why_tests_cant": "all f", "anchors": ["npplus/lsqfit.py: ModelFit"]}
{"id": "C50", "title": "ADict attributes are items", "statement": "x.name = v, x.name and del x.name act as x['name'] = v, x['name'] and del x['name'] for every name that is not a class attribute; a missing name raises KeyError; other items are untouched, for any sequence of operations.", "quantifier": "every operation sequence and name", "why_tests_cant": "histories of mixed item/attribute operations", "anchors": ["npplus/itemattr.py: ADict, ItemsAreAttrs.name2key"]}
{"id": "C51", "title": "ADict trailing underscore escape", "statement": "x.name_ is always x['name'] (exactly one underscore removed); names beginning with double underscore keep their trailing underscore.", "quantifier": "every name", "why_tests_cant": "all names", "anchors": ["npplus/itemattr.py: ADict, ItemsAreAttrs.name2key"]}
{"id": "C52", "title": "items_are_attrs classes", "statement": "In a decorated class attribute access is item access for every name not starting with '__' and not a class attribute; class attributes and dunder names are ordinary attributes; setting or deleting a '__' name raises ValueError and changes nothing.", "quantifier": "every class attribute set, operation sequence", "why_tests_cant": "histories", "anchors": ["npplus/itemattr.py: items_are_attrs, ItemsAreAttrs"]}
{"id": "C53", "title": "items_are_attrs customisation", "statement": "@items_are_attrs(MyAttrMethods) installs the get, set and delete of MyAttrMethods.", "quantifier": "every methods class", "why_tests_cant": "behaviour for every argument", "anchors": ["npplus/itemattr.py: items_are_attrs"]}
{"id": "C54", "title": "redict", "statement": "redict(d) copies d, converting d and every dict reachable through dict values to the target class, keeps keys, order and non-dict values, and applying it twice to a plain nested dict gives back an equal nested dict of plain dicts; d itself is not changed.", "quantifier": "every finitely nested dict", "why_tests_cant": "all nesting depths", "anchors": ["npplus/itemattr.py: redict"]}
{"id": "C55", "title": "pcwise dispatch", "statement": "A pcwise function with breakpoints x1<...<xN applies f_i exactly to the points of its domain; the result has the shape of x and every element is f_i of that element alone; documented domains are x_i <= x < x_(i+1).", "quantifier": "every breakpoint list, function list, x", "why_tests_cant": "boundary behaviour for all arrays", "anchors": ["npplus/pcwise.py: pcwise"]}
{"id": "C56", "title": "pcwise validation and error pieces", "statement": "A string piece raises ValueError with that string iff some point falls in its domain; a wrong number of functions or non-increasing breakpoints raise TypeError at decoration time.", "quantifier": "every tuple, x", "why_tests_cant": "all tuples", "anchors": ["npplus/pcwise.py: pcwise, _value_error_func"]}
{"id": "C57", "title": "span", "statement": "span(a, b, n) has n points, equally spaced, first a and last exactly b, along any new axis position.", "quantifier": "every shape, n >= 2, axis", "why_tests_cant": "all shapes", "anchors": ["npplus/basic.py: span"]}
{"id": "C58", "title": "spanl", "statement": "spanl(a, b, n) has first point a, last b, constant ratio, all of the sign of a, and raises ValueError when a or b is 0 or they differ in sign; axis has the same meaning as in span.", "quantifier": "every a, b, n, axis", "why_tests_cant": "all inputs", "anchors": ["npplus/basic.py: spanl"]}
{"id": "C59", "title": "cat_ joins with broadcasting", "statement": "cat_(a1, a2, ..., axis=k) has, along the axis, the sum of the lengths, and each block is the corresponding argument broadcast to the common shape of the other axes; bad axis raises ValueError.", "quantifier": "every list of conformable arrays, axis (negative too)", "why_tests_cant": "all shapes", "anchors": ["npplus/basic.py: cat_"]}
{"id": "C60", "title": "a_ stacks with broadcasting", "statement": "a_(a1, a2, ..., axis=k)[..., i at axis k, ...] is the i-th argument broadcast to the common shape; bad axis raises ValueError.", "quantifier": "every list of conformable arrays, axis", "why_tests_cant": "all shapes", "anchors": ["npplus/basic.py: a_"]}
{"id": "C61", "title": "max_ and min_", "statement": "max_ (min_) returns the elementwise greatest (least) of any number of arguments, independent of their order and grouping.", "quantifier": "every argument list", "why_tests_cant": "all lists", "anchors": ["npplus/basic.py: max_, min_"]}
{"id": "C62", "title": "abs_", "statement": "abs_(a1,...,an) is the Euclidean norm: its square is the sum of squared absolute values; with one argument it is the absolute value; it does not depend on argument order.", "quantifier": "every argument list, real or complex", "why_tests_cant": "all lists", "anchors": ["npplus/basic.py: abs_"]}
{"id": "C63", "title": "atan branch", "statement": "atan(a, b, branch=c) is an angle of the point (b, a) with c <= angle < c+2*pi; without branch the principal value.", "quantifier": "every a, b, c", "why_tests_cant": "all reals", "anchors": ["npplus/basic.py: atan"]}
{"id": "C64", "title": "cum inverts diff", "statement": "diff(cum(a)) = a, cum(diff(a)) = a - a[0], cum starts with 0 and has one more element along the axis; a scalar raises TypeError.", "quantifier": "every array and axis", "why_tests_cant": "all sizes", "anchors": ["npplus/basic.py: cum"]}
{"id": "C65", "title": "zcen and pcen", "statement": "zcen gives the means of neighbours (one element fewer, TypeError below two), pcen the same with the end elements copied (one element more); cum(zcen(f)*diff(x)) is the trapezoid integral.", "quantifier": "every array and axis", "why_tests_cant": "all sizes", "anchors": ["npplus/basic.py: zcen, pcen"]}
{"id": "C66", "title": "incircle points are in the unit circle", "statement": "incircle(size) returns points of the requested shape, all strictly inside the unit circle, in both algorithms, for every outcome of the random number generator.", "quantifier": "every generator outcome, size", "why_tests_cant": "random outcomes", "anchors": ["npplus/randomx.py: incircle"]}
{"id": "C67", "title": "insphere points are in the unit sphere", "statement": "insphere(size) returns points of the requested shape all inside the unit sphere, in both algorithms.", "quantifier": "every generator outcome, size", "why_tests_cant": "random outcomes: only some seeds show a violation", "anchors": ["npplus/randomx.py: insphere"]}
{"id": "C68", "title": "oncircle and onsphere", "statement": "oncircle and onsphere points have norm exactly 1.", "quantifier": "every generator outcome, size", "why_tests_cant": "random outcomes", "anchors": ["npplus/randomx.py: oncircle, onsphere"]}
{"id": "C69", "title": "rotation3 gives rotations", "statement": "Every matrix of rotation3 is orthogonal with determinant +1.", "quantifier": "every generator outcome, size", "why_tests_cant": "random outcomes", "anchors": ["npplus/randomx.py: rotation3"]}
{"id": "C70", "title": "Fermi-Dirac functions act elementwise", "statement": "fd*/ifd* return an array of the shape of x whose elements are the documented rational approximation of that element alone, with the branch chosen at x<2 (x<4 for inverses), powers in decreasing order.", "quantifier": "every array", "why_tests_cant": "all arrays", "anchors": ["npplus/fermi.py: _fd_integ, _peval"]}
{"id": "C71", "title": "Fermi-Dirac functions are well defined", "statement": "fd* never divides by zero and is positive for every real x; ifd* is well defined for every x>0.", "quantifier": "every real x (every x>0)", "why_tests_cant": "all reals", "anchors": ["npplus/fermi.py: fdm12, fd12, fd32, fd52, ifdm12, ifd12, ifd32, ifd52"]}
{"id": "C72", "title": "logxy and plot wrappers", "statement": "logxy sets exactly the axes and scales its docstring says for all argument combinations; wrapped pyplot functions call the original with the same arguments and return None; xylim forwards its limits.", "quantifier": "every argument combination", "why_tests_cant": "decision table", "anchors": ["npplus/pyplotx/pltwraps.py: logxy, xylim, _iwrap"]}
{"id": "C73", "title": "reloadx", "statement": "After reloadx(module) every name of the module that is not a dunder name is bound in __main__ to the module's value, other names of __main__ are unchanged, and module.my is __main__ unless the module defines my.", "quantifier": "every module namespace and main namespace", "why_tests_cant": "all namespaces", "anchors": ["npplus/interactive.py: reloadx"]}
{"id": "C74", "title": "colour cycles", "statement": "The 'ny' colour sets are the full ColorBrewer sets without their yellow, with no repeated colours and with the documented sizes.", "quantifier": "all the colour tables", "why_tests_cant": "finite table", "anchors": ["npplus/pyplotx/cbqcolors.py: CBQ"]}
{"id": "C75", "title": "levmar accepts data of any shape", "statement": "levmar fits data of any shape when f returns an array of the shape of the data.", "quantifier": "every shape of data, every f returning that shape", "why_tests_cant": "all shapes", "anchors": ["npplus/lsqfit.py: levmar"]}
{"id": "C76", "title": "style_npp and title", "statement": "style_npp sets the documented matplotlib parameters and no others, leaves the default colour cycle for cycle='', is idempotent; title passes its keywords on, adding y=1.03 exactly when no position is given and ticks point outwards.", "quantifier": "every previous parameter setting, box, cycle and keyword arguments", "why_tests_cant": "all previous settings and keyword combinations", "anchors": ["npplus/pyplotx/mpldefaults.py: style_npp, title"]}
{"id": "C77", "title": "reloadx is reload plus import *", "statement": "reloadx(module) changes __main__ exactly as reload(module); from module import * does.", "quantifier": "every module (with or without __all__ and private names), every main namespace, every sequence of reloads", "why_tests_cant": "all namespaces and histories", "anchors": ["npplus/interactive.py: reloadx"]}
{"id": "C79", "title": "The Fermi-Dirac functions are the Fermi-Dirac integrals", "statement": "fdm12, fd12, fd32, fd52 return the integral of t**j/(exp(t-x)+1) over t>0 for j=-1/2, 1/2, 3/2, 5/2, accurate to about 1e-12 as documented (relative error at most 1e-12, 3e-12 for fdm12), at every element of any array x.", "quantifier": "every real x (uncountably many), every array shape", "why_tests_cant": "a rational approximation can be wrong between sampled points; every digit of every coefficient matters", "anchors": ["npplus/fermi.py: fdm12, fd12, fd32, fd52, _fd_integ"]}
{"id": "C83", "title": "Constructor and spline act component by component, linearly", "statement": "With data whose leading dimensions hold several curves, PwPoly(xk, y, ...) and spline(x, y, n, lo, hi, per, extrap) return (or raise) exactly as for any one curve alone, and each component of the result, values and derivatives, is the result for that component; a linear combination of data and boundary values gives the linear combination of the results.", "quantifier": "every linear map of the values, knots, data, degree, boundary conditions, periodicity, extrapolation, evaluation point and number of derivatives", "why_tests_cant": "all data dimensions, all combinations", "anchors": ["npplus/pwpoly.py: PwPoly.__init__, PerPwPoly.new, spline, solve_periodic"]}
{"id": "C80", "title": "Fits of several curves and of arrays act component by component", "statement": "splfit and plfit of data with leading dimensions (several curves with the same abscissas) return exactly when the fit of each curve alone returns, and each curve of the joint fit (values, derivatives, costs) is the fit of that curve alone. For x of any shape and y, sigy, lo, hi conforming by broadcasting, the result is the fit of the flat list of all points, with the leading shape of y. The docstrings allow any number of leading dimensions; with two or more the code always raises.", "quantifier": "every number of curves, shape of x and y, knots, data, errors, boundary values, degree, continuity, periodicity, and every solver satisfying its equation", "why_tests_cant": "all shapes, all broadcasting combinations, all data", "anchors": ["npplus/pwpoly.py: plfit, splfit, _splfit_args, _splfit_setup"]}
{"id": "C84", "title": "The order of the data points does not matter in a fit", "statement": "Permuting the data points (x, y, sigy together) changes neither whether splfit or plfit returns nor the resulting function and costs.", "quantifier": "every list of data, every permutation, all other arguments", "why_tests_cant": "all permutations of unbounded lists", "anchors": ["npplus/pwpoly.py: plfit, splfit"]}
{"id": "C85", "title": "The inverse Fermi-Dirac functions invert the integrals", "statement": "For every array y the result of ifdm12, ifd12, ifd32, ifd52 has the shape of y, and for each positive element the Fermi-Dirac integral of order -1/2, 1/2, 3/2, 5/2 of the result is that element to a relative accuracy of 1e-8 (documented \"about 1e-8\"; 2.5e-8 for the order 5/2, whose true maximum is 2.1e-8). Hence fd12(ifd12(y)) is y to that accuracy, and so on.", "quantifier": "every array, every positive real element", "why_tests_cant": "a bound over a continuum of arguments for a function defined by an improper integral; one wrong digit of a coefficient matters only somewhere", "anchors": ["npplus/fermi.py: ifdm12, ifd12, ifd32, ifd52, fdm12, fd12, fd32, fd52"]}
{"id": "C86", "title": "incircle returns independent uniform points of the disc", "statement": "With a generator whose numbers are independent and uniform in [0,1), incircle(size) returns with probability 1, for every size, and the points it returns are independent, each with the uniform distribution in the unit disc (probability of a set = its area in the disc / area of the disc) - in the direct algorithm and in the rejection algorithm.", "quantifier": "every ideal generator, every size, every family of measurable sets of points", "why_tests_cant": "a distribution is a statement about all outcomes; independence across rejection passes cannot be seen in samples", "anchors": ["npplus/randomx.py: incircle"]}
{"id": "C87", "title": "oncircle and onsphere return independent uniform points of the circle and the sphere", "statement": "With an ideal generator the points of oncircle(size) and of onsphere(size) are independent, each with the rotation invariant probability distribution on the unit circle / unit sphere (which is unique).", "quantifier": "every ideal generator, every size, every family of measurable sets", "why_tests_cant": "a distribution is a statement about all outcomes", "anchors": ["npplus/randomx.py: oncircle, onsphere"]}
{"id": "C88", "title": "rotation3 returns independent uniform rotations", "statement": "With an ideal generator the matrices of rotation3(size) are independent, each with the uniform distribution of rotations: unchanged when a fixed rotation is applied before or after (Haar measure, unique); each unit vector is taken to a uniform point of the sphere.", "quantifier": "every ideal generator, every size, every fixed rotation, every unit vector", "why_tests_cant": "invariance under every rotation of a distribution", "anchors": ["npplus/randomx.py: rotation3"]}
{"id": "C89", "title": "insphere returns independent uniform points of the ball", "statement": "With an ideal generator insphere(size) returns with probability 1 and the points it returns are independent, each with the uniform distribution in the unit ball.", "quantifier": "every ideal generator, every size, every family of measurable sets", "why_tests_cant": "a distribution is a statement about all outcomes; the small sizes use another algorithm than the large ones", "anchors": ["npplus/randomx.py: insphere"]}
{"id": "C81", "title": "chi2prob is the probability of a worse fit", "statement": "If the data are the linear model with some coefficients plus independent normal errors of standard deviation errs, and regress discards no non-zero singular value and ndof > 0, then model.chi2prob(c) is the probability that the chi2 of the fit exceeds c; chi2prob() uses the chi2 of this fit.", "quantifier": "every probability space, shape, models, true coefficients, errs, rcond, c >= 0", "why_tests_cant": "a probability is a statement about all outcomes; simulations only bound it", "anchors": ["npplus/lsqfit.py: ModelFit.chi2prob, regress"]}
{"id": "C90", "title": "regress reports the covariance of the coefficients and is the best linear unbiased estimate", "statement": "If the errors of the data are uncorrelated with standard deviation errs (any distribution): pcov is the covariance matrix of p (whatever is discarded); p is unbiased when nothing is discarded, the fitted model is unbiased when only zero singular values are discarded; no linear unbiased estimate of a combination of the coefficients has a smaller variance (Gauss-Markov); the expectation of chi2 is 1 when ndof > 0.", "quantifier": "every probability space and error distribution, shape, models, errs, rcond, every competing linear estimate", "why_tests_cant": "statements about distributions and all competing estimates", "anchors": ["npplus/lsqfit.py: regress"]}
{"id": "C91", "title": "with normal errors p is normal with covariance pcov and independent of chi2", "statement": "If the data are the linear model with coefficients q plus independent normal errors of standard deviation errs: when nothing is discarded p has the multivariate normal distribution of mean q and covariance pcov; p and chi2 are independent.", "quantifier": "every probability space, shape, models, true coefficients, errs, rcond", "why_tests_cant": "statements about joint distributions", "anchors": ["npplus/lsqfit.py: regress"]}
{"id": "C92", "title": "execfile runs the file in the caller's namespace", "statement": "execfile(name, globals, locals) does what python 2's execfile does (the docstring): runs the file with the given dictionaries, or with the caller's namespace when none is given; a file that cannot be read or compiled raises and changes nothing.", "quantifier": "every file, argument list, caller, state of the process", "why_tests_cant": "every program and every caller", "anchors": ["npplus/interactive.py: execfile"]}
{"id": "C93", "title": "colour map functions", "statement": "Importing mpl2cmaps registers exactly the four colour maps under their names. magma(), inferno(), plasma(), viridis() each make their own map the default and that of the current image if there is one, and change nothing else. Each map has 256 colours with components in [0,1], and survives conversion to grey: a larger value is never darker, values at least 1/256 apart get different brightness.", "quantifier": "every state of pyplot, every pair of values", "why_tests_cant": "every state and every real value", "anchors": ["npplus/pyplotx/mpl2cmaps.py: magma, inferno, plasma, viridis, cminst"]}
{"id": "C94", "title": "rounding error of evaluation", "statement": "In floating point arithmetic with unit roundoff u, polyfun(c, x) for a polynomial of degree d is within ((1+u)^(2d) - 1) sum |c_i| |x|^i of the polynomial, and p(x) of a PwPoly uses exactly the piece containing x and is within ((1+u)^(3d) - 1) sum |c_k| |x - origin|^k of its polynomial there.", "quantifier": "every floating point system (rounding monotone, relative error at most u, no overflow or underflow), coefficients, knots, arguments", "why_tests_cant": "all floating point numbers", "anchors": ["npplus/pwpoly.py: polyfun, _polysetup, PwPoly.__call__"]}
{"id": "C95", "title": "rounding in span", "statement": "In floating point arithmetic span(start, stop, num) begins with exactly start, ends with exactly stop, its values before the last are monotone for start <= stop, each is within an explicit bound of start + i d, and if that bound does not exceed the step the whole sequence is nondecreasing and between start and stop.", "quantifier": "every floating point system, array shapes, starts, stops, num with num u <= 1, axis", "why_tests_cant": "all floating point numbers", "anchors": ["npplus/basic.py: span"]}
{"id": "C96", "title": "rounding in zcen and cum", "statement": "In floating point arithmetic each value of zcen(a) lies between the two neighbours it is the mean of, with relative error at most u; cum(a) begins with exactly 0, its k-th value is within ((1+u)^(k-1) - 1) sum |a_i| of the sum, and is nondecreasing if a is nonnegative.", "quantifier": "every floating point system, array, axis", "why_tests_cant": "all floating point numbers", "anchors": ["npplus/basic.py: zcen, cum"]}
{"id": "C97", "title": "NaN", "statement": "p(x) of a PwPoly is NaN if x is NaN; if x is a number it is NaN exactly if the piece containing x has a NaN coefficient, so that one does not spread to other pieces. A pcwise function passes NaN elements to the function of the last interval and all others to the function of their interval.", "quantifier": "every PwPoly, coefficients and argument numbers or NaN; every pcwise function and array", "why_tests_cant": "all inputs", "anchors": ["npplus/pwpoly.py: PwPoly.__call__, polyfun", "npplus/pcwise.py: pcwise"]}
{"id": "C98", "title": "PwPoly objects do not change", "statement": "No operation on PwPoly and PerPwPoly objects changes an existing object: after any history of constructions, derivatives, integrals, components, copies, roots, sums and products, every object the user holds has the knots, the coefficients and therefore the values it had when it was made, although objects may share memory.", "quantifier": "every history of operations, including those that raise exceptions, on any objects", "why_tests_cant": "all histories and all patterns of shared arrays", "anchors": ["npplus/pwpoly.py: PwPoly._rawinit, PwPoly.new, PwPoly.deriv, PwPoly.integ, PwPoly.roots, PwPoly.__getitem__, PwPoly._binary, PerPwPoly._rawinit"]}
{"id": "C99", "title": "the constructor does not change its arguments", "statement": "PwPoly(x, y, ...) reads its arguments: the arrays the caller passes have the same elements afterwards, so that every later call with the same arrays makes the same function.", "quantifier": "every history of constructor calls on any arrays of the caller, float or not", "why_tests_cant": "all histories, degrees and arrays", "anchors": ["npplus/pwpoly.py: PwPoly.__init__ (argz *= ...)"]}
{"id": "C100", "title": "error of Hermite and linear interpolation", "statement": "If PwPoly(x, f(x), f'(x), ..., f^(n-1)(x)) is made from a function with 2n derivatives, the error f(t) - p(t) between the knots a and b around t is f^(2n)(s)/(2n)! ((t-a)(t-b))^n for some s between a and b, so that it is at most max|f^(2n)| (h/2)^(2n)/(2n)!, h being the largest distance of knots; for pline it is at most max|f''| h^2/8.", "quantifier": "every 2n times differentiable function on the reals, every set of knots, every n, every point between the first and last knot", "why_tests_cant": "all functions and points", "anchors": ["npplus/pwpoly.py: PwPoly.__init__, PwPoly.__call__, pline"]}
{"id": "C101", "title": "splines of odd degree are the smoothest interpolants", "statement": "The spline of degree 2m-1 through the points (x, y) with the default boundary conditions has the least integral of the square of its derivative of order m (least bending for cubic splines) of all functions through the points which have such a derivative, and is the only one; the same holds with the first m-1 derivatives given at both ends, among the functions with these derivatives, and for periodic splines among the periodic functions.", "quantifier": "every m, every set of points, every competing function (not only piecewise polynomials)", "why_tests_cant": "all competing functions", "anchors": ["npplus/pwpoly.py: spline"]}
{"id": "C102", "title": "splines of odd degree converge", "statement": "If spline of degree 2m-1 is given values of a function f, the derivatives of order k < m of the spline differ from those of f at most by w^(m-1/2-k) ||f^(m)||, where w is the largest distance of neighbouring points times max(m-1, 1) and ||.|| the root of the integral of the square; if f has 2m derivatives and the derivatives given at the ends are those of f (or f and the spline are periodic) at most by w^(2m-1-k) times the integral of |f^(2m)|.", "quantifier": "every m, every set of points, every function with a square integrable derivative of order m, or with 2m derivatives", "why_tests_cant": "all functions and points", "anchors": ["npplus/pwpoly.py: spline"]}
{"id": "C82", "title": "arithmetic and knots of periodic functions", "statement": "The sum, difference and product of two periodic piecewise polynomials with the same ends are again periodic with the same period and are the pointwise sum, difference and product at every x, however many periods away; so are the negative and the derivative (away from the knots); adding knots within the period or reknotting to include the old knots does not change the function; integ() is an antiderivative within the period it starts in. With plain piecewise polynomials arithmetic is pointwise between them.", "quantifier": "every pair of periodic functions with any knots and degrees, every point x on the line, every set of knots to be added", "why_tests_cant": "all pairs of functions, knots and points, including points arbitrarily many periods away; the periodic class rewrites its first and last piece at each construction, so every intermediate object counts", "anchors": ["npplus/pwpoly.py: PerPwPoly, PerPwPoly._rawinit, PerPwPoly.__call__, PwPoly.new, PwPoly._binary, PwPoly.__add__, PwPoly.__sub__, PwPoly.__mul__, PwPoly.addknots, PwPoly.reknot, PwPoly.integ, PwPoly.deriv"]}
{"id": "C103", "title": "shared coefficient arrays do not affect results", "statement": "Whatever was computed before, and although objects share coefficient arrays, deriv, integ, -p, p[key], copies, constructors and the operators +, -, *, / on PwPoly and PerPwPoly objects return the function (or raise the exception) which is obtained component by component from the functions the operands represent, with numpy broadcasting of the components; in particular (p+q)(x) = p(x)+q(x) at every x after any history.", "quantifier": "every history of operations, every pair of operands of any shapes, every component and point", "why_tests_cant": "all histories of operations with shared memory; aliasing bugs show only after particular sequences", "anchors": ["npplus/pwpoly.py: PwPoly.new, PwPoly._rawinit, PerPwPoly._rawinit, PwPoly.deriv, PwPoly.integ, PwPoly._binary, PwPoly.__add__, PwPoly.__sub__, PwPoly.__mul__, PwPoly.__truediv__, PwPoly.__getitem__, PwPoly.__getstate__, PwPoly.addknots"]}
{"id": "C104", "title": "a polyline keeps the shape of its data", "statement": "The function returned by pline(x, y) takes no values outside the range of the data y; it is nondecreasing if the data are nondecreasing; for increasing data pline(y, x) is its inverse function on the whole table; and if the slopes of successive pairs of points do not decrease it is convex between the first and the last x, whatever the extrapolation.", "quantifier": "every table of two or more points with increasing x, every bound of the data, every evaluation point or pair of points", "why_tests_cant": "shape properties compare the values at all pairs of points of the line, for tables of any length", "anchors": ["npplus/pwpoly.py: pline, spline, PwPoly.__call__"]}
{"id": "C105", "title": "number of continuous derivatives on the whole line", "statement": "A PwPoly is m times continuously differentiable on the whole real line exactly when neighbouring pieces have the same derivatives of orders 0 to m at every knot, and then deriv(k) is its k-th derivative. The result of spline(x, y, n) has n-1 continuous derivatives everywhere, beyond the ends too (fewer only as extrap says); the result of splfit has the nc asked for; a periodic spline, evaluated anywhere on the line, is a periodic function with n-1 continuous derivatives through the points, and p(t, nd) returns these derivatives within the period.", "quantifier": "every piecewise polynomial, degree, knots, data and every real evaluation point, however many periods away", "why_tests_cant": "differentiability is a limit at every point of the line", "anchors": ["npplus/pwpoly.py: PwPoly.__call__, PwPoly.deriv, PwPoly.jumps, spline, splfit, PerPwPoly.__call__"]}
{"id": "C106", "title": "evaluation with arrays", "statement": "For an array x, p(x) has the shape of the components followed by the shape of x, and p(x, nd) the same after a first axis of length nd+1; each element is the value (derivative) of that component at that element of x, by the piece to which it belongs, for a periodic p after reduction into the period; it never raises. polyfun(c, x) and polyddx(c, x, nd) broadcast the trailing axes of c with x and each element is the polynomial with the coefficients there at the x there; shapes which do not broadcast give ValueError, an empty c IndexError.", "quantifier": "every coefficient array, every number of axes and shape of components and points, every order of derivative", "why_tests_cant": "unbounded numbers of axes, shapes and combinations of broadcasting", "anchors": ["npplus/pwpoly.py: polyfun, polyddx, _polysetup, PwPoly.__call__, PerPwPoly.__call__"]}
{"id": "C107", "title": "operators act component by component", "statement": "For piecewise polynomials with components (values of any shape), p+q, p-q and p*q broadcast the shapes of the components: each component of the result is the sum, difference or product of the corresponding components, so with separated knots (p op q)(x) is p(x) op q(x) with the axes of x kept apart; components which do not broadcast give ValueError. -p, deriv and jumps act on every component and keep the shape.", "quantifier": "every number of axes and shape of the components of both operands, every degree, knots and array of points", "why_tests_cant": "unbounded numbers of axes, shapes and combinations of broadcasting, degrees and knots", "anchors": ["npplus/pwpoly.py: PwPoly._binary, __add__, __sub__, __mul__, __neg__, deriv, jumps, addknots"]}
{"id": "C108", "title": "integ for functions with components", "statement": "p.integ(m, k, lbnd) of a function with components: with k giving at most m constants for every component (an array of shape (j,)+U, or of shape U for the first integration alone, U broadcasting to the shape of the values), each component of the result is the m-fold integral of that component with its own constants, so p.integ(1, k, lbnd)(x) is k plus the integral of p from lbnd to x for every component and every element of x, and its derivative is p again. The documented 'list of values' (and the default, no constants) works for every shape of the components.", "quantifier": "every shape of the components, number of integrations, shape of the constants, degree, knots, lower bound and array of points", "why_tests_cant": "unbounded numbers of axes, shapes, integrations, knots and real bounds", "anchors": ["npplus/pwpoly.py: PwPoly.integ, PwPoly.__call__"]}
{"id": "C109", "title": "constructor and reknot for data with components", "statement": "PwPoly(xk, *args) with data arrays of shape V + (number of values,) makes a function whose component v is the one made from the data args[i][v], in every form (values and derivatives, even degree, histograms, decreasing knots), and raises the error the scalar data raise when their number does not fit. With increasing knots and arrays of the knots' length it succeeds and evaluating at the knots returns the given arrays; a histogram returns y[v, m-1] between knots m-1 and m and 0 outside. Arrays whose other axes differ are refused with ValueError, arrays without elements with IndexError. reknot acts component by component.", "quantifier": "every shape of the components, number of arrays, knots and data, every array of points, every degree given to reknot", "why_tests_cant": "unbounded numbers of axes, shapes, derivatives, knots and real data", "anchors": ["npplus/pwpoly.py: PwPoly.__init__, PwPoly.reknot, PwPoly.__call__"]}
{"id": "C110", "title": "components selected with any basic index, length and iteration", "statement": "p[key] for a key of integers, slices and newaxis over the axes of the components is a function on the same knots with p[key](x) = p(x)[key + (...,)] for every array x of points, and likewise p[key](x, nd) = p(x, nd)[(:,) + key + (...,)]; when the values refuse the key, p[key] raises the same error. More keys than the components have axes: IndexError. p[..., 0] should select the last axis of the components (the code always raises IndexError). len(p) is the length of the first axis of the components (TypeError for a scalar function); for q in p gives p[0], ..., p[len(p)-1].", "quantifier": "every function, shape of the components, basic index, array of points and derivative count", "why_tests_cant": "unbounded numbers of axes, keys, slice bounds and shapes", "anchors": ["npplus/pwpoly.py: PwPoly.__getitem__, PwPoly.__len__, PwPoly.__call__"]}
{"id": "C111", "title": "integrals at the data points and rebinning", "statement": "The idiom cum(zcen(y)*diff(x)) of the documentation equals pline(x, y).integ() (from x[0]) at the points x. The integral of a histogram PwPoly(x, y) is, at the bin boundaries, the cumulative sum of values times widths. For every function p and new boundaries xn, p.integ().reknot(xn, 1).deriv() is the histogram of the averages of p over the new bins (0 outside), so that values times widths add up to the integral of p: rebinning loses nothing.", "quantifier": "every piecewise polynomial, every increasing array of points or bin boundaries, all data", "why_tests_cant": "relates independent functions of two modules for unbounded numbers of points and bins in any relative position", "anchors": ["npplus/pwpoly.py: PwPoly.integ, PwPoly.reknot, PwPoly.deriv, pline, PwPoly.__init__", "npplus/basic.py: cum, zcen"]}
{"id": "C112", "title": "levmar finds the best fit of a linear model", "statement": "For a model linear in the parameters (plain function or generator), without bounds but with any fixed parameters, the sum of squares at the parameters levmar returns exceeds the one at any other parameters (with the same fixed ones) by at most lamda*tol/(2 mu) times the initial sum of squares, where lamda = lambda0/gain**niter is the value reported and mu > 0 measures how independent the columns of the free parameters are (1 for orthogonal columns); when the iteration limit was hit, by at most (lambda0/(2 mu + lambda0))**itmax times it. Every step is accepted at its first trial, so levmar never raises LevmarError for such models.", "quantifier": "every linear model, number of data and parameters, data, errors, fixed parameters, start and configuration with gain > 1, lambda0 > 0, tol >= 0", "why_tests_cant": "an optimality bound over all parameter vectors, for all models, data and iteration counts", "anchors": ["npplus/lsqfit.py: levmar, numerical_partials"]}
{"id": "C113", "title": "levmar with bounds finds the best parameters within the bounds", "statement": "For a model linear in the parameters and bounds pmin, pmax, the parameters returned without a warning have (up to the convergence tolerance) the smallest sum of squares of all parameters within the bounds.", "quantifier": "every linear model, bounds, data, start within the bounds and configuration", "why_tests_cant": "an optimality claim over all parameters, models and data", "anchors": ["npplus/lsqfit.py: levmar, numerical_partials"]}
{"id": "C114", "title": "regress and levmar agree on linear models", "statement": "Fit the same one-dimensional data with the same errors by regress(data, *cols, errs=errs) and by levmar with the function sum_i p_i cols_i (no bounds, no fixed parameters). When regress reports no zero singular value and there are at least as many data as models, levmar returns without exception; the sum of squares of regress is the smaller one, that of levmar exceeds it by at most the gap of C112 (proportional to tol, or geometrically small in itmax when it warned), and the two parameter vectors differ, weighted with the effect of each parameter on the data, by at most gap/mu.", "quantifier": "every data vector, errors, models, start and configuration with gain > 1, lambda0 > 0, tol >= 0", "why_tests_cant": "relates two different algorithms for all data, models and iteration counts", "anchors": ["npplus/lsqfit.py: regress, levmar"]}
{"id": "C115", "title": "atan with out= stores the same result", "statement": "atan(a, b, out=out, branch=c), with an out array of the shape of the result, stores in out (and returns) exactly what atan(a, b, branch=c) returns, and changes no other array; out may be one of the argument arrays. Likewise without branch and with one argument.", "quantifier": "all arrays, shapes that broadcast, and all identities between out and the arguments", "why_tests_cant": "all shapes, values and aliasings", "anchors": ["npplus/basic.py: atan"]}
{"id": "C116", "title": "levmar options: cfg overrides levmar.config for one call only", "statement": "A call of levmar uses for each option the value in cfg when cfg contains it and the one in levmar.config otherwise, and raises when a needed option is in neither; it never changes levmar.config, the cfg dictionary, or the info of an earlier fit, even when it raises; info of the result is a new dictionary containing the options used and src, niter, neval, p0, chi20, lamda. So over any history of calls and assignments a dictionary changes only by assignments to itself.", "quantifier": "all dictionaries, calls, outcomes, and histories of calls and assignments", "why_tests_cant": "quantifies over histories and over all dictionaries", "anchors": ["npplus/lsqfit.py: levmar, levmar.config"]}
{"id": "C117", "title": "Fits reproduce data on an admissible function; splfit of degree 1 is plfit", "statement": "When the points lie on some piecewise polynomial of degree n on the knots with the continuity and end values asked for, the result of splfit goes through all points, whatever sigy; likewise plfit for points on a polyline. When the points also determine the polyline, plfit returns exactly what pline makes of its values at the knots (so plfit(x, x, y) is pline(x, y)). splfit with n=1 and plfit, given the same arguments, have the same chi2 and the same values at the points, and everywhere between the knots when the points determine the polyline.", "quantifier": "all knots, points, weights, end conditions and component counts for which the fits return", "why_tests_cant": "all data and knot sets", "anchors": ["npplus/pwpoly.py: plfit, splfit, pline"]}
{"id": "C118", "title": "The spline is unique, reproduces polynomials, and does not depend on units", "statement": "spline(x, y, n, lo, hi) is the only piecewise polynomial of degree n on the knots x with n-1 continuous derivatives, the values y and the given (and completed) boundary conditions. So when the data and boundary conditions come from a polynomial of degree at most n, the spline is that polynomial between the ends, and everywhere with extrap=(n, n). Replacing x by a*x+b (a>0), with boundary derivatives rescaled, gives the same function of the old variable; with a<0 (decreasing abscissas) too when all n-1 boundary conditions are given, or none and n is odd.", "quantifier": "all n, knots, data, boundary conditions, extrap, a, b for which spline returns (not periodic)", "why_tests_cant": "uniqueness quantifies over all functions; units over all scale factors and data", "anchors": ["npplus/pwpoly.py: spline, _spline_solver"]}
{"id": "C119", "title": "Default boundary conditions of spline", "statement": "With no boundary conditions the highest derivatives of the spline vanish at the ends: orders above n/2 (up to n-1) at both ends, the first endpoint x[0] getting one more zero derivative when n is even.", "quantifier": "all n, data, increasing or decreasing x", "why_tests_cant": "all degrees and data", "anchors": ["npplus/pwpoly.py: spline"]}
{"id": "C120", "title": "A fit with more freedom is never worse; only ratios of sigy matter", "statement": "For the same points and sigy, adding knots between the ends, raising the degree, asking for fewer continuous derivatives or dropping the last of the prescribed end values never increases the chi2 of the result of splfit; likewise adding knots or dropping end values for plfit. Multiplying all sigy by a common nonzero factor f changes no value of the fit at the points and divides chi2 by f**2.", "quantifier": "all pairs of calls that return, all knots, degrees, data, end values (not periodic, increasing knots)", "why_tests_cant": "compares all pairs of calls on all data", "anchors": ["npplus/pwpoly.py: splfit, plfit, _fit_setup"]}
{"id": "C121", "title": "Fits are linear in the data", "statement": "The result of splfit (plfit) for the values a*y1+b*y2 and end values a*lo1+b*lo2, a*hi1+b*hi2 is a times the result for y1, lo1, hi1 plus b times that for y2, lo2, hi2: at all points of the data, and everywhere between the knots when the points determine the fit.", "quantifier": "all a, b, data, sigy, knots, degrees, end values for which the three calls return (not periodic, increasing knots)", "why_tests_cant": "all combinations of data sets", "anchors": ["npplus/pwpoly.py: splfit, plfit"]}
{"id": "C122", "title": "Fits do not depend on the units of x", "statement": "Replacing the points x and the knots xk by a*x+b and a*xk+b (a>0), with the prescribed k-th derivatives at the ends divided by a**k, changes neither the values of the result of splfit at the points nor its chi2; likewise for plfit (end values unchanged).", "quantifier": "all a>0, b, data, sigy, knots, degrees, end conditions for which both calls return (not periodic)", "why_tests_cant": "all scale factors, origins and data", "anchors": ["npplus/pwpoly.py: splfit, plfit"]}
{"id": "C123", "title": "Laws of regress", "statement": "regress is linear in the data (the coefficients and the fitted data of a*data1+b*data2 are the same combinations; covariance, degrees of freedom and singular values do not depend on the data); data that are exactly a combination of the models are reproduced with chi2=0, and the coefficients are recovered when no direction is lost; adding models never increases the sum of squared deviations; multiplying all errors by a constant changes no coefficient.", "quantifier": "every data, models, errs, coefficients, additional models, every c != 0", "why_tests_cant": "universal over data, models and shapes", "anchors": ["npplus/lsqfit.py: regress"]}
{"id": "C124", "title": "Rules of calculus between the operations", "statement": "(p+q).deriv() = p.deriv()+q.deriv(), (p-q).deriv() likewise, (p*q).deriv() = p.deriv()*q + p*q.deriv() at every x, knots included; the integral of a sum is the sum of the integrals; for continuous p, q the integrals of p.deriv()*q and p*q.deriv() from a to b add up to p(b)q(b)-p(a)q(a).", "quantifier": "every p, q (knots equal or separated), x, a, b, integration constants", "why_tests_cant": "universal over functions and points; the operations use independent code", "anchors": ["npplus/pwpoly.py: PwPoly.__add__, __sub__, __mul__, deriv, integ"]}
{"id": "C125", "title": "regress depends only on the data points", "statement": "Reordering or reshaping the data (with models and errors accordingly), reordering the models, or writing out broadcast models or errors changes no coefficient, no fitted value and not the sum of squared deviations; one error for all data means the same as that error for every datum; nothing is discarded when the weighted models are orthogonal and of equal length.", "quantifier": "every data, models, errs, every renumbering of data and of models", "why_tests_cant": "universal over data, models, shapes and permutations", "anchors": ["npplus/lsqfit.py: regress"]}
{"id": "C126", "title": "Laws of chi2prob", "statement": "For a fit with ndof > 0, chi2prob(c) has the shape of c, equals 1 where c=0, lies in (0,1], decreases strictly in c and tends to 0 as c grows; with two degrees of freedom it is exp(-c).", "quantifier": "every fit with ndof > 0, every array c of nonnegative values", "why_tests_cant": "monotonicity and limits over a continuum", "anchors": ["npplus/lsqfit.py: ModelFit.chi2prob"]}
{"id": "C127", "title": "Classical limit and growth of the Fermi-Dirac functions", "statement": "To the relative accuracy of C79, fdm12, fd12, fd32, fd52 of x lie between gamma(j+1) exp(x) (1-exp(x)) and gamma(j+1) exp(x) for every x, do not decrease with x, and from x to y>=x grow at most by the factor exp(y-x).", "quantifier": "every array x and every pair of its elements", "why_tests_cant": "bounds over a continuum of arguments, down to arbitrarily negative ones", "anchors": ["npplus/fermi.py: fdm12, fd12, fd32, fd52"]}
{"id": "C128", "title": "regress depends only on the space spanned by the models", "statement": "Two lists of models that span the same space (of possibly different length, possibly redundant) give the same fitted data and the same sum of squared deviations; models that span more never give a larger sum.", "quantifier": "every data, errs and pair of model lists", "why_tests_cant": "universal over data, models and shapes", "anchors": ["npplus/lsqfit.py: regress"]}
{"id": "C129", "title": "The constructor does not depend on the unit and the origin of x", "statement": "If the knots are changed to a*xk+b with a>0 and the k-th derivatives at the knots are divided by a**k (and the optional short last array of an even degree n by a**n), PwPoly(xk, y, y', ...) returns the same function: q(a*t+b) = p(t) for every t, inside the knots and outside.", "quantifier": "all increasing knot sequences of at least two knots, all numbers of derivative rows, with or without the short last array, all data in any vector space, all a>0, b, t", "why_tests_cant": "ranges over all knots, data, degrees, units and evaluation points", "anchors": ["npplus/pwpoly.py:PwPoly.__init__", "npplus/pwpoly.py:PwPoly._two_sided_inverse", "npplus/pwpoly.py:PwPoly.__call__"]}
{"id": "C130", "title": "Laws of the grids of span and spanl", "statement": "span(stop,start,n) is span(start,stop,n) in the opposite order; every m-th point of the grid with m times as many intervals is the coarse grid; span(a*start+b, a*stop+b, n) = a*span(start,stop,n)+b; zcen of the grid along its axis gives the odd points of the grid with twice as many intervals. spanl has the first two properties (its points are the same geometric grid from either end).", "quantifier": "all broadcastable start and stop arrays, all n>=2, m>=1, a, b and axis arguments", "why_tests_cant": "ranges over all shapes, values, numbers of points and axes", "anchors": ["npplus/basic.py:span", "npplus/basic.py:spanl", "npplus/basic.py:zcen"]}
