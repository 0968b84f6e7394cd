# Formal model of dhmunro/npplus in Lean 4: design

The first version of this file was written before the proofs; it is kept current.
`properties.jsonl` has the properties in English, `MANIFEST.json` the theorems and their status,
`AXIOMS.md` the axioms of every theorem, `seeded/LOG.jsonl` the wrong programs the theorems were tested on.

## Layout

* `lean/Verif/Np.lean`, `NpShape.lean`, `Model/NdArr.lean`: Python and numpy primitives (library behaviour).
* `lean/Verif/Model/*`: the code, function by function, each definition citing file and lines of /repo.
* `lean/Verif/Spec/*`: the vocabulary in which the properties are stated. It does not use the model's algorithms:
  polynomials are explicit sums, fits are minimisers over all competitors, matrices are functions of two indices.
* `lean/Verif/Lemmas/*`: helper lemmas.
* `lean/Verif/Props/*`: the property theorems `Cnn_...`, each with concrete examples which meet its hypotheses.

Naming: `_partial` = the proved theorem covers part of the property, what is missing is in its comment and in the manifest;
`_refuted`, `_wrong`, `_fails`, `_lost` = the code violates the property (or a documented case of it): the theorem exhibits
the violation in the model.

## Conventions

* **Arithmetic is exact.** Every numeric model is parametric in a linearly ordered field `K`
  (`[Field K] [LinearOrder K] [IsStrictOrderedRing K]`, with `FloorRing` where `%` occurs), executable at `K = ℚ`;
  models that call `exp`, `log`, `sin`, `sqrt`, ... are over `ℝ`.
* **Array axes.** Multidimensional `PwPoly` values are modelled by letting the coefficients live in a
  `K`-module `V` (`V = K` for a scalar PwPoly, `ι → K` for leading dimensions `ι`).  `basic.py`, `fermi.py`, `randomx.py`,
  `pcwise.py` use a model of n-dimensional arrays (shape + index function) with numpy broadcasting.
* **Exceptions are values**: `Except PyErr α`.
* **External numerical routines are parameters** (`solve_banded`, `solveh_banded`, `linalg.solve`, `inv`, `svd`, `eigvals`).
  A theorem that needs one assumes only its contract (`ScipyOK`: a returned `x` solves the system, a nonsingular system is
  solved, a singular one (banded or dense) is rejected; `InvOK`; `SvdOK`; `EigSpec`), and that the contract can be met is shown by an
  exact instance in Lean (`exactScipy`, `adjInv`, `exactEig`, ...).
* `searchsorted(xk, x)` (numpy, default side) is modelled by its contract: the number of knots `< x`.
* Loops without an a priori bound (`levmar`, rejection sampling) have fuel; C46 and C66/C67 show that the fuel does not matter.

## Trusted base

1. **Lean's kernel** (4.33.0), and Mathlib's definitions used in the statements (reals, `exp`, integrals, `Matrix`...).
2. **Axioms**: only `propext`, `Quot.sound`, `Classical.choice`; per theorem in `AXIOMS.md` (written by `tools/axioms.py`
   from `#print axioms`).  No axioms of our own, no `native_decide`, no compiled evaluation (`decide +kernel` is kernel
   reduction and is used for finite tables, polynomial sign certificates and concrete examples only).
3. **The model is the code**: that the definitions of `Model/` say what the Python text says, under the simplifications in
   their comments, and that `Np*.lean`/`NdArr.lean` and the contracts above say what Python, numpy, scipy, matplotlib do.
   This is by reading; nothing was executed.
4. `tools/*.py` only write MANIFEST.json, AXIOMS.md and the log; nothing is proved by them.

### Modelled, and how exactly

| file | modelled | simplified or left out |
|------|----------|------------------------|
| pwpoly.py | all of `PwPoly`, `PerPwPoly`, `spline`, `pline`, `plfit`, `splfit`, `polyfun`, `polyddx` and their helpers | IEEE rounding/NaN/inf; dtype; non-numeric or wrongly shaped arguments of the constructor and of `spline`; `repr`/`str`; in-place changes of the caller's arrays (`argz *=`) are in Model/InitMem (C99), those of coefficient arrays shared between objects in Model/Heap (C98); `None` entries in `lo`, `hi` of splfit (they become NaN); `solver=` keyword of plfit |
| solveper.py | all functions | `overwrite_*`, `check_finite` keywords |
| lsqfit.py | `regress`, `levmar`, `numerical_partials`, `ModelFit` | the user's function is an arbitrary stateful, possibly raising oracle whose calls are logged; data and p0 of levmar one-dimensional, the n-d case separately (C75); in-place reuse of the array `pfull` passed to `f` |
| basic.py | all public functions | dtype rules, rejection of non-numeric arrays; overlapping views of different arrays in `atan(out=)` |
| randomx.py | all functions | C66-C69: the generator is an arbitrary source of numbers in [0,1). C86-C89: an ideal generator (independent numbers, uniform in [0,1)); the algorithm of numpy's generator is not modelled |
| fermi.py | all functions, all coefficient tables as exact decimals | floating point |
| itemattr.py | `ADict`, `items_are_attrs`, `redict` | `dict` is an insertion ordered association list; `redict` runs on a heap of dict objects (sharing, cycles); `__repr__` |
| pcwise.py | all | NaN; result array is of one type |
| interactive.py | `reloadx`, `execfile` | executing a module's source is a parameter (any function on namespaces that may raise) |
| pyplotx/pltwraps.py, cbqcolors.py, mpldefaults.py | wrappers, `xylim`, `logxy`, colour tables, `set_color_cycle`, `style_npp`, `title` | matplotlib is a parameter (functions on an arbitrary state which may raise), `rc` is a key-value map |
| pyplotx/mpl2cmaps.py | all (C93) | the state of pyplot as far as these functions touch it |
| pyplotx/interactive.py, setup.py, docs | not modelled | re-exports only |

## Per property

| id | model | proof |
|----|-------|-------|
| C01-C03 | `polyfun`, `polyddx`, `_polysetup` as the loops of the code over coefficient lists | induction along the Horner loop against explicit sums with binomials; negation witness for degree 0 with nd>=1 |
| C04 | `PwPoly.call` with searchsorted contract | sortedness of knots; negation witness of the docstring's half-open convention |
| C05-C08 | constructor as written, `inv` a parameter | binomial matrix equation + Taylor shift; invertibility of the matrix by Hermite uniqueness |
| C09-C12 | `deriv`, `integ`, `jumps` | induction on degree / knots; over ℝ also limits of difference quotients and integrals of Mathlib (Props/Calculus) |
| C13-C15 | `reknot`, `addknots`, `allknots` | Taylor shift, searchsorted of midpoints; Hermite uniqueness |
| C16-C19 | `_binary` and operators | addknots + pointwise algebra; scalar operand: negation (TypeError) |
| C20 | object state as a record with optional period | equality; negation for PerPwPoly |
| C21-C22 | `roots` branch by branch (linear pieces, companion matrices, duplicate removal), `eigvals` a parameter (`EigSpec`) | sign analysis for linear pieces, root = eigenvalue for the others; negation witnesses for the defects |
| C23 | PerPwPoly | `x0 + (x-x0) % period` with Python `%` over an Archimedean field |
| C24-C30 | `spline`, band matrix built with the same index arithmetic, solver a parameter | row-by-row reading of the banded system; exactly when it returns (C24_returns_iff, C24_default_iff, C27_returns_iff): the kernel of the system = splines through zeros; sign variations of the Taylor coefficients along the knots (Budan-Fourier over an ordered field, Lemmas/SignVar, SplineHom) show it is trivial under a Pólya condition, a dimension count shows it is not trivial otherwise; periodic: the same sign argument (odd number of intervals), an energy identity with the Legendre decomposition of the Hilbert matrix (odd degree), periodic Bernoulli polynomials and an antisymmetric matrix of odd order (singular in the remaining case) |
| C31-C32, C36 | `plfit`, set-up functions | normal equations => optimality; positive definiteness => success |
| C33-C35 | `splfit` non-periodic and periodic: the KKT system in diagonal form, scaling, costs | KKT => optimality over all competitors; nullspace argument => success; multipliers => derivative of the optimal chi2 |
| C37-C39 | `solveper.py` | matrix algebra over functions of indices |
| C40-C42 | `regress`, SVD a parameter | orthogonality |
| C43-C49, C75 | `levmar` as a state machine with a log of calls of `f`, fuel for the loops | invariants over the log, measure for termination |
| C50-C54 | attribute machinery over association lists; `redict` on a heap | refinement to a dict / induction on reachable objects |
| C55-C56 | `pcwise` | list induction |
| C57-C65 | `basic.py` on n-d arrays | index calculations |
| C66-C69 | `randomx.py` over ℝ with the generator's output a parameter | trigonometric identities; negation witness for insphere |
| C70-C71 | `fermi.py` over ℝ, coefficients as exact decimals | Horner; sign certificates in the Bernstein basis |
| C72-C74, C76 | pyplotx decision logic, tables | case analysis; finite tables by kernel evaluation over their whole domain |
| C73, C77 | `reloadx` on a module table and namespaces | case analysis, induction over the namespace |
| C79 | `fermiDirac j x` = the improper integral (Mathlib); the model of C70 | with exp x = 4ρ/(1-ρ)², 1/(1+z u) is expanded in Chebyshev polynomials of 2u-1 (u=e^-t), each term integrates to Γ(s) Σ τ_m (m+1)^-s; truncation ≤ 2ρ^49/(1-ρ); table of k^-s to 60 digits checked in the kernel; two polynomial inequalities in ρ per function certified positive on [0, 0.487] by Bernstein coefficients (`decide +kernel`). x ≥ 2: `fermi_sum` splits the integral at t=x and replaces 1/(1+u) by the degree-19 polynomial with error T_20(2u-1)/T_20(3); integration by parts leaves 20 values each of y^½ ∫_0^y t^-½ e^(t-y) and y^½ ∫_y^∞ t^-½ e^(y-t), for which tables of polynomials are certified through the differential equation they satisfy (`FermiPanel`, `FermiData`); then polynomial inequalities on the panels [2,4], [4,8], [8,16], [16,32], [32,∞) |
| C83 | values in an arbitrary module `V`, component = linear map `φ : V → W`; models of C05 and C24 | every step of the constructor and of `spline` commutes with `φ` (lists of coefficients mapped); for the solvers: same matrix, solutions unique when nonsingular, and the contract says a singular system raises |
| C80 | `Model/FitNd.lean`: `_splfit_args` on n-d arrays (broadcast, reshape, loop over the first axis), in front of the flat fits of `Model/Fit.lean` | flat fits: every component solves its own system (`Lemmas/FitForm.lean`); arrays: broadcasting lemmas, C-order indexing; more than one leading axis: the reshaped `y` has three or more axes, `bincount` raises (`C80_leading_axes_fails`) |
| C84 | models of C31, C33 (`Model/Fit.lean`) | every use of the data is a sum over the points of one interval (`bincount`), or the minimum/maximum of the abscissas; both invariant under permutations |
| C85 | as C79; the inverses of the model of C70 | y below about 2.5 (x<2): substitution of the rational function of y into the one of C79. y≥4: F(x)² x^-(2j+1) is approximated by panels of polynomials of 1/x (certified against C79), then the polynomial inequality F(x(z))² vs y² with y² z^(2j+2)=1. Between: 1/x as a certified polynomial of y (mean value theorem). Polynomial inequalities up to degree 200, by Bernstein certificates over ℕ/ℤ in the kernel (`PolyExpr`, `PosNat`). |

| C86, C89 | the models of C66/C67 with `rng : Ω → Rng` an ideal generator on a probability space (Mathlib `iIndepFun`) | direct algorithm: polar coordinates, z=r². Rejection: E[∏ f_n(n-th point); returned within F passes] = P(returned)·∏E f_n by induction over the candidates of each pass and over the passes; P → 1 as F → ∞ |
| C87 | as above | circle: shift of the angle. Sphere: the law is the radial projection of the uniform distribution in the ball (polar coordinates twice), hence rotation invariant; uniqueness by averaging over the rotations |
| C88 | as above | M = H(p)·Rz(θ), H(gp)ᵀ·g·H(p) is a rotation about z, θ uniform; right invariance and uniqueness by Tonelli |
| C81, C90, C91 | `regress` on the outcome of random measurements (the data array is a random variable, models and errs fixed); `ModelFit.chi2prob`, `gammaincc` a parameter | one decomposition for all outcomes, p linear in the data; covariances of linear combinations and Bessel for Gauss-Markov; an orthonormal basis extending the right singular vectors turns the residual into a sum of ndof squares of independent standard normals, whose law is the Gamma law by moment generating functions |
| C92 | `execfile`; reading, compiling and executing are parameters | cases |
| C93 | the tables (generated text), the registration loop, `cminst` | cases; kernel evaluation of the 4 tables, floor monotone |
| C94, C95, C96 | the same `polyfun`, `PwPoly.call`, `span`, `cum`, `zcen` on the numbers of a floating point system (Spec/Float): every operation is the exact one followed by a rounding | running error analysis: (1+u)^k - 1 bounds by induction over the loop; monotonicity of rounding |
| C97 | the same `PwPoly.call`, `pcwise` on numbers and NaN (Spec/Nan): operations strict in NaN, NaN last in the order | induction over the loop of polyfun |
| C98 | coefficient arrays in a memory shared by views (Model/Heap); every method as a program that allocates, reads and writes; histories of operations | invariant (each array belongs to a memory in use, periodic objects already satisfy their end conditions) and a Hoare-style frame rule for each program; induction over the history |
| C99 | the constructor with the caller's arrays in memory (Model/InitMem), histories of calls | case analysis of the constructor, induction over the history; negation witness for even degree >= 4 |
| C100 | the constructor and `pline` over ℝ, `f` and its derivatives as functions ℝ → ℝ (Spec/Smooth) | Rolle's theorem 2n times on f - p - c ((t-a)(t-b))^n, derivatives at the knots from C05 |
| C101 | `spline` over ℝ, competitors as functions ℝ → ℝ with their derivatives (`SquareIntegrable` in Spec/Smooth: the last derivative may have jumps) | integration by parts on each interval, terms at the knots cancel by C24/C25/C27 (Holladay's identity); uniqueness by Rolle's theorem |
| C102 | as C101 | zeros of the derivatives of the error near every point (Rolle), Cauchy-Schwarz, Holladay's identity; for 2m derivatives the second integral relation |
| C82 | PerPwPoly arithmetic with the reconstruction (`new`) of every intermediate object (Model/PerArith) | representation invariant: the pieces between the knots are the function, the outer pieces are rebuilt; C23_periodic for values far away; negation witnesses |
| C103 | the memory model of C98, now with the values computed by every operation (broadcasting, common knots), against the models with values (PerArith, PwPoly) | relational Hoare logic: each program step in a state refines the corresponding pure step for a fixed component |
| C104 | the polyline of C30 | from the interpolation formula proved in C30: neighbouring lines compared about their common knot, induction over the intervals |
| C105 | the real functions defined by PwPoly, spline, splfit, periodic spline | induction on the order with C09/C12 in the sense of analysis; the periodic function glued from the two sides of the end of the period |
| C106 | the evaluation functions statement by statement on n-dimensional arrays: `[..., i]`, broadcast, in-place operations, assignment to rows (Model/PolyNd) | elementwise invariant of the Horner loops, refinement to the scalar model (C01, C02, C04) |
| C107 | `_binary`, the operators, `deriv`, `jumps`, `addknots` statement by statement on the coefficient array, with reshape, slices, broadcast and in-place operations (Model/PwNd) | refinement: each component of the result is the scalar model's result for the components (C09, C12, C16, C17) |
| C108 | `integ` statement by statement on the coefficient array: constants, cumulative steps, in-place additions (Model/PwNd) | refinement to the scalar model by induction over the integrations, then C10 over ℝ; the documented list of constants is refuted for values with axes |
| C109 | the constructor and `reknot` statement by statement on n-d arrays: stacking, reversal, factorials, `polyddx`, matrix product by the two-sided inverse, concatenations (Model/PwInitNd) | refinement of every array step to an element formula, equality of each component with the scalar constructor (errors included); then C05, C08, C106 |
| C110 | numpy's basic indexing (integers, slices by CPython's slice.indices, newaxis, one Ellipsis) on n-d arrays, `__getitem__`, `__len__`, the sequence iteration protocol (Model/PwIndex); index arrays and masks are not modelled | induction over the key: `p.c[:, key, ..., :]` and `p(x)[key, ...]` select the same components; then C106 |
| C111 | the models of `pline`, `integ`, `reknot`, `deriv`, the constructor, `cum`, `zcen` composed; over ℝ with Mathlib's integral | C10 (integ is the integral), C13 (reknot keeps values at the new knots), C30, C08, C65 and additivity of the integral |
| C112 | the model of `levmar` (finite differences and generators) with a linear model function; `numpy.linalg.solve` through its defining equation | the damped normal equations give an exact formula for the decrease of the sum of squares and bound the distance from the optimum by the decrease (completing squares); induction over the iterations |
| C113 | as C112, with clipping to the bounds | for orthogonal columns (in particular one free parameter) the sum of squares separates and a clipped step satisfies the inequality of C112 coordinate by coordinate; refuted in general by a concrete run |
| C114 | regress (C40) and levmar (C112) on the same 1-D data | exact Pythagoras for the regress fit (all singular values kept) combined with the convergence bound of C112; independence of the columns derived from the singular values |
| C115 | `atan` with `out=` on a memory of arrays (Model/AtanOut) | case analysis on the identity of out; refuted by a concrete call for out = branch |
| C116 | the dictionaries of `levmar` as objects on a heap (Model/LmConfig), around the model of C43-C48 | lookup after dict.update; frame property of a call; induction over histories |
| C117 | `plfit`, `splfit`, `pline` as for C30, C31, C34 | the chi2 identities of C31 and C34 with a function of zero chi2; conversion between polylines and continuous piecewise polynomials of degree 1 |
| C118 | `spline` as for C24–C29, non-periodic | two solutions of the spline equations: the invertible system of C24 has one; Taylor coefficients of a polynomial at the knots; the transformed pieces solve the transformed equations |
| C119 | `spline` as for C24–C29 | completion of the boundary conditions (C26) of empty lists, then C25; C29 for decreasing `x`; evaluation of the model for the counterexample |
| C120 | `plfit`, `splfit` as for C31, C34 | re-expansion of a piecewise polynomial on finer knots: it stays admissible, so minimality (C34, C31) of the freer fit gives the inequality |
| C121 | `plfit`, `splfit` as for C31, C34 | residuals of an optimal fit are orthogonal to the admissible variations (from the chi2 identity); the combination of the fits is admissible with orthogonal residuals |
| C122 | `plfit`, `splfit` as for C31, C34 | an admissible function stays admissible in the new variable, in both directions; minimality of both fits |
| C123 | `regress` as for C40 | linearity by deterministic svd of the data-independent design matrix; optimality (C40, C41) on exact data, padded coefficients, and scaled errors |
| C124 | `PwPoly` over ℝ as for C09, C10, C16, C17 | `deriv` is the left derivative everywhere, which is unique; fundamental theorem off the knots |
| C125 | `regress` as for C40 | the sum of squared deviations is the same function of the coefficients; the shortest minimiser is unique (C41) |
| C126 | `ModelFit.chi2prob` as for C81 | the regularised incomplete gamma function as an improper integral |
| C127 | the functions as for C79 | comparison of the integrands, and C79 |
| C128 | `regress` as for C40 | all minimisers of the sum of squared deviations give the same fitted data (strict convexity) |
| C129 | Model/PwInit, Model/PwPoly | both constructors' interval polynomials have the same two-sided Hermite data after rescaling; hermite_unique; end pieces by definition |
| C130 | Model/Basic | from the closed forms C57_values, C58_spanl and C65_zcen |

No property is considered inexpressible.  Except for C94-C97 the statements are about exact arithmetic.  Overflow, underflow,
infinities and signed zeros are not modelled.

## Findings: where the code does not do what its documentation says

Each has a theorem (in brackets) or a note.

1. `polyddx` and `p(x, nd>=1)` of a degree 0 function return the constant as its derivative [C02_constant_wrong, C04_constant_wrong].
2. `PwPoly` at a knot uses the left piece, the docstring says the right one [C04_docstring_refuted]; same for `pcwise` [C55_boundary_refuted].
3. Arithmetic of a PwPoly with a number or array always raises TypeError (`asfarray(other, dtype=...)` with the module's own one-argument `asfarray`) [C18_scalar_refuted].
4. `integ()` without constants fails for vector-valued functions [C10_default_k_vector_fails, C108_default1_fails, C108_list2_fails]; with two or more axes a list of constants can silently be distributed over the components instead of the integrations [C108_list2_wrong]; more constants than `m` integrate more often [C10_excess_constants].
5. Pickling or copying a PerPwPoly loses its period [C20_periodic_refuted].
6. `roots`: no root => ValueError [C21_empty_refuted]; spurious roots [C21_spurious_refuted]; wrong degree used [C21_wrong_degree_refuted]; IndexError [C21_index_error_refuted]; roots beyond the last knot missed [C22_missed_refuted, C22_missed_silently_refuted]; periodic functions [C21_periodic_refuted].
7. The constructor takes derivatives, not the documented Taylor coefficients [C05_docstring_refuted]; even degree >= 4 [C08_even_refuted]; decreasing knots with even degree [C07_even_refuted]; `reknot` for even n and n=0 [C13_even_refuted, C13_zero_refuted].
8. `allknots`/`addknots` merge close knots, so sums can be wrong near them [C14_refuted, C15_own_knot_lost, C16_refuted].
9. `spline` of degree n with default conditions through fewer than (n+1)/2 points always raises LinAlgError (e.g. a quintic through two points), with other conditions exactly when a Pólya condition fails [C24_default_iff, C24_returns_iff]; a periodic spline of even degree over an even number of intervals always raises LinAlgError [C27_returns_iff]; too many conditions: IndexError [C26_too_many]; periodic polylines report slope 0 at the period start (example in Props/Pline).
10. `plfit` with two knots and both end values raises IndexError [C32_two_knots_fails].
11. `splfit`: costs have the opposite sign [C35_sign_refuted]; periodic costs are in wrong units for unequal knots [C35_periodic_refuted]; one periodic interval always fails [C34_periodic_one_interval_error]; `None` in lo/hi and n=0 do not work (notes).
12. `solve_periodic` fails when the matrix without corners is singular [C37_singular_band_error].
13. `regress` rejects errs with the shape of multi-dimensional data [C40_errs_shape_refuted].
14. `levmar`: pcov is evaluated at the previous point [C48_pcov_at_p_refuted]; the check for too few data builds an exception without raising it [C48_ndof_zero_accepted]; n-d data fail [C75_nd_data_refuted]; p0 is not clipped [C43_first_call]; assignment to `model.p` has no effect [C49_call_after_assignment]; the warning prints a literal `%` (note).
15. ADict removes the trailing underscore of dunder names [C51_dunder_refuted]; `@items_are_attrs(MyMethods)` ignores its argument [C53_refuted]; inherited methods raise KeyError [C53_inherited_fails].
16. `span(num=1)` [C57_one_point_wrong], `spanl` axis [C58_axis_wrong], `cat_` lengths 0 and 1 [C59_zero_length_fails], `a_` axis of scalars [C60_scalar_axis_wrong], `pcen` of an empty axis [C65_pcen_empty_wrong].
17. `insphere` with fewer than 70 points can leave the sphere [C67_small_refuted].
18. `set_color_cycle` ignores `axes` [C74_axes_argument_refuted]; `title(y=None)` raises TypeError [C76_title_y_none_refuted]; `reloadx` copies private names and overwrites `my` [C77_*_refuted]; after `reloadx(name)` old module objects cannot be reloaded [C73_stale_object].
19. `splfit`/`plfit`: data with two or more leading dimensions always raise (the comment `y, sigy always 2D` is false) [C80_leading_axes_fails].
20. `execfile(name)` runs the file in the namespace of npplus.interactive, not of the caller [C92_default_refuted].
21. A histogram (PwPoly of degree 0) evaluated at NaN returns the constant beyond the last knot instead of NaN [C97_histogram_refuted].
22. `p * q`, `p + q`, `p - q` of a periodic `p` and a plain `q` with fewer dimensions change `q` itself: `_binary` makes a temporary object of `q`'s own array with `self.new`, and `PerPwPoly._rawinit` overwrites its first and last piece.  E.g. a line constant beyond its ends, `q(2) = 1`, afterwards has `q(2) = 2` [C98_product_changes_refuted, C98_example_refuted].
23. `PwPoly(x, y, dy, z)` (even degree 4 or more) divides the caller's float array `z` in place by (h+1)...(2h), so that the same call twice makes two different functions [C99_last_array_refuted, C99_twice_refuted].
24. Arithmetic of periodic functions: operands of the same period whose ends differ give a function with a longer period and wrong values [C82_period_refuted]; `addknots` outside the period changes the function [C82_addknots_refuted]; `plain + periodic` is not the sum outside the knots [C82_mixed_refuted]; `integ()` of a periodic function is made periodic and so is not an antiderivative beyond one period [C82_integ_refuted].
25. `p[..., k]` raises IndexError for every function: `__getitem__` adds an Ellipsis of its own to the key [C110_ellipsis_fails]. A scalar function iterates as empty while len() raises TypeError.
26. `levmar` with bounds computes its step without them and clips it; the clipped step may lead to an equally bad point beyond the minimum, which passes the convergence test: for a linear model with the default configuration it returns, without warning, nearly twice the smallest sum of squares within the bounds [C113_bounds_refuted]. (Orthogonal columns, in particular a single free parameter, are safe: C113_orthogonal_partial.)
27. `atan(a, b, out=c, branch=c)` overwrites the branch cut with the principal value before it is used, so the cut is ignored (`atan([-1], [0], out=c, branch=c)` with c = [0] gives -pi/2, below the cut) [C115_alias_wrong, C115_refuted].
28. `spline` with even n and decreasing x sets its extra zero derivative at the last endpoint x[-1], not at the documented first one [C119_even_refuted].
