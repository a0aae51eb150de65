# PSDR: formal model and proofs in Lean 4

## Layout

* `properties.jsonl`: the properties (C01, C02, ...), in terms of the public API.
* `lean/Verif/<Area>/...Model.lean`: the model, function by function. Each definition cites file and lines of `/repo` and says where it is simplified.
* `lean/Verif/<Area>/...Lemmas.lean` (and `Exact`, `FitExists`, `SvdExists`, `LstsqExists`, `HullExists`, ...; `Examples` holds further examples): helper lemmas, and existence of routines meeting the specifications assumed of external code (so hypotheses on solvers are not vacuous).
* `lean/Verif/<Area>/...Props.lean`: property theorems, with the small specification they use, and `example`s showing that the hypotheses can be met.
* `MANIFEST.json`: property -> exact theorem names and status (generated by `tools/manifest.py` from `tools/claims.py`, which also regenerates `lean/Verif.lean`).
* `seeded/LOG.jsonl`: attempts to break the theorems by seeding bugs in the model (`tools/mutate.py` runs them in a scratch copy).

| Area | Modelled code |
|---|---|
| Base | extended floats `XR` (finite, inf, -inf, nan), list vectors |
| Domain | `psdr/domains/` `euclidean`, `linquad`, `linineq`, `box`, `point`, `unbounded`, `tensor`, `convexhull`, `normal`, `lognormal`, `uniform`: constructors' data, `isinside`, `add_constraints`, `&`, products, normalization, extents, corners, closest point, constrained least squares, sweep, grids, sampling (rejection, hit and run, hulls, with the laws of chords, hits and volumes), names, projections, densities, construction and class dispatch, point queries; `Round*`: rounded arithmetic |
| Basis | `psdr/basis.py`, `psdr/vandermonde.py`: index sets, V/DV/DDV for tensor and Arnoldi bases, roots, scaling, Chebyshev families, dtypes (`Dtype*`), spans of tensor bases; `Round*`: rounded arithmetic |
| Lipschitz | `psdr/lipschitz.py`, `lipschitz_approx.py`, `lipschitz_partial.py`, `lipschitz_utils.py`, `coord.py`, sign fixing in `subspace.py`; `Round*`: uncertainty intervals in rounded arithmetic |
| Sample | `psdr/sample/` `latin`, `projection` (SAT encoding), `sobol`, `poisson`, `maximin`, `maximin_coffeehouse`, `minimax`, `sample`, `initial`, sequential designs, block descent, Lloyd and cluster steps, stretched and Voronoi samples, `util`, dtypes |
| Geometry | `psdr/geometry/` `geometry`, `vertex`, `fill`, `cdist`, `miniball` |
| Func | `psdr/function.py`, `poly.py`, `polyridge.py`, `polyridge_vec.py`, `ridge.py`, `misc.py`, asynchronous evaluation, refits of all approximations (`Refit*`), `RoundFd*`: finite differences in rounded arithmetic |
| Opt | `psdr/gn.py`, `minimax.py`, `seqlp.py`, stationarity of their limits, the search for the largest uncertainty |
| Misc | `psdr/quadrature.py`, `subspace.py`, `local_linear.py`, `opg.py`, `pgf.py`, `nonlin.py`, plots and contours, studies of active subspaces, sharing of arrays between objects (`Share*`) |
| GP | `psdr/gp.py` |
| Demo | `psdr/demos/` analytic functions: golinski, beam, robot_arm, piston, hartmann, wing_weight, polynomial, otl_circuit, borehole, nozzle, gears |

## Trusted base

* Lean 4.33.0 kernel; axioms at most `propext`, `Classical.choice`, `Quot.sound` (checked by `vcheck` for each theorem). No own axioms, no `sorry`, no `native_decide`, no `bv_decide`.
* Faithfulness of the model: the code was read, not run. Every definition cites its source.
* **Arithmetic.** Floating point numbers are modelled as exact real numbers. Where the code depends on `inf`/`nan` (bounds of domains, step lengths) an explicit type `XR` with the IEEE rules for the special values is used. Rounding is modelled separately for the membership test, box samples and normalization (C144, C145: every operation is rounded, sums in any order), finite difference gradients (C146), polynomial bases (C147, C148, C151), moves inside a box (C149) and uncertainty intervals (C150), all without overflow and underflow; elsewhere rounding, overflow and `np.isclose` slack in external routines are not modelled; where the code itself compares with a tolerance, the tolerance is in the model. Array dtypes are modelled where noted (C13: integer bounds truncate; C143: bases and designs of integer arrays).
* **External routines** are parameters, and what is assumed of them is an explicit hypothesis: LAPACK (`eigh`, `svd`, `qr`, `lstsq`, `cholesky`), CVXPY/CVXOPT/ECOS (LP, QP, SOCP, SDP), NNLS, the SAT and MIP solvers, Qhull, `np.roots`, scalar root finders (`brentq`, `brenth`), quasi-Newton optimizers, number-to-text conversion in PGF files. Random streams are universally quantified.
* numpy's polynomial families are *modelled* (three-term recurrences and derivative loops of `numpy.polynomial`), not assumed.
* **Python.** Exceptions are values (`Except Err` or `Option`); mutation is a returned new state; attributes cached on objects are fields of a state record where the property is about the cache, otherwise caching is not modelled. The code needs a numpy that still has `np.bool`, `np.int`, `np.float`; the model assumes one.

## What is not modelled

Drawing (the files written for plots, the grids and the data of contour and shadow plots are modelled: C135, C137); printing (except where verbosity changes results: Gauss-Newton, sequential LP); the scheduling inside dask (only what is gathered); pickling; the external programs called by demos (multif, naca0012, openaerostruct; the linear constraints of multif and the asynchronous evaluation are modelled); `psdr/duu.py`, which cannot be imported (it asks for a class `EmptyDomain` which does not exist); the accuracy of solvers; the complex step by which the GP differentiates `L` for `tril` (the exact derivative is used).

## Plan per property

Domains (list-based vectors, constraint records, dispatch on the domain class):

* C01, C02, C03: model `_init_*`, `add_constraints`, `&`, `_isinside_*` for the linear/quadratic family, convex hulls, tensor products. Rewriting membership of concatenated constraint lists. C02 false for a hull as right operand and quadratic tensor factors: witnesses.
* C04: batch membership = map, with the shape branches modelled.
* C05, C06: coordinatewise affine maps with the finite/infinite/equal case split.
* C07: normalized constraint data; false with infinite bounds in another coordinate (`0*inf = nan`) and for moved quadratic centers; the rest proved.
* C08, C09: extents; box exact; linear inequalities false on active constraints; quadratic via roots of the quadratic.
* C10, C11: slices of lists.
* C12: state machine over query lists; false; exact characterization instead.
* C13: box corner, including the dtype of the bounds.
* C14-C16: solver as parameter with exact-optimality hypothesis; C16 false (the shift of the target has the wrong sign).
* C17: convexity of membership and extents. C18: product of lists. C19, C21: loops over random streams with an invariant. C20: lists. C22: hull coefficients with NNLS specification. C23: exact condition on offset and scaling.
* C71: emptiness and unboundedness of general domains through the same solver parameter.

Polynomial bases:

* C24: induction on the recursion of `_full_index_set`; C25-C27: fold over indices, derivative of a product, families discharged by their recurrences; C28: affine maps; C29, C30: Gram-Schmidt induction; C72: derivative of the Arnoldi recurrence; C73: least squares optimality.

Lipschitz:

* C31, C32: sup/inf of cones; C33, C34: matrix algebra in the semidefinite order, termination by a counting measure; C35: matrix units; C36-C38: linear algebra and the sign function; C70: partial matrices; C74: gradients of bounds (max of affine pieces); C75: secular equation, monotone rational function.

Sampling and geometry:

* C39: arithmetic of div/mod and CNF semantics; C40: permutations; C41, C42: loop invariants; C43: bisection invariant; C44: pigeonhole; C45: argmax induction; C46: state machine; C47: cover specification; C48: SVD truncation; C49-C51; C76: fill distance sandwich; C77: unit vectors.

Functions, fits, solvers:

* C52-C54: composition and chain rule (Frechet derivatives); C55, C56, C78: bound fits and ridge functions, invariance under rotations; C57: backtracking; C58-C60: loop invariants over arbitrary step solvers; C61: merging finite maps; C62: parser/printer round trip.
* C63, C79: Golub-Welsch, moments of the monic Legendre polynomials; C64, C80: Ky Fan; C65, C66: exactness for affine data; C69, C83: LP duality of the envelope; C81: monotonicity of perplexity.
* C67, C84: block elimination, positive definiteness of the Gaussian kernel, derivative of log determinant; for `tril` the derivative of the matrix exponential as a power series and the error of the complex step.
* C85: thin SVD / QR specifications, invariant of the Gauss-Newton loop; C86: derivative of a projected residual by implicit solution of the normal equations, change of polynomial basis, Euler's identity.
* C87: Lipschitz extensions (C31, C32) on the adjusted data; C88: feasible set of the LP as a Lipschitz condition; C89: parallelogram law, projection on the convex hull.
* C90: state machine of the object with its cache; C91: finitely many extreme points of a polyhedron, Krein-Milman, maximum of a convex function at extreme points.
* C92: one pass of the search as a function of the point; projections, minimum of step lengths, invariants over passes.
* C93: invariants over the updates and cycles of block coordinate descent, from C92.
* C94: chain of designs visited with the best one; projection onto a compact convex set for the hull argument; minimizers exist by compactness.
* C95: fold over updates and replacements; invariants for the box, the length and the best scored design; negations for the triangle and the initial designs.
* C68, C82: symbolic differentiation with a small calculus of gradients (`IsGrad`).
* C96: loop over Voronoi vertices and circumcenters; points of a cell lie in the hull of its vertices, so a better center for the vertices is better for the cell; chain induction.
* C97: grid and bracket; the score against the fill distance via C91; negation with three points of an interval, and with four points of a square for the default grid.
* C98: nnls as an exact minimizer (exists by compactness); residual zero exactly in the hull; images of combinations are combinations of images.
* C99: the search over tuples of vertices as a recursion over the tuples left, with the greedy addition of equality constraints; the final choice as a filter and an argmax.
* C100: the affine problem is optimal over all affine functions after the change of variables; the final fit contains it. Bounds: explicit witness with a unique solution of the wrong problem.
* C101: stacked variable projection; the Jacobian with a fixed part is the chain rule through `U -> [Uf, Uc u]`; the iteration inherits the invariants of the scalar case.
* C102: singular value decomposition of the stacked gradients: span, Ky Fan for the leading columns, rank one for affine data; the zero rows left by the estimate do not change the span.
* C103: the passes over the metrics as a loop with an oracle for vertices; invariant on the equations collected, compactness of slices for existence, concrete runs on [0,1] for the negations.
* C104: degree of the scalar polynomials from the recurrences with three terms; multiplication by a coordinate raises the degree by one inside the span, hence all monomials; independence by counting against the basis of monomials.
* C105: the loop over starting points around the model of minimax (C59): membership and decrease of each search, the bounds are Lipschitz in the metric; concrete witnesses on the line and the square.
* C106: tensor rules from the model of gauss (C63, C79): exactness by products of one-dimensional exactness, convergence by Stone-Weierstrass, restriction to a domain with boundary of measure zero by squeezing between continuous functions; termination because the points become dense.
* C107: nonnegative least squares with its optimality as contract (existence: finitely generated cones are closed); theorem of the alternative from separation of the origin from a convex hull, short steps for the other direction.
* C108: the search for a direction over lists of random vectors (as in C21), the corners of C13 and C14; a maximizer of a nonzero direction has points outside the domain in every neighbourhood.
* C109: `_fit_alternating` as the arguments of the modelled `sequential_lp`; invariant of accepted steps (orthonormal, coefficients fitted); change of variables of polynomials for the final rotation.
* C110: entries as in C33; Cauchy-Schwarz for the Frobenius norm and rank one perturbations; spectral decomposition and intersection of a plane with a hyperplane for gradients.
* C111: derivative of the quadratic form of `U J U^T + alpha (I - U U^T)` as a cubic in the step; comparison with the terms of the program.
* C112: `ProjectionModel`: rows of a cell, loop of `projection_design` with the SAT solver and the least squares solver as parameters with contracts (both shown to exist); invariant: clauses = those of the encoding (C39) plus blocks of empty cells, solutions seen stand for permutations, the best design was built from one of them. Witness: two copies of the identity on [0, 1].
* C113: `PdfModel`: the `_pdf` formulas; change of variables by the Cholesky factor and the product of Gaussian integrals (normal), volume of a box (uniform), substitution `x = offset + scaling e^y` (lognormal).
* C114: the Mahalanobis distance depends on the covariance only (inverse of `L L^T`); determinants of diagonal matrices.
* C115: support function of a ball (Cauchy-Schwarz with equality in the direction of the row); compactness for existence.
* C116: case analysis of the constructor; membership through the index form of the four checks.
* C117: rows as entry lists over a zero matrix; elimination of fixed columns is a change of variables; every family of rows is characterized by its inequality.
* C118: as C117; grid indices `nx + ny + j nx + i` are injective.
* C119: `hitRun` with one direction is a function of the position and of a uniform number; the mean of the chord kernel over the domain is computed with Tonelli and the translation invariance of the measure; extents are exact in the interior, the boundary of a convex set is a null set; for many calls the kernel of a call dominates the kernel of its first direction.
* C120: VolumeModel.lean models volume with the normalization bounds and the random numbers as parameters; the law of the estimate is computed with the Lebesgue measure of Mathlib: change of variables from the unit cube, mean and variance of a sum of independent indicators, Chebyshev inequality; continuity of the measure from above as the tolerance goes to zero.
* C121: model: `isPointQuery`, `cornerCenter` (HitRunModel); theorems in Domain/PointQueryProps from the replies of corner (C14).
* C122: GP/FitModel, FitProps: truncated inverses commute with matrices intertwining the systems; object as a state machine.
* C123: the flag `_empty` is part of the state of the solver model; induction over histories of calls with arbitrary solver replies.
* C124: Misc/StudyModel: loop with a stateful reduction object; principal angles through orthogonal projections (AngleProps), attained minima by compactness, symmetry by bijectivity of the projection.
* C125: Misc/CheckModel: folds of python max and min over floats with nan; exactness of central differences for quadratics, mean value inequality for smooth functions.
* C126: Domain/DimModel, DimProps: span of differences of feasible points is the kernel of the equality constraints (small steps from a strictly feasible point), rank-nullity. DimHull: orthonormal complements by counting dimensions; existence of orth and QR by Gram-Schmidt.
* C127: Func/AsyncModel: scheduler as a list of tasks with results, events in any order; invariant that every stored result is that of its task.
* C128: Sample/ProjSampleModel: checks of the metrics, SAT loop with assumptions, refinement sweeps; invariant of the loop (blocked cells are empty, solutions seen are pairwise different), rows of neighbours describe the Voronoi cells on a line. Sample/ProjSampleFit: the points are the closest ones to the targets in their cells, and centered in boxes.
* C129: Lipschitz/OptProps: constraints of the program as consistency in the original units; trace minimality transported through the scaling; symmetries by mapping consistent matrices to consistent matrices; compression to the orthogonal complement of an ignored direction; existence by compactness.
* C130: Domain/ConsModel, ConsProps: the constraints as a predicate on the variable, shape errors of the product X*alpha as ValueError; equivalence with membership by cases on the kind of domain and by slices for products.
* C131: Demo/PolyModel, PolyProps: the classes as Fn objects of Func/FunctionModel; partial derivatives of a quadratic polynomial computed entrywise, chain rule from C53.
* C132: Sample/VorModel, VorProps: the update on top of voronoi_vertex_sample of C92; a pass keeps a point in the cells of all its nearest nodes (ties included), so a perturbed node ends in its own cell.
* C133: Func/ApproxModel, ApproxProps, ApproxFit: constructors, choice of the basis by name, fits; every basis that is built spans the polynomials of the degree (tensor: C104; Arnoldi: span and derivative theorems of C29, C72), optimality is transferred to all polynomials; uniqueness of values by strict convexity; existence by compactness.
* C134: Misc/ActiveSym, ActiveRidge, ActiveExact: eigenvalues in decreasing order are unique by the Ky Fan inequality (C80), simple eigenvectors are unique up to sign and the sign choice is equivariant; rank of a product; exactness of the tensor rule (C106) applied to products of partial derivatives; a polynomial whose square integrates to zero vanishes.
* C135: Misc/PlotModel, PlotProps: a plot is the list of its effects (drawings, files) and a possible exception; files are read back with the PGF round trip (C62); eval on the line t*u is the profile at t*|u|^2.
* C136: Demo/ExpModel (written by tools/demoexp.py from the python syntax trees): expressions and their evaluation with failure; ExpLemmas: evaluation succeeds iff every operation is in range; ExpProps: one theorem per demo.
* C137: Misc/ContourModel, ContourProps: the state machine over path codes; the text is read back by a reader that counts lines.
* C138: Domain/ClassModel, ClassProps: the flags by class; exported constraints against the exact set `Holds`.
* C139: Func/BaseModel, BaseProps: dispatch of the mutually recursive methods with a recursion limit and a trace; induction on the limit.
* C140: Func/UphillProps: a 2-norm fit in rotated coordinates is the rotated fit (uniqueness on determining samples), so its slopes are rotated slopes; derivative along lines of polynomials; witness on a 3 by 3 grid.
* C141: Func/RefitModel, RefitProps: objects as state machines, attributes assigned in the order of the code; induction on the history.
* C142: Misc/ShareModel, ShareProps: a heap of arrays, objects as lists of addresses, the caller as an arbitrary history of writes and reads; separation invariant by induction on the history.
* C143: Basis/DtypeModel, DtypeProps and Sample/DtypeModel, DtypeProps: the loops over columns with the element type of the arrays; with floats they refine the models of C27, C29, C95, C96; with integers the first operation in place is refused, stores drop fractions.
* C144: every elementary operation is followed by an abstract monotone, idempotent rounding with relative error u (an instance with p binary digits is constructed for every rounding mode); inner products are trees of sums and fused multiply-adds over a permutation of the products; error bounds by induction over trees
* C145: the model of C144; a product with a diagonal matrix is one rounding per entry for every order of summation (zeros are exact); the errors of centre and width cancel in the round trip
* C146: the number format of C144; the moved point, the difference and the quotient are each rounded; Taylor bound along the coordinate as hypothesis
* C147: the number format of C144; errors as factors, moved from the entries of the matrix and from the sums into the coefficients; monotonicity of rounding for the scaling
* C148: the perturbed three-term recurrence is solved with the polynomials of the second kind, which are at most n + 1 on [-1, 1]; induction keeps the computed values below two
* C149: the number format of C144; each quotient is off by two roundings and the move by one more; monotonicity of rounding carries the bound through the test
* C150: the number format and library of C144; the matrix is applied to the points before they are subtracted, so the error is relative to the size of the points, not of their difference
* C151: along the exact recurrence the quadratic form (e[n-1] - x e[n])^2 + (1 - x^2) e[n]^2 does not grow, for the values as well as for the errors; so errors of D per step add up to at most D n (n+1) / 2
* C152: strong law of large numbers for the entries of C; Ky Fan gives stability of the captured part, and with a gap of the eigenvalues stability of the projection; the sign is that of the mean gradient along the direction, which converges as well
* C153: compactness of the positive semidefinite matrices of bounded trace: every limit point is consistent at all pairs of samples, hence by continuity on the set, and of smallest trace; the bounds are squeezed by one near sample; strong law of large numbers for the indicator of each basic open set gives filling almost surely
* C154: sorting splits the cube into n! congruent cells, the gaps are a linear map of determinant one; a box sample is an affine image of the cube; orthogonal maps preserve the normal law and commute with every step of sample_sphere
* C155: `RoundConstModel` computes every quotient with rounded differences, a rounded norm of the rounded difference and a rounded division. Differences of floating point numbers have small relative errors, so each quotient and gradient norm is accurate up to a factor; smallest constants are bounded on both sides. A witness in double precision shows that the result can be too small.
* C156: `WidthProps` combines the model of uncertainty with that of the greedy design: samples of the zero function give intervals of exactly twice the distance to the nearest sample, adaptive strategies see only zeros on it, and the half efficiency of greedy covering together with an explicit grid gives the factor two and the rate.
* C157: `LatinMeanProps`: each coordinate of a design runs through all midpoints once, so sums of functions of one coordinate reduce to midpoint rules, whose error is bounded cell by cell; averages over all permutations are computed by counting the permutations with a given value at a given place.
* C158: `RidgeWidthProps`: the fit is V diag(w) V^T with V orthonormal up to zero signs; equal leading coordinates leave only the tail of the quadratic form; a midrange over fibres gives the reduced model. Optimality: any n linear coordinates vanish on a unit combination of the first n + 1 directions, and the Lipschitz distance to one end of that segment is a function that separates its ends.
* C159: `DegreeProps`: all from the best-polynomial characterization of C133 by choosing comparison polynomials: the lower degree fit, products of coordinate differences through distinct points, and Stone-Weierstrass approximants shifted to respect the bound. Between samples: the unit ball of the polynomials of a degree is compact in C(K), hence equicontinuous, so dense samples bound polynomials up to a factor of two.
* C160: Model the variance as in C67; spec: combinations of kernels, their energy, the worst case of a linear rule. Cauchy-Schwarz for the kernel by appending centres and the discriminant; both the mean and the variance are compared along the eigenvectors of the kernel matrix.
* C161: Spec: deviation from the linearization bounded by half the curvature times the squared distance. The fit is a projection (Pythagoras for the weighted misfit), so it is closer to the linearization than the data; affinely spanning points determine affine functions stably (an injective linear map of finite dimensional spaces is bounded below); for perplexities the entropy depends on bandwidth times squared spread only.
* C162: Spec: minimizers of the norm of an affine residual; a solver that minimizes the linearized residual. Along the direction to the minimizer the squared norm is an explicit quadratic, so acceptance of a step is an explicit inequality. The bound on the slopes: every accepted step is at least 2^-39 long, so the residual norm falls by at least 2^-39 10^-4 times the slope in each pass; summed over the passes.
* C163: Spec: functions above their linearizations and below them plus half the curvature times the squared distance; minimizers of the largest function. The predicted change of an exact step bounds the distance to the minimum (step_gap); on affine functions the full step achieves it and is accepted; a best point strictly inside the trust region is best on the set. For convex functions backtracking accepts a step of length at least 2^-J, so the distance to the minimum shrinks geometrically.
* C164: Spec: feasible points and feasible points of least objective; an exact solver of the linearized program. For an affine function the linearization is exact, so the first step without the trust region leads to a solution and is accepted; from a solution no step is accepted.
* C165: Misc/ActivePerturb: weighted lists of gradients as vectors of a Euclidean space (triangle inequality); captured amounts are seminorms; singular values by a unit vector between two flags; the tilt from the eigenvector equations entry by entry, with Frobenius norms invariant under rotations; the outer product gradient method by C161 at every sample.
* C166: Func/RecoverProps: Lagrange polynomials from a left inverse of the sampling map; a ridge function is a polynomial of all the variables, so its misfit controls it; directions from invariance under translations; the fits by C85, C100, C109.
* C167: Misc/LipActive: the gradients of an admissible matrix bound the weighted outer products; order of eigenvalues by a dimension argument; feasibility of c^2 I; compactness for the diagonal solver.
* C168: Geometry/TensorLaw: the rows of the factors stacked; product measures exchanged (factor by row against row by factor); densities by products of integrals; instances for boxes, points and normal domains.
* C169: Domain/HitForget, HitForgetProps: a change of variables from normal vectors to points bounds the density of a step from below; laws from any two points overlap (outside two small cubes); overlapping kernels contract oscillations of functions.
* C170: Opt/GNQuad: normal equations and the expansion at the solution bound the new error by the square of the old one; the full step passes the decrease test; induction over the passes.
* C171: Sample/DesignModel, DesignProps: dispatch over the models of C44 and C94, with the default discretization.
* C172: Domain/RoundGridModel, RoundGridProps: np.linspace as numpy computes it, over the rounding model of C144; monotonicity of rounding keeps values between bounds.
* C173: Demo/RunModel, RunProps: file systems as maps from paths, the program as an arbitrary function of the mounted directory; results and final disk of a call in closed form.
* C174: Demo/RunTasks: an interleaving semantics over a schedule; invariant: directories in use are apart and hold what a single run would have made so far.
* C175: Demo/RunModel (LogRun), RunArgs: the loop that reads a line and then polls the process, as an inductive relation over all schedules.
* C176: Demo/RunArgsModel, RunArgs: keyword dictionaries through constructor and call; decimal rounding; shapes from np.loadtxt.
* C177: Lipschitz/OrderProps, Geometry/OrderProps, Misc/LocalOrder, Basis/ArnoldiOrder: permutation invariance of sums, extrema and the Arnoldi recurrence (columns are values of one function of the point).
* C178: Misc/ChanceModel, ChanceProps: numpy percentile with linear interpolation over sorted samples; counting in prefix and suffix of the sorted list.
* C179: Domain/ClosestProps, ClosestTotal: the set of points is closed (intersection of closed half spaces, ellipsoids and hulls), sublevel sets of the distance are compact, obtuse angle criterion for the nearest point of a convex set; totality for solvers that find a minimizer whenever there is one.
* C180: Misc/DensityModel, DensityProps: kernel density estimate with the linear kernel and a tenth of the quartile distance as bandwidth; integrals of the triangular kernel over the line and over the range.
* C181: Domain/SupportProps: separation of a point from the closed convex set of points by its nearest point (C179), completeness of the solver for the separating direction, compactness for totality.
* C182: Misc/FdSubspace: the table returned by grad on the call-level model of Function (Func/FunctionModel), Taylor bound along the axes, and the perturbation theorems of active subspaces (C165, Misc/ActivePerturb).
* C183: Domain/MomentProps, Domain/MomentLaw: the law of a row as the image of the standard normal law, conditional on the ball (limit of the redraws), symmetry of the ball under reflections and exchanges of coordinates; strong law of large numbers.
* C184: Geometry/FillLimit: the estimate is the distance of a point of the domain, hence below the fill distance; a start near a worst point bounds it from below; independent draws fill the domain almost surely.
* C185: Sample/DesignFill: if some region stayed empty, starts would fall into it infinitely often and each time a point far from all others would be added, which a bounded domain cannot hold (finite covers of the closure).
* C186: Sample/CoffeeNet, Geometry/VsampleRandom: as long as a starting point is farther than r from the design all points of the design are r apart; a bounded set holds finitely many such points.
* C187: Misc/ActiveQuad: the default quadrature rule converges for continuous integrands (C106); the perturbation bounds of C152 turn convergence of C into convergence of values and subspaces.
* C188: Func/FitLimit: normal equations of the fit (C133) in a fixed basis of polynomials; Gram matrices converge by the strong law of large numbers to a nonsingular matrix, the right hand sides of the difference to the best polynomial to zero.
* C189: Func/AffineLimit: the normalized problem of the affine fit is equivalent to least squares over affine functions; these converge as in C188, and the direction is the normalized difference of values at unit vectors and the origin.

Status of each is in `MANIFEST.json`.

## Disagreements

Places where the code does not satisfy the property as a user would state it. Each is a theorem about the model with a concrete witness; the property is then proved under the exact (or weakest found) condition.

| Property | Theorem | What the code does |
|---|---|---|
| C01 | `add_constraints_point_false` | `PointDomain.add_constraints()` widens the point to a tolerance box |
| C02 | `and_hull_right_false` | `domain & hull` silently drops the hull |
| C03 | `and_unbounded_raises` | `&` with an `UnboundedDomain` raises |
| C07 | `normalized_bounds_lost`, `normalized_mixed_bounds_false` | one infinite bound turns all normalized bounds on that side into nan and drops them |
| C07 | `normalized_quadratic_false` | centers of quadratic constraints are shifted but not scaled |
| C07 | `normalized_hull_false`, `normalized_unbounded_raises` | the normalized domain of a hull is not a hull; unbounded domains have none |
| C08, C09 | `extent_bound_tolerance_false`, `extent_active_ineq_false`, `extent_equality_false`, `extent_quad_boundary_false`, `extent_point_zero_false`, `extent_hull_false` | active constraints, equalities and other constraints of hulls are ignored; zero from the boundary of a ball |
| C11 | `tensor_export_drops_quadratics` | tensor products export no quadratic constraints |
| C12 | `box_is_point_history_false`, `box_is_unbounded_history_false`, `box_is_empty_closest_point_false` | answers depend on which queries came before |
| C13 | `box_corner_int_false`, `box_corner_empty_false` | integer bounds truncate the corner; empty boxes within the tolerance have corners |
| C14 | `corner_quadratic_false`, `corner_mixed_bounds_false` | consequences of the wrong normalization |
| C16 | `cls_false` | the target is shifted the wrong way: the farthest point is returned |
| C17 | `sweep_mutates_false`, `sweep_active_ineq_false` | the caller's array changes; sweeps leave the domain |
| C18 | `sample_grid_dup_false` | repeated points if a coordinate is fixed |
| C19 | `sample_box_stale_false`, `sample_single_hull_false`, `sample_hull_false`, `defaultSample_point_false` | samples outside the domain, or an exception |
| C20 | `tensor_default_names_false` | names repeat |
| C22 | `hull_inside_false`, `to_linineq_bounds_false` | coefficients need not sum to one; conversion drops bounds |
| C23 | `lognormal_negative_scaling_false`, `lognormal_negative_offset_false` | samples outside |
| C28 | `roots_unscaled_false` | `roots` raises for a basis built with `dim` |
| C33 | `projectEvals_false`, `projectEvals_single` | repeated points stop the projection; one sample raises |
| C36, C38 | `fit_consistent_false`, `fixGrads_false` | a direction orthogonal to the mean gradient becomes zero |
| C37 | `constant_epsilon_false`, `constant_duplicate_false`, `constant_single`, `diagFit_method` | epsilon scaled wrongly; duplicates give zero; one sample raises; builder names |
| C40 | `latinMaximin_point` | `None` on a degenerate box |
| C42 | `poissonGrid_boundary_false` | index error at the far boundary |
| C43 | `intBisect_zero_false`, `intBisect_decreasing_false` | not the least positive integer |
| C46 | `seqSample_shipped`, `seqHistory_shipped`, `seqSample_failure_false`, `seqSample_novalues_false` | unbound name; points and values out of step |
| C47 | `minimaxCovering_false` | radius not met |
| C48 | `lowRank_metric_false` | small singular values dropped |
| C49 | `unique_far` | dropped points may be far from all kept ones |
| C50 | `simplex_zero` | no weights in dimension zero |
| C52, C53 | `callG_vectorized_false`, `grad_return_vectorized_false` | wrong shapes for vectorized functions |
| C54 | `fd_kwargs_false`, `fd_two_outputs` | keyword arguments dropped in the base value; two outputs raise |
| C55 | `affSolve_swapped` | direction chosen with the opposite bound |
| C58 | `gn_quiet_never`, `gn_quiet_false` | convergence is only detected when printing |
| C60 | `seqlp_constraint_false`, `seqlp_verbose` | nonlinear constraints violated; verbose run raises |
| C62 | `pgf_ragged_false`, `pgf_short_false` | length of the second column unchecked |
| C65 | `localLinear_rows_false`, `localLinear_equispaced_false`, `xia_wider` | number of rows; default bandwidth fails; the bandwidth named `xia` takes the number of samples where the cited rule has the dimension |
| C66 | `opg_standardized_false` | standardization undone with the wrong power |
| C67 | `gp_duplicate_false` | an eigenvalue equal to the threshold is dropped |
| C68, C82 | `arm_origin_false`, `quad_grad_false`, `gol5_exact_false`, `wing_exact_false` | wrong or rounded gradients |
| C69, C83 | `shadow_returned_false`, `shadow_none_false` | coordinates not those of the bounds; unbounded program |
| C70 | `fixedU_epsilon_false` | constraint stricter than documented |
| C71 | `isUnbounded_one_dim_false` | raises in one dimension |
| C78 | `finish_sign_false` | a vanishing mean slope zeroes the direction |
| C80 | `asFit_zero_false` | as C38 |
| C84 | `gp_grad_tril_false` | for `tril` the derivative of `expm` is a complex step with h = 1e-10: in one dimension the gradient is multiplied by sin h / h |
| C85 | `orth_zero_false` | `orth` multiplies by `sign(0) = 0` for dependent columns |
| C88 | `nonlin_slope`, `nonlin_constant_false`, `nonlin_duplicate_false`, `nonlin_conflict_false` | negated coefficients; nan for constant data or repeated samples |
| C90 | `diag_U_stale`, `diag_U_stale_false`, `diag_U_unfitted` | directions cached for ever; none if the matrix was given |
| C91 | `voronoi_single_boundary`, `fill_equality_false` | a single boundary sample raises; equality constraints ignored |
| C92 | `fillEstimate_small_false`, `vertexSample_not_vertex` | planes with rate below 1e-8 are ignored, so with a small metric the point passes other samples and the estimate can be 0; a start at a sample never moves |
| C93 | `maximinBlock_single_false` | a one-point design raises IndexError |
| C94 | `cluster_single_false`, `cluster_dx_false`, `cluster_outside_false` | one center never moves (the old assignment starts at zero); movement without absolute value; unconstrained centers for rank deficient metrics |
| C95 | `pso_outside_false`, `randomInit_first` | the combination weights are drawn for every entry, so the new points can leave a convex domain that is no box; `np.argmax(np.min(..))` without axis always takes the first candidate |
| C81 | `perp_equal_false`, `perp_scale_false` | the bracket misses the solution |
| C96 | `lloyd_overwrites_false`, `lloyd_extra_false` | the design passed in is overwritten; points beyond the requested number are moved to the origin |
| C97 | `scale_suboptimal_false`, `scale_one_false`, `scale_worse_false` | the score uses the Voronoi vertices of the unscaled design and selects a worse factor; one grid point always halves the design; on the default grid the returned design can cover worse than the one passed in |
| C100 | `affine_lower_false`, `affSolve_swapped` | polyridge.py 382-388: `_fit_affine` with `bound="lower"` solves the problem of the upper bound (and vice versa), so the direction, and with it the bound, is not optimal. |
| C101 | `vecInit_oneD_false`, `vecRidge_start_false` | polyridge_vec.py 138, 171: flat data is accepted by the residual but the default start iterates over its scalars and raises `AssertionError`; a given start is not orthonormalized without a fixed subspace. |
| C102 | `initSubspace_few_false` | initialization.py 14: `X.shape[0] >= X.shape[1]+1` lets `m+1` samples through, for which the default perplexity of `local_linear_grads` fails its assertion (`ngrads` of line 12 is never used). |
| C103 | `stretch_forgets_false`, `stretchSample_repeats_false`, `stretch_caught_false` | stretch.py 48: `X, d = …` overwrites the samples by the candidate, so later metrics measure distances from it only; when the search for the first metric raises, `d` is unbound and the handler does not skip it. |
| C105 | `uncDomain_epsilon_false`, `uncDomain_local_false`, `shadowUnc_end_false`, `shadowUnc_one_false` | lipschitz.py 408-478 does not use `self.epsilon` (line 402 does); a search that starts at a sample stays there, since the gradient is set to zero; 559-560 assume the slices at both ends are points, and with `ngrid = 1` write the interval of the other corner. |
| C106 | `quadRule_void_false`, `quadRule_zero_false` | euclidean.py 778-786: no rule has a point inside an empty domain, so `len(Xnew) <= N` always and the loop runs forever; with `N = 0` and `method = gauss` the one-point rule is returned. |
| C107 | `kkt_one_false`, `kkt_one_component` | seqlp.py 110 and 112 set all entries of the last block of the constraint gradients to -1 instead of its diagonal, so the multipliers of all components add up to one instead of those of each component; the measure is zero at points that are not stationary. |
| C108 | `boundary_edge_false`, `boundary_point_false`, `boundary_center_false` | euclidean.py 648-649: only corners are returned, so no other point of an edge or face; on a point domain `extent` is zero in every direction and the loop 676-683 never ends; `center` exists only for LinIneqDomain and its subclasses (linineq.py 137). |
| C109 | `alt_search_false` | polyridge.py 649: `pU_pc[k*m:(k+1)*m]` are not the columns of the row-major `pU`; for two columns in three variables an orthogonal direction is excluded and a non-orthogonal one admitted, and the fit of `x1 + x3` from the span of `x1, x2` has no improving direction. |
| C110 | `gradDist_indefinite` | lipschitz_utils.py 64-66: for an indefinite `H` the smallest eigenvalue is not the size of the smallest perturbation restoring the constraint (two negative eigenvalues). |
| C111 | `descent_eval_false` | lipschitz_partial.py 212: `-2*alpha*(Up.T @ y)` is multiplied with `J.dot(UTy)` instead of `UTy`; with `J = 2`, `alpha = 3/2` the program predicts a decrease where the quantity increases. |
| C112 | `projection_single`, `projection_hangs`, `projection_stale`, `projection_hangs_feasible` | `projection_design` never returns when every design has an empty cell, or when the SAT solver has run out and its last solution (used again in every pass) has one; `M = 1` raises ValueError from stacking no rows (projection.py 303, 399-407) |
| C113 | `lognormal_density_iff`, `lognormal_density_false` | the lognormal density divides by the covariance instead of its root and not by the scaling: its integral is `scaling/sqrt(cov)` (lognormal.py 79) |
| C114 | `lognormal_normalized_iff`, `lognormal_normalized_false` | the density of a normalized lognormal domain lacks the factor of the change of variables (lognormal.py 67-80) |
| C115 | `cheb_empty_false`, `cheb_point_false`, `cheb_equality_false` | chebyshev_center does not notice empty domains, fails without inequality rows and measures balls of the whole space when there are equality constraints (linineq.py 90-126) |
| C116 | `mkLinQuad_row_false`, `mkLinQuad_empty_false`, `mkLinQuad_inf_false` | the constructor finds the dimension by `len(A[0])`, which fails for a single row (TypeError) and for no rows (IndexError) (linquad.py 115-119); a lower bound `+inf` is accepted and ignored (euclidean.py 1116-1129) |
| C117 | `bspline_gap_false`, `bspline_throat_false`, `centerline_infeasible`, `centerline_base_infeasible` | nozzle walls: gaps compared with 0.05 instead of `delta` without a throat (lines 48-51), infeasible `throatIsLowest`, violated constant rows silently dropped (shipped centreline) |
| C118 | `layer_y_false`, `layer_single_false`, `shippedLayer_infeasible` | nozzle layers: the rows for y-coordinates compare the first with the last x-coordinate and leave out the last pair (line 239); with one y-coordinate `deltaz` bounds the thickness |
| C119 | `hitRun_fresh_false` | samples of a fresh domain are not uniform in two or more dimensions: the state starts at the Chebyshev center, and a set holding a sixteenth of the volume or less is hit with probability 1/4 by the first step |
| C120 | `volume_bias_false`, `volume_flat` | `volume` counts points outside the domain by less than the tolerance of `isinside`, so its mean exceeds the volume; a flat box with an infinite side has volume nan instead of 0 |
| C121 | `isPoint_far_false` | a unit square at (1e6, 1e6) given by bounds of a LinIneqDomain is reported to be a point, and sampling returns one point repeatedly (euclidean.py 105, 606) |
| C122 | `gp_start_false`, `gp_failed_refit_false` | fit(L0 = c I) starts at exp(c) I (gp.py 334-343); a fit that raises has already replaced self.X (gp.py 289-291) |
| C123 | `corner_forgets_false` | `corner` does not remember that the domain is empty: the next call asks the solver again and can raise another exception |
| C124 | `study_empty_false`, `study_coord_false` | an empty list of sample numbers gives one angle and no number of points; with DiagonalLipschitzMatrix the study always reports perfect convergence because U is never recomputed (coord.py 40-48) |
| C125 | `check_jacobian_zero_column_false`, `check_gradient_blind_false` | check_jacobian accepts a wrong Jacobian with error 0 if a later column is zero (nan is dropped by max together with the errors before it); check_gradient accepts every Jacobian at a zero of the residual |
| C126 | `intrinsic_dimension_redundant_false`, `intrinsic_dimension_point_false`, `hull_direction_tiny_false` | intrinsic_dimension is -1 for a point given by a repeated equation, 1 for the box [0,0]; no direction is left on a hull of length 2e-9 |
| C127 | `async_globals_false`, `async_reserved_false`, `callAsync_keyword_false` | eval_async executes the source of a function in an empty scope, so that functions using names of their module raise NameError; keyword arguments named like those of submit are swallowed; call_async always passes return_grad to the functions |
| C128 | `lhs_assertion`, `lhs_triangle`, `psample_planar`, `psample_single`, `psample_error` | latin_hypercube_sample on a domain other than a box takes targets on the coordinate axes and asserts that they are in the domain, so that it fails for most domains away from the axes; projection_sample uses Delaunay without importing it, indexes past the end for one sample, and uses the name assumptions before it is bound if the first design has coinciding points |
| C129 | `samples_hide_false` | fitting samples of a function of one variable need not give a matrix ignoring the other variables (a limit of the method, not of the code) |
| C130 | `hull_build_false`, `build_error` | ConvexHullDomain._build_constraints uses `alpha @ self._X.T` with the points in rows: for the segment (0,0)-(1,0) the constraints describe the segment (0,0)-(0,1); for a triangle in the plane they can not be built |
| C131 | `quad_grad_iff`, `quadratic_grad_false` | QuadraticFunction._func_grad returns 2*X.dot(quad)+linear, which is the gradient only if quad is symmetric; no check or symmetrization is made |
| C132 | `vorSample_outside_false` | _update_voronoi_sample starts from Xhat[k]+1e-7*randn without checking the domain: for a node on the boundary the "bounded Voronoi vertex" (1,1) at distance 1 from [-1,0]x[-1,1] is returned |
| C133 | `fitFixed_recovers_false` | fit_fixed_subspace with the exact direction does not reproduce x^2 at -1, 0, 1: np.sign(0) erases the direction |
| C134 | `asFitFunction_square_false` | the active subspace of x^2 on [-1,1] is reported as the zero vector, whatever the number of samples: the gradients at the nodes add up to zero and np.sign(0) erases the direction |
| C135 | `shadow_truncated_false`, `shadow_default_false`, `shadow_nolen_false`, `respName_plain_false`, `respName_dir_false`, `ridge_plot_scaled_false`, `ridge_noaxis_false`, `ridge_list_false` | shadow plots: excess values silently dropped from the file; fX has no default although X has; no plot of a PolynomialRidgeFunction; response file `dat_responsea` for `data` and in another directory for `./data`; curve off the samples after fit_fixed_subspace with a direction not of length one; exceptions after the file was written |
| C136 | `arm_grad_undefined_false`, `borehole_uncertain_false` | demo problems: the gradient of the robot arm is 0/0 at arms that end at the origin, also in the interior of the domain; the normal distribution of the well radius of the uncertain borehole domain is not truncated, and the function has no value at radii that are not positive (also read: `build_golinski_random_domain(clip)` passes `clip`, which NormalDomain takes as a solver option, so nothing is truncated; the documentation of the OTL circuit says R_b2 up to 75, the code 70) |
| C137 | `contour_prepared_false`, `contour_empty_false`, `contour_other` | save_contour: the second documented format refers to names that do not exist and leaves an empty file; a path without points is written as a contour line without points; points of curved segments are dropped (the documented further arguments are ignored) |
| C138 | `class_hull_false`, `class_tensor_false` | `is_linquad_domain` is True for every domain: a convex hull and a product with quadratic constraints claim to be specified by exported constraints that points outside meet |
| C139 | `grad_missing_false`, `evalOnly_grad_false`, `abstract_recursion`, `eval_drops_keywords_false` | BaseFunction: `grad` and `__call__` of a class without gradient call each other: GaussianProcess.grad and LipschitzApproximation.grad raise RecursionError after hundreds of evaluations instead of NotImplementedError; eval drops keyword arguments |
| C140 | `finish_uphill_false` | ridge fits: `_finish` projects the samples once and chooses the signs of the rotated directions from slopes at these stale points: the first direction of an exact fit has mean slope -1 although average increasing gradients are promised |
| C141 | `poly_keeps_false`, `ridge_keeps_false`, `lipApprox_keeps_false`, `const_keeps_false`, `len_keeps_false` | A fit that raises half replaces the previous fit: evaluation then mixes the new basis, subspace or samples with the old coefficients and gives wrong values without an exception |
| C142 | `isolated_getters_false`, `isolated_args_false`, `lloyd_argument_false`, `sweep_argument_iff`, `sweep_ints_false`, `warmStart_iff` | Properties such as `lb`, `A`, `H`, `L`, `J`, `C`, `singvals`, ridge `U` and Arnoldi `V()` return the arrays of the object; tensor bases, `LipschitzMatrix(L=)` keep the argument; `sweep` overwrites the direction and refuses integer arrays; `minimax_lloyd` overwrites the start design |
| C143 | `tensor_unscaled_int_false`, `tensorDV_int_false`, `arnoldiV_int_false`, `arnoldi_int_iff`, `poly_const_int_false`, `vertexSample_int_iff`, `maximinBlock_int_false`, `lloyd_int_false` | Integer arrays: unscaled tensor bases and Arnoldi bases raise or give zero, `voronoi_vertex_sample` and `maximin_block` raise, `minimax_lloyd` truncates |
| C144 | `insideF_rejects_false` | In double precision the point (2^60, 1, -2^60) satisfies `x1 + x2 + x3 = 1` exactly but `isinside` computes 0 for the sum and rejects it (the tolerance is absolute) |
| C145 | `normalizeF_false` | In double precision the box [2^60, 2^60 + 256] is normalized to [-2, 0]: the centre is rounded to the upper bound |
| C146 | `gradF_lost_false` | With `fd_grad`, at a point with an (unbounded, hence unscaled) coordinate 2^31 the step 1e-7 is lost and the gradient of every function is 0 |
| C150 | `interval_order_false` | In double precision, for f(x) = x with data at 0 and 1 and L = [[1]], the interval at 7/2^55 has its lower end above its upper end |
| C152 | `asFit_zero_false` | For gradients with mean zero the reported directions are zero vectors, so they capture nothing, however many samples there are (see C80). |
| C155 | `const_lower_false` | the constant returned for the samples (3, 2) and (0, 0) in double precision is smaller than 2/3, so it is not a Lipschitz constant of the data |
| C157 | `latin_unbiased_false` | the mean of x^2 over a Latin hypercube design on [0, 1] is 1/3 - 1/(12 N^2) for every draw, so it is not an unbiased estimate of 1/3 |
| C158 | `lead_false` | gradients (2,0), (-2,0), (0,1): the first column of U is the zero vector, so the first reported coordinate is constant although the second coordinate alone determines every function with the reported matrix |
| C160 | `gp_error_false`, `gp_var_mono_false` | the variance ignores the nugget, so at a sample it is zero although the prediction differs from the value; dropping eigenvalues makes the variance grow when a close sample is added |
| C161 | `localLinear_contract_false` | with the default perplexity the call raises when the samples are close to the location, so gradients cannot be found by contracting the samples |
| C162 | `gn_linear_stuck`, `gn_units_false` | Gauss-Newton returns the starting point on every linear least-squares problem whose residual norm at the start is 10^4 or more: the line search compares the norm of the residual with the slope of half its square |
| C164 | `seqlp_infeasible_false` | `sequential_lp` returns a start that violates `obj_lb` by 1 although the problem has a solution and the solver is exact: steps that restore the bounds are rejected when they increase the objective |
| C166 | `recover_false` | `fit` accepts as many samples as a ridge function has parameters; that many samples need not determine the function or its direction, even for a perfect fit (five samples of a quadratic in the plane) |
| C167 | `constant_tighter_false` | the Lipschitz matrix is not everywhere at most the scalar Lipschitz bound: least trace can be larger in some direction (three samples in the plane), so its uncertainty intervals can be wider than those of `LipschitzConstant` |
| C171 | `minimaxDesign_many_false` | minimax_design and minimax_cluster for more than 10000 points: the discretization has at most 10000 points (N0 = min(100 N, 10000)), so there are too few initial centers and an IndexError results |
| C172 | `linF_distinct_false` | Grids between neighbouring floating point numbers contain repeated points |
| C173 | `runJob_leaks`, `runBatch_kept_false` | Failed runs leave (temporary) directories behind; a batch with a kept directory always fails at its second point |
| C175 | `log_complete_false`, `runJob_exitCode` | The end of the output of an external program may be missing from its log; its exit code is ignored |
| C176 | `multif_ctor_ignored`, `multif_ctor_keep_raises`, `dec16_injective_false`, `oas_batch` | MULTIF ignores level, su2_maxiter and workdir of its constructor; inputs are written with one digit too few; OpenAeroStruct raises on a batch of one point |
| C177 | `uniquePoints_order_false` | unique_points keeps a different number of points for a different order of the same points |
| C178 | `safety_fraction_false`, `chance_docs_false`, `randomRidge_ignores` | the empirical safety factor is violated by more than the given fraction for probabilities below one sample; documented direction of the modes is reversed; Nsamp is ignored; `duu.py` cannot be imported |
| C179 | `closest_jump_false` | the closest point jumps by the tolerance at the edge of what is still reported inside |
| C180 | `density_range_mass`, `densityCurve_raises_false` | the exported density curve is cut off at the extreme samples and integrates to less than one; coinciding quartiles raise |
| C181 | `corner_describes_false` | on a domain with finite bounds in one coordinate and none in another, no direction gets a corner, so the corners do not describe it |
| C182 | `fd_fixed_step_false` | the finite difference step is fixed: for it some analytic function with derivative one gets the gradient zero |
| C183 | `normal_truncated_cov_false` | the samples of a truncated normal domain have smaller variances than the covariance matrix the domain was built with |
| C184 | `fillEstimate_limit_false` | the estimate need not approach the fill distance: separating planes below the absolute tolerance are skipped and every start runs onto a sample |
| C187 | `fitFunction_subspace_false`, `fitFunction_average_false` | for x^2 on [-1,1] the direction reported by fit_function is zero for every number of gradients; C is the integral of the outer products, not their average |

Also noticed while reading, outside the model: integer input arrays in `arnoldi_X` keep integer dtype; `UnboundedDomain` and `LogNormalDomain` lack `kwargs`; `duu.py` imports a class that does not exist; the documentation of the OTL demo gives `R_b2 <= 75`, the domain 70.
