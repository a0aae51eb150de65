import json
P=[]
def p(i,title,statement,quant,why,anchors):
    P.append(dict(id=i,title=title,statement=statement,quantifier=quant,why_tests_cant=why,anchors=anchors))
D='psdr/domains/'
p('C01','Adding constraints is exactly set intersection with the new constraints',
 'For a linear/quadratic domain D, dom.add_constraints(A,b,lb,ub,A_eq,b_eq,Ls,ys,rhos).isinside(x, tol) is True exactly when D.isinside(x, tol) is True and x satisfies each of the added bounds, inequalities, equalities and quadratic constraints to within tol; no old constraint is lost, none is invented, whichever concrete class (box, linear-inequality, linear-quadratic) is chosen for the result.',
 'every domain, every set of added constraints (including infinite bounds and empty sets), every point and tolerance',
 'Tests sample a handful of points and constraint sets; the claim is an equivalence over a continuum of points and all constraint lists.',
 [D+'linquad.py:LinQuadDomain.add_constraints',D+'euclidean.py:_isinside_bounds',D+'euclidean.py:_isinside_ineq',D+'euclidean.py:_isinside_eq',D+'euclidean.py:_isinside_quad'])
p('C02','The & of two domains contains exactly the common points',
 '(A & B).isinside(x) is True exactly when A.isinside(x) and B.isinside(x) are both True, for every pair of domains for which & does not raise.',
 'all pairs of domains of equal dimension (linear/quadratic, box, convex hull, tensor product) and all points',
 'Equivalence over all points and all domain pairs; a lost constraint shows up only at points that the dropped constraint would have excluded.',
 [D+'linquad.py:LinQuadDomain.__and__',D+'convexhull.py:ConvexHullDomain.add_constraints',D+'tensor.py:TensorProductDomain.add_constraints',D+'euclidean.py:EuclideanDomain.Ls'])
p('C03','Intersection of domains obeys the laws of sets',
 'Up to membership, & on linear/quadratic domains is commutative, associative and idempotent, and intersecting with a box whose bounds are all infinite changes nothing.',
 'all linear/quadratic domains of equal dimension and all points',
 'Algebraic laws over all triples of domains.',
 [D+'linquad.py:LinQuadDomain.__and__'])
p('C04','Membership of a batch is the batch of memberships; wrong dimension is never inside',
 'isinside on a 2-d array returns one answer per row, each equal to the answer for that row alone; a point whose length differs from the dimension is reported outside.',
 'all domains, all batches of any length, all widths',
 'Unbounded batch sizes and widths.',
 [D+'euclidean.py:EuclideanDomain.isinside'])
p('C05','normalize and unnormalize are mutually inverse',
 'For every domain, unnormalize(normalize(x)) = x and normalize(unnormalize(z)) = z in exact arithmetic, including degenerate (lb = ub), half-infinite and unbounded coordinates and tensor products.',
 'all domains, all points',
 'All combinations of finite/infinite/equal bounds for every dimension.',
 [D+'euclidean.py:_normalize',D+'euclidean.py:_unnormalize',D+'euclidean.py:_normalize_der',D+'euclidean.py:_unnormalize_der',D+'euclidean.py:_center',D+'tensor.py:_normalize'])
p('C06','Normalization sends a bounded box onto the cube [-1,1]^m',
 'For finite bounds lb < ub, x lies in the box exactly when every coordinate of normalize(x) lies in [-1,1]; lb goes to -1, ub to +1, the midpoint to 0.',
 'all dimensions, all bounds, all points',
 'Continuum of points and bounds.',
 [D+'euclidean.py:_normalize',D+'euclidean.py:_normalize_der',D+'euclidean.py:norm_lb'])
p('C07','The normalized domain contains exactly the normalized points',
 'normalized_domain().isinside(normalize(x), 0) equals isinside(x, 0) for every point x of every domain.',
 'all linear/quadratic domains and tensor products, all points',
 'Requires an equivalence over all points for all constraint types and bound patterns.',
 [D+'euclidean.py:normalized_domain',D+'linquad.py:_normalized_domain',D+'euclidean.py:ys_norm',D+'euclidean.py:lb_norm',D+'euclidean.py:A_norm'])
p('C08','Moving up to extent(x, p) never leaves the domain',
 'If x is inside the domain, then x + t p is inside for every 0 <= t <= extent(x, p).',
 'all box, linear-inequality, quadratic, tensor domains; all inside points; all directions; all t',
 'Continuum of starting points (including boundary points) and directions.',
 [D+'euclidean.py:extent',D+'euclidean.py:_extent_bounds',D+'euclidean.py:_extent_ineq',D+'euclidean.py:_extent_quad',D+'linquad.py:_extent',D+'linineq.py:_extent',D+'box.py:_extent'])
p('C09','extent(x, p) is the largest such step',
 'If x is inside, then x + t p is outside for every t > extent(x, p); extent is infinite only if the whole ray is inside.',
 'all domains, inside points and directions',
 'Universal statement over t beyond the bound.',
 [D+'euclidean.py:_extent_bounds',D+'euclidean.py:_extent_ineq',D+'euclidean.py:_extent_quad'])
p('C10','A tensor product contains exactly the concatenations of points of its factors',
 'TensorProductDomain(domains).isinside(x1 ++ ... ++ xk) is the conjunction of the factors\' isinside; its length is the sum of lengths; its names are the concatenation; nesting tensor products gives the same domain as the flat list.',
 'all lists of domains (including nested tensor products and the empty list), all points',
 'Arbitrary nesting and arbitrary numbers and sizes of factors.',
 [D+'tensor.py:__init__',D+'tensor.py:_slices',D+'tensor.py:_isinside',D+'tensor.py:__len__',D+'tensor.py:names'])
p('C11','Tensor product bounds and linear constraints describe the same set as the factors',
 'The lb, ub, A, b, A_eq, b_eq of a tensor product of linear-inequality domains, read as one linear-inequality domain, have exactly the members of the tensor product; with quadratic factors the exported constraints (lb.., A.., Ls..) must also describe the same set.',
 'all lists of factor domains, all points',
 'Block structure for every number and size of factors.',
 [D+'tensor.py:A',D+'tensor.py:A_eq',D+'tensor.py:lb',D+'tensor.py:b',D+'euclidean.py:Ls'])
p('C12','Questions about a box do not change its later answers',
 'For a BoxDomain, the answers of is_empty, is_point and is_unbounded depend only on the bounds, not on which of them (or sample) was called before.',
 'all boxes and all finite sequences of queries',
 'Every order and length of query history.',
 [D+'box.py:is_empty',D+'euclidean.py:is_point',D+'euclidean.py:is_unbounded'])
p('C13','corner of a box is a maximizer',
 'BoxDomain.corner(p) returns a point of the box maximizing the inner product with p over all points of the box, or raises if the box is empty.',
 'all bounds, all directions p (including zero components)',
 'Optimality is a statement over all points of the box.',
 [D+'box.py:_corner'])
p('C14','corner of a general domain is a maximizer',
 'With an exact convex solver, EuclideanDomain.corner(p) returns a point of the domain that maximizes the inner product with p, or raises the exception matching emptiness/unboundedness.',
 'all domains on which normalized constraints are equivalent, all directions, all solver statuses',
 'Optimality over all domain points; every solver status.',
 [D+'euclidean.py:corner'])
p('C15','closest_point is a nearest domain point',
 'With an exact convex solver, closest_point(x0, L) returns a point of the domain minimizing ||L(x - x0)|| over the domain; points already inside are returned unchanged.',
 'all domains on which normalized constraints are equivalent, all x0, all L',
 'Optimality over all domain points.',
 [D+'euclidean.py:closest_point'])
p('C16','constrained_least_squares minimizes the stated residual',
 'With an exact convex solver, constrained_least_squares(A, b) returns a domain point minimizing ||A x - b|| over the domain.',
 'all domains, A, b',
 'Optimality over all domain points and all problem data.',
 [D+'euclidean.py:constrained_least_squares'])
p('C17','sweep returns ordered points of a line segment inside the domain',
 'For a convex domain and x inside, every point returned by sweep lies in the domain, lies on the line through x with direction p, and the first and last are the two extents; the caller\'s arrays are not modified.',
 'all convex domains, x, p, all sample counts n >= 2',
 'All points on the segment, all n.',
 [D+'euclidean.py:sweep'])
p('C18','sample_grid returns exactly the grid points inside',
 'sample_grid returns exactly those points of the tensor grid of evenly spaced values between the bounds that lie inside the domain, each once.',
 'all bounded domains and grid sizes',
 'Unbounded dimension and grid size.',
 [D+'euclidean.py:sample_grid'])
p('C19','Sampling returns the requested number of points, all inside',
 'sample(draw) returns exactly draw points (none for draw <= 0), all inside the domain, whatever the random number generator returns.',
 'all domains (box, point, truncated normal, tensor product, two-point hull), all draws, all random streams',
 'Quantifies over all random streams.',
 [D+'euclidean.py:sample',D+'box.py:_sample',D+'normal.py:_sample',D+'tensor.py:_sample',D+'point.py:_sample',D+'convexhull.py:_sample'])
p('C20','Names always match the dimension',
 'names has exactly one entry per coordinate for every way of giving names (none, a string, a list); default names are pairwise distinct; a list of the wrong length is rejected; normalization and intersection preserve the count.',
 'all dimensions and all name inputs',
 'All dimensions.',
 [D+'euclidean.py:_init_names',D+'euclidean.py:names',D+'tensor.py:names'])
p('C21','Hit-and-run sampling never leaves a convex domain',
 'Every state and every returned point of the hit-and-run sampler lies inside the (convex) domain, for every sequence of random numbers and any interleaving of calls.',
 'all convex domains with sound extents, all random streams, all call histories',
 'State machine with unbounded history and arbitrary randomness.',
 [D+'euclidean.py:_hit_and_run',D+'euclidean.py:_sample'])
p('C22','Convex hull membership and sampling agree',
 'A point is inside a ConvexHullDomain (with zero tolerance in the limit) only if it is a convex combination of the given points and satisfies the other constraints; points produced by the two-point sampler are inside; converting with to_linineq keeps the same set.',
 'all point sets, all added constraints, all x',
 'Equivalence over all points and constraint sets.',
 [D+'convexhull.py:_isinside',D+'convexhull.py:coefficients',D+'convexhull.py:_sample',D+'convexhull.py:to_linineq'])
p('C23','LogNormal domain bounds contain every sample',
 'Every value returned by LogNormalDomain.sample lies in [lb, ub] of that domain, for every mean, covariance, offset, scaling and truncation.',
 'all parameters and all random streams',
 'All parameter combinations.',
 [D+'lognormal.py:__init__',D+'lognormal.py:_sample'])
p('C24','The total-degree index set is complete, duplicate-free and graded',
 'The multi-indices used by a tensor-product polynomial basis of degree p in m variables are exactly the m-tuples of naturals with sum <= p, each once, sorted by total degree; their number is C(m+p, p) = len(basis).',
 'all m >= 1 and all degrees p',
 'All dimensions and degrees.',
 ['psdr/basis.py:_full_index_set','psdr/basis.py:index_set','psdr/basis.py:PolynomialTensorBasis'])
p('C25','VC is V times the coefficients',
 'basis.VC(X, c) equals basis.V(X).dot(c) for every coefficient vector, including those with zero coefficients and for a matrix of coefficients.',
 'all degrees, dimensions, points, coefficient vectors',
 'All coefficient vectors (the code skips zero coefficients).',
 ['psdr/basis.py:V','psdr/basis.py:VC'])
p('C26','DV is the exact derivative of V',
 'basis.DV(X)[i,j,k] is the partial derivative of the j-th column of V at X_i with respect to coordinate k, in the caller\'s (unscaled) coordinates.',
 'all degrees, dimensions, points, scalings',
 'Derivative identities over all real points and all degrees.',
 ['psdr/basis.py:DV','psdr/basis.py:_dscale'])
p('C27','DDV is the exact, symmetric Hessian of V',
 'basis.DDV(X)[i,j,k,l] is the second partial derivative of column j at X_i and is symmetric in k,l.',
 'all degrees, dimensions, points, scalings',
 'Derivative identities over all real points and all degrees.',
 ['psdr/basis.py:DDV','psdr/basis.py:_dscale'])
p('C28','Basis scaling maps the data range to [-1,1] and roots are true roots',
 'set_scale makes every data coordinate map into [-1,1] (min to -1, max to 1); roots(c) returns, in the caller\'s coordinates, exactly the images of the roots in scaled coordinates, so evaluating the polynomial there gives zero.',
 'all data sets with non-degenerate range, all polynomials',
 'All data sets and polynomials.',
 ['psdr/basis.py:_set_scale','psdr/basis.py:_scale','psdr/basis.py:roots'])
p('C29','The Arnoldi basis is orthonormal, spans the polynomials and evaluates consistently',
 'The Vandermonde-with-Arnoldi construction returns Q with orthonormal columns and upper triangular R with V = Q R recursively, and evaluating the basis at the construction points with the stored R returns Q again.',
 'all point sets on which the construction does not break down, all total-degree index sets',
 'Induction over all columns and sizes.',
 ['psdr/basis.py:arnoldi','psdr/basis.py:arnoldi_X','psdr/basis.py:_update_vec','psdr/vandermonde.py:vandermonde_arnoldi'])
p('C30','Every Arnoldi column has an earlier parent column',
 'For every multi-index after the first in the graded total-degree order, _update_vec finds a strictly earlier column and a coordinate whose product is that index, so the construction is always well-founded.',
 'all dimensions, degrees and positions',
 'All sizes of index sets.',
 ['psdr/basis.py:_update_vec'])
p('C31','Lipschitz uncertainty bounds contain every compatible function',
 'For every function g that matches the data to within epsilon and satisfies |g(x)-g(y)| <= ||L(x-y)||, g(x) lies between the lower and upper bounds returned by uncertainty at every x.',
 'all L, all data, all epsilon, all query points, all compatible functions',
 'Quantifies over an infinite class of functions.',
 ['psdr/lipschitz.py:uncertainty','psdr/lipschitz.py:LowerBound','psdr/lipschitz.py:UpperBound'])
p('C32','Lipschitz bounds are ordered and tight at the data',
 'For data consistent with L (|f_i-f_j| <= ||L(x_i-x_j)||), the lower bound never exceeds the upper bound, both equal f_i at x_i, and both bounds are themselves Lipschitz with respect to L.',
 'all consistent data and all query points',
 'Continuum of query points and all data sets.',
 ['psdr/lipschitz.py:uncertainty'])
p('C33','Iterative projection onto evaluation constraints only grows H and ends feasible',
 'Each update of project_evals keeps H symmetric positive semidefinite, does not decrease it, and makes the treated constraint hold exactly; when the loop exits by its test, all constraints hold up to the stated tolerance.',
 'all starting H, all data, all iteration counts',
 'Loop invariant over unbounded iterations.',
 ['psdr/lipschitz_utils.py:project_evals'])
p('C34','Projection onto gradient constraints dominates every gradient',
 'After project_grads, H - g g^T is positive semidefinite for every supplied gradient g, and H dominates the H it started from.',
 'all starting PSD H, all gradient lists',
 'All list lengths and matrices; loop invariant.',
 ['psdr/lipschitz_utils.py:project_grads'])
p('C35','The Lipschitz matrix problem ranges over all symmetric matrices',
 'The parametrization H(alpha) = sum alpha_i E_i used by the solver builders reaches every symmetric matrix exactly once and has trace(H) equal to the linear objective used.',
 'all dimensions m and all symmetric matrices',
 'All dimensions.',
 ['psdr/lipschitz.py:_build_lipschitz_matrix_cvxopt','psdr/lipschitz.py:_build_lipschitz_matrix_param'])
p('C36','The fitted L reproduces H and is consistent with the data',
 'L returned after fit satisfies L^T L = H, and feasibility of H for the scaled data makes L consistent with the unscaled evaluations and gradients.',
 'all data, scalings, feasible H',
 'All matrices and data sets, including sign-degenerate data.',
 ['psdr/lipschitz.py:LipschitzMatrix._fit','psdr/lipschitz.py:fit','psdr/subspace.py:_fix_subspace_signs_grads'])
p('C37','The scalar Lipschitz constant is the smallest consistent one',
 'LipschitzConstant.fit returns the smallest constant consistent (up to epsilon) with every pair of samples and every gradient.',
 'all sample sets, gradients and epsilon',
 'Minimality over all constants and all data.',
 ['psdr/lipschitz.py:LipschitzConstant._fit'])
p('C38','Sign fixing keeps the subspace basis orthonormal',
 'Making columns of U monotone with respect to samples or gradients only flips signs: the result is still orthonormal, spans the same space, and each column is non-decreasing on the data.',
 'all orthonormal U, all samples and gradients',
 'All matrices and data including ties.',
 ['psdr/subspace.py:_fix_subspace_signs_samps','psdr/subspace.py:_fix_subspace_signs_grads'])
p('C39','The SAT encoding of projection designs is exact',
 'encode/decode between (metric, row, column) and positive literals is a bijection onto 1..n; satisfying assignments of the generated clauses are exactly the families of permutations with the first one the identity; adding a blocking clause removes exactly the designs containing the blocked partial assignment.',
 'all numbers of points and metrics, all assignments',
 'All problem sizes and all assignments.',
 ['psdr/sample/projection.py:encode','psdr/sample/projection.py:decode','psdr/sample/projection.py:projection_sample'])
p('C40','Latin hypercube designs hit every stratum once in every coordinate',
 'Every design returned for a box has, in each coordinate, exactly one point in each of the N equal strata, for every random stream; coordinate swaps preserve this.',
 'all N >= 2, dimensions, random streams, iteration counts',
 'All random streams and iteration histories.',
 ['psdr/sample/latin.py:_latin_hypercube_sample_box','psdr/sample/latin.py:latin_hypercube_maximin'])
p('C41','Sobol sampling returns exactly n points, all inside',
 'sobol_sequence(dom, n) returns exactly the first n points of the scaled sequence that lie inside the domain, in order.',
 'all domains, all sequences, all n',
 'All sequences and rejection patterns.',
 ['psdr/sample/sobol.py:sobol_sequence'])
p('C42','Poisson disk samples are separated and inside',
 'All points returned by poisson_disk_sample lie in the domain and are pairwise farther apart than r, for every random stream; the grid variant\'s neighbour search misses no close point.',
 'all domains, radii, random streams',
 'Invariant of a randomized loop of unbounded length.',
 ['psdr/sample/poisson.py:poisson_disk_sample','psdr/sample/poisson.py:poisson_disk_sample_grid'])
p('C43','Integer bisection finds the threshold',
 '_int_bisect(f, n1, n2) returns, for a monotone f with a sign change, the least n with f(n) > 0, using values at integers only, and always terminates.',
 'all monotone integer functions and all brackets',
 'All functions and bracket sizes.',
 ['psdr/sample/minimax.py:_int_bisect'])
p('C44','One-dimensional maximin and minimax designs are optimal',
 'maximin_design_1d gives N points in the interval whose minimum spacing is the largest possible; minimax_design_1d gives N points whose covering radius is the smallest possible.',
 'all intervals, all N, all competing designs',
 'Optimality over all competing designs.',
 ['psdr/sample/maximin.py:maximin_design_1d','psdr/sample/minimax.py:minimax_design_1d'])
p('C45','Greedy (coffeehouse) designs pick a farthest candidate each time',
 'Each point added by the greedy sampler maximizes, among the candidates considered, the distance to the points already chosen; designs are nested and all points are candidates.',
 'all candidate sets, metrics and N',
 'All candidate sets and lengths.',
 ['psdr/sample/maximin_coffeehouse.py:maximin_coffeehouse'])
p('C46','The sampling loop keeps points and values aligned',
 'At all times in a Sampler run (serial or batched, with failures and asynchronous completion in any order), the stored values are exactly the function values of the stored points, in order, and no point is lost or duplicated.',
 'all run lengths, all completion orders',
 'All schedules of asynchronous completions.',
 ['psdr/sample/sample.py:Sampler'])
p('C47','Discrete covering designs cover',
 'Every candidate point is within the target radius of some selected point when minimax_covering_discrete succeeds.',
 'all candidate sets and radii',
 'All candidate sets.',
 ['psdr/sample/minimax.py:minimax_covering_discrete'])
p('C48','Reducing L to full row rank keeps the metric',
 'low_rank_L(L) returns J with ||J x|| = ||L x|| for every x.',
 'all matrices and vectors',
 'All matrices, including zero and rank-deficient ones.',
 ['psdr/sample/util.py:low_rank_L'])
p('C49','unique_points keeps a separated representative set',
 'unique_points keeps points that are pairwise distinct beyond the tolerance; every dropped point is within tolerance of some other point of the input, and exact duplicates are kept exactly once.',
 'all point lists',
 'All lists of points.',
 ['psdr/geometry/geometry.py:unique_points'])
p('C50','Simplex samples are convex weights',
 'sample_simplex returns nonnegative weights summing to one for every dimension and every random stream, of the right length.',
 'all dimensions and random streams',
 'All random streams.',
 ['psdr/geometry/geometry.py:sample_simplex'])
p('C51','One-dimensional Voronoi vertices are exactly the candidates for the largest gap',
 'voronoi_vertex_1d returns the midpoints of adjacent points and the interval ends, and the fill distance (largest distance from any point of the interval to the nearest sample) is attained at one of them.',
 'all intervals and point sets',
 'Maximum over a continuum.',
 ['psdr/geometry/vertex.py:voronoi_vertex_1d','psdr/geometry/fill.py:fill_distance'])
p('C52','Evaluating a Function in normalized coordinates is evaluating it in application coordinates',
 'For a Function f on domain D, f(z) on normalized inputs equals the user function at unnormalize(z), for every combination of single/multiple functions, vectorized or not, single point or batch, in the same row order.',
 'all domains, user functions, call shapes and batches',
 'All functions and call-shape combinations.',
 ['psdr/function.py:Function.eval','psdr/function.py:Function.__call__'])
p('C53','Function gradients obey the chain rule in normalized coordinates',
 'Function.grad at z is the gradient of z -> f(unnormalize(z)); all gradient paths (user gradients, return_grad, vectorized or not) have the same index order.',
 'all domains, differentiable user functions, call shapes',
 'All functions and shapes.',
 ['psdr/function.py:Function.grad','psdr/function.py:Function'])
p('C54','Finite differences are exact on affine functions and consistent with call arguments',
 'The finite difference gradient of an affine function is its gradient for every step h; keyword arguments reach every evaluation it makes.',
 'all affine functions, steps and keyword arguments',
 'All functions and arguments.',
 ['psdr/function.py:Function'])
p('C55','Bounded polynomial fits really bound the data',
 'A polynomial approximation fitted with bound "lower" never exceeds the data at the samples and with "upper" is never below it (given an exact solver), in every fitting path of polynomial and polynomial-ridge approximations.',
 'all data, degrees, norms',
 'All data sets.',
 ['psdr/poly.py:linear_fit','psdr/polyridge.py:_fit_affine','psdr/polyridge.py:_fit_coef'])
p('C56','Ridge function values and derivatives factor through the projection',
 'A polynomial ridge function evaluated at x depends only on U^T x; its gradient is U times the gradient of the profile and its Hessian U H U^T; moving orthogonally to U changes nothing.',
 'all U, profiles, points',
 'All points and directions.',
 ['psdr/polyridge.py:PolynomialRidgeFunction','psdr/ridge.py'])
p('C57','Armijo line search either decreases or does not move',
 'linesearch_armijo returns a point whose residual norm satisfies the Armijo inequality for the returned step, or returns step 0 with the starting point and value unchanged; it evaluates at most maxiter times.',
 'all objectives, trajectories, directions, failure patterns of the objective',
 'All functions and exception patterns.',
 ['psdr/gn.py:linesearch_armijo'])
p('C58','Gauss-Newton never increases the residual and reports truthfully',
 'gauss_newton returns a point with residual norm no larger than at the start, and both the returned point and the status code are independent of the verbosity level; status 0 implies the gradient at the returned point is below tolerance.',
 'all problems, solvers, iteration counts, verbosity',
 'Loop invariant for all problems.',
 ['psdr/gn.py:gauss_newton'])
p('C59','The minimax solver is monotone and stays feasible',
 'minimax returns a point whose max_i f_i is not above that at the start and, with the linear trajectory and a convex domain, the point is in the domain. The radius of the trust region doubles after a full step and is halved for each further halving of the step.',
 'all functions, convex domains, solver answers, iteration limits',
 'Loop invariant for all problems and solver answers.',
 ['psdr/minimax.py:minimax'])
p('C60','The sequential LP solver is monotone and respects constraints',
 'sequential_lp returns a point with objective no larger than at the start; if the start satisfies the declared constraints then so does the result.',
 'all problems and solver answers',
 'Loop invariant for all problems and solver answers.',
 ['psdr/seqlp.py:sequential_lp'])
p('C61','Keyword merging is right-biased and keeps all keys',
 'merge(a, b) contains exactly the keys of both, with b winning on conflicts, and leaves a and b unchanged; merging is associative.',
 'all dictionaries',
 'All dictionaries.',
 ['psdr/misc.py:merge'])
p('C62','Data written for plotting reads back unchanged',
 'A PGF table built with add and written with write is read back by read with the same column names and values in the same order; ragged columns are rejected.',
 'all tables of any width and length',
 'All tables.',
 ['psdr/pgf.py:PGF'])
p('C63','Gauss quadrature weights and nodes are valid',
 'gauss(n, a, b) has weights that are nonnegative (positive for a < b) and sum to b-a, distinct points strictly between a and b, integrates exactly after affine mapping whatever the reference rule integrates exactly, and converges for every continuous function as n grows.',
 'all n, a, b',
 'All orders and intervals.',
 ['psdr/quadrature.py:gauss'])
p('C64','Active subspace matrices are weighted gradient outer products',
 'ActiveSubspace.fit uses C = sum w_i g_i g_i^T: C is symmetric PSD for nonnegative weights, x^T C x = sum w_i (g_i.x)^2, and the null space consists of directions orthogonal to all gradients with positive weight.',
 'all gradients and weights',
 'All data.',
 ['psdr/subspace.py:ActiveSubspace.fit'])
p('C65','Local linear models reproduce affine data exactly',
 'local_linear_grads returns the exact gradient when the samples come from an affine function and the points affinely span the space; one row per requested location.',
 'all affine functions, sample sets, weights',
 'All data sets.',
 ['psdr/local_linear.py:local_linear'])
p('C66','Standardization in the outer product gradient method is undone correctly',
 'With standardize=True, the estimated subspace of a linear ridge function is the span of its gradient in the original coordinates.',
 'all linear functions and data scalings',
 'All data.',
 ['psdr/opg.py:OuterProductGradient.fit'])
p('C67','Gaussian process predictions match the data up to the nugget',
 'At a sample point the predicted mean equals y_i - nugget*alpha_i, the weights are orthogonal to the polynomial columns, and predicted variances are never negative.',
 'all data and parameters',
 'All data.',
 ['psdr/gp.py:eval','psdr/gp.py:_log_marginal_likelihood'])
p('C68','Analytic demo gradients are the gradients of the demo functions',
 'The gradient functions of the demo problems (OTL circuit, robot arm, borehole, quadratic, affine) equal the derivative of the corresponding function at every point of the domain.',
 'all points where the functions are defined',
 'Continuum of points.',
 ['psdr/demos/otl_circuit.py','psdr/demos/robot_arm.py','psdr/demos/borehole.py','psdr/demos/polynomial.py'])
p('C69','Shadow envelope interpolation is a convex combination',
 'The linear interpolation matrix used by the shadow envelope has nonnegative rows summing to one and reproduces affine functions on the grid.',
 'all grids and query points in range',
 'All grids and points.',
 ['psdr/subspace.py:shadow_envelope'])
p('C70','The partial Lipschitz matrix has matching H and L and its optimizer is monotone',
 'H = L^T L for the returned U, J, alpha, and the objective of the returned iterate is never above that of the first iterate.',
 'all U, J, alpha, all solver answers',
 'Loop invariant and matrix identities.',
 ['psdr/lipschitz_partial.py:PartialLipschitzMatrix'])
p('C71','is_empty and is_unbounded of general domains tell the truth',
 'For a domain that is not a box, is_empty and is_unbounded, when they answer, answer True exactly when the set described by the constraints is empty, respectively contains points of arbitrarily large norm; the answer does not depend on which calls were made before.',
 'all domains, all random orthogonal matrices, all histories of corner/closest_point/constrained_least_squares calls, all exact solvers',
 'Quantifies over histories, domains and the random directions.',
 [D+'euclidean.py:EuclideanDomain.is_empty',D+'euclidean.py:EuclideanDomain.is_unbounded'])
p('C72','The Arnoldi basis returns exact gradients',
 'DV(X) of the Arnoldi basis holds the partial derivatives of the columns of V(X) with respect to every coordinate, at arbitrary points and not only at the construction points.',
 'all index sets, all stored coefficients, all points, all coordinates',
 'A derivative identity for all points and degrees; finite differences only test it approximately at samples.',
 ['psdr/basis.py:ArnoldiPolynomialBasis.DV'])
p('C73','polyfitA and polyvalA compute the best least-squares polynomial',
 'For data on which the construction does not break down, polyvalA applied to the result of polyfitA recovers the degree, never fails its assertion, and evaluates at every point a polynomial of total degree at most p whose sum of squared residuals on the data is minimal among all polynomials of total degree at most p.',
 'all data sets and degrees, all evaluation points, all competing polynomials',
 'Optimality is over an infinite set of polynomials.',
 ['psdr/vandermonde.py:polyfitA','psdr/vandermonde.py:polyvalA','psdr/vandermonde.py:vandermonde_arnoldi'])
p('C74', 'The gradients of the Lipschitz bound functions are their derivatives',
  'At a point at positive L-distance from a sample, the corresponding row of grad of LowerBound and UpperBound gives the directional derivative of that entry of eval in every direction; at zero distance the row is zero.',
  'all L, samples, points and directions', 'a finite difference check only samples points and directions', ['psdr/lipschitz.py: LowerBound, UpperBound'])
p('C75', 'The secular equation gives the smallest eigenvalue of H - g g^T',
  'A root, to the right of all eigenvalues of -H, of the function solved by dist_grad_constraints is minus the smallest eigenvalue of H - g g^T; there is at most one such root.',
  'all symmetric H, all gradients g, all roots', 'requires a statement about eigenvalues of every matrix', ['psdr/lipschitz_utils.py: dist_grad_constraints_slow'])
p('C76','Fill distance estimates are lower bounds and monotone','A fill distance computed from candidate points inside the domain (fill_distance, fill_distance_estimate) is attained in the domain, hence never exceeds the true fill distance; adding samples never increases it and adding candidates never decreases it.','all domains, metrics, sample sets and candidate sets','A test can only compare against a finite discretization of the domain.',['psdr/geometry/fill.py:fill_distance','psdr/geometry/fill.py:fill_distance_estimate'])
p('C77','Sphere samples are unit vectors chosen greedily','sample_sphere(dim, n, k) returns n unit vectors, and each one after the first is, among the k candidates drawn for it, the one whose nearest earlier point is farthest away (although the code compares inner products, not distances).','all dimensions, counts and random streams','Quantifies over all random streams; tests fix a seed.',['psdr/geometry/geometry.py:sample_sphere'])
p('C78','Rotating and sign-fixing a ridge fit only changes the basis of the subspace',
 'After fitting a polynomial ridge approximation, with or without rotation, the returned direction matrix U has orthonormal columns spanning the subspace found by the optimizer.',
 'all data, bases, norms, bounds and initial subspaces',
 'The failing inputs are those with a vanishing mean slope, a measure zero set never met by random tests.',
 ['psdr/polyridge.py:PolynomialRidgeApproximation._finish'])
p('C79', 'Gauss quadrature is exact to degree 2N-1',
  'gauss(N, a, b) returns N points and N weights such that the weighted sum of the values of any polynomial of degree at most 2N-1 equals its integral over [a, b].',
  'every N >= 1, every interval [a, b] (also reversed or empty), every real polynomial of degree at most 2N-1',
  'A test can only check a few N, a few intervals and a few monomials; the exactness is a statement about all N and a vector space of polynomials, and depends on the off-diagonal of the recurrence being right in every entry.',
  ['psdr/quadrature.py:gauss'])
p('C80', 'The active subspace captures the most gradient variation',
  'After ActiveSubspace.fit, singvals has one nonnegative decreasing entry per coordinate, every column of U is an eigenvector of C for the squared singular value, and the first n columns of U are orthonormal and maximize the weighted squared length of the projected gradients among all n-dimensional subspaces.',
  'all gradient samples, nonnegative weights and dimensions n',
  'Optimality is a statement about all subspaces, and the failing inputs (a direction orthogonal to the mean gradient) are structured ones that random tests do not meet.',
  ['psdr/subspace.py:ActiveSubspace.fit', 'psdr/subspace.py:_fix_subspace_signs_grads'])
p('C81', 'Perplexity bandwidths attain the requested perplexity',
  'perplexity_bandwidth(d, p) returns the unique nonnegative bandwidth at which the exponential kernel has perplexity p, for every list of squared distances for which such a bandwidth exists and 2 <= p < len(d); so local_linear works with default arguments whatever the units of the coordinates.',
  'all lists of squared distances and perplexities in range',
  'Random samples have distinct distances of order one; equally spaced samples and coordinates in small units are never tried.',
  ['psdr/local_linear.py:perplexity_bandwidth', 'psdr/local_linear.py:local_linear'])
p("C82", "Gradients of the remaining demo problems", "The gradient functions of the piston, Hartmann, Golinski gearbox, Nowacki beam and wing weight demo problems equal the derivative of the corresponding function at every point of the problem's domain.", "all points of the domains", "Continuum of points; finite differences cannot tell a rounded constant from an exact one.", ["psdr/demos/piston.py", "psdr/demos/hartmann.py", "psdr/demos/golinski.py", "psdr/demos/beam.py", "psdr/demos/wing_weight.py"])
p("C83", "A shadow envelope exists for any non-constant samples", "For any samples whose projected coordinates are not all equal, shadow_envelope returns arrays of lower and upper bounds that enclose all samples.", "all samples and grid sizes", "All sample configurations; sparse ones leave grid points untouched.", ["psdr/subspace.py:shadow_envelope"])
p("C84", "The likelihood gradient of the Gaussian process is exact", "The gradient passed to the optimizer is the derivative of the objective passed to it, for every structure of the distance matrix, all data and all parameters.", "all data, nuggets and parameters", "Continuum of parameters; a wrong term only slows the optimizer down.", ["psdr/gp.py:_log_marginal_likelihood"])
p('C85','Variable projection search keeps orthonormal columns',
 'Fitting a polynomial ridge approximation by variable projection from orthonormal starting directions returns orthonormal directions, with a residual no larger than at the start. Each search direction is tangent to the set of subspaces, does not increase the linearized residual and is the best linear correction when only the n^2 discarded singular values vanish; the line search path starts at the current subspace with that velocity and consists of orthonormal matrices.',
 'all samples, data, orthonormal starting directions, solver options and iteration counts',
 'A test sees a few fits; the invariant ranges over every iterate of every run and the linearized optimality over all competing directions.',
 ['psdr/polyridge.py:orth','psdr/polyridge.py:PolynomialRidgeApproximation._grassmann_trajectory','psdr/polyridge.py:PolynomialRidgeApproximation._fit_varpro','psdr/polyridge_vec.py','psdr/gn.py:gauss_newton'])
p('C86','Variable projection Jacobian is the derivative of the residual',
 'The Jacobian used in the variable projection fit is the derivative of the projected residual with respect to the directions in every direction, although the polynomial basis is rescaled (or reorthogonalized) for every set of directions; it vanishes on changes inside the subspace.',
 'all samples, data, directions whose projected samples determine the polynomial, and all perturbation directions; any basis of the polynomials of the given degree',
 'Finite differences at sample points do not exclude errors for other samples, other degrees or the effect of the rescaled basis.',
 ['psdr/polyridge.py:PolynomialRidgeApproximation._varpro_residual','psdr/polyridge.py:PolynomialRidgeApproximation._varpro_jacobian'])
p('C87','Lipschitz approximation is the best Lipschitz fit and the central interpolant',"A fitted Lipschitz approximation agrees at the samples with adjusted values that differ from the data by at most the reported epsilon; it is Lipschitz with respect to the given matrix everywhere, no Lipschitz function fits the data better in the chosen norm, Lipschitz data are reproduced with epsilon zero, and at every other point its value minimizes the worst error over all Lipschitz functions with the same values at the samples. Samples outside the domain, an empty sample set and mismatched lengths are rejected.","all sample sets, data, Lipschitz matrices, norms 1, 2 and infinity, evaluation points and competing Lipschitz functions","Optimality is a statement about all Lipschitz functions and all points; tests compare values at some points.",['psdr/lipschitz_approx.py:LipschitzApproximation'])
p('C88','Nonlinearity measure',"For distinct samples with non-constant values the reported nonlinearity is the least Lipschitz constant of the data after subtracting the best linear function, divided by the Lipschitz constant of the data. It lies in [0,1], is zero exactly for samples of an affine function, does not change when the values are scaled or shifted, and the returned coefficients are those of the linear function.","all sample sets and values, all competing linear functions, all scalings and shifts","The minimum ranges over all linear functions, the equivalence with affine data over all data sets.",['psdr/nonlin.py'])
p('C89','Smallest enclosing ball',"The returned center and radius describe a ball, in the metric given by L, that contains all points; no smaller ball does, the center is unique up to the kernel of L and lies in the convex hull of the points, and the radius is between half the diameter and the diameter of the set.","all finite point sets, all metrics and all competing balls","Minimality and uniqueness range over all balls; tests can only compare a few.",['psdr/geometry/miniball.py:miniball'])
p('C90','Important coordinates of a diagonal Lipschitz matrix',"The directions reported by a diagonal Lipschitz matrix are distinct coordinate directions in decreasing order of importance for the matrix fitted last, whatever calls were made on the object before.","all histories of fit calls (successful or not) and attribute queries on one object, all data, all solvers","Tests fit once and query once; the property is about all histories.",['psdr/coord.py:CoordinateBasedDimensionReduction.U','psdr/lipschitz.py:DiagonalLipschitzMatrix'])
p('C91','Voronoi vertices and exact fill distance in any dimension',"The Voronoi vertices returned for samples in a bounded polyhedral domain lie in the domain and are exactly the extreme points of the Voronoi cells cut by the domain, in the metric of L; the fill distance is the largest distance from a point of the domain to its nearest sample, and it is attained. The computation succeeds for samples in a bounded domain with interior points and an invertible metric.","all bounded polyhedral domains, sample sets, invertible metrics, and all points of the domain","Exactness is a maximum over a continuum of points; tests compare with random points, which only gives lower bounds.",['psdr/geometry/vertex.py:voronoi_vertex','psdr/geometry/fill.py:fill_distance'])
p('C92','Sampled Voronoi vertices stay in the domain and move away from the samples',"Every point returned by voronoi_vertex_sample satisfies all linear inequalities and equalities of the domain its starting point satisfied, whatever the random directions. Without randomization each pass moves away from the nearest sample, stops exactly on a constraint or where two samples are equally far, and never decreases the distance to the nearest sample; hence fill_distance_estimate lies between the largest such distance over the starting points and the true fill distance.","all polyhedral domains, metrics (also rank deficient), sample sets, starting points and random directions","The number of passes, active sets and directions is unbounded; a test sees particular points only.",['psdr/geometry/vertex.py:voronoi_vertex_sample','psdr/geometry/fill.py:fill_distance_estimate'])
p('C93','Block maximin designs stay in the domain and never get worse',"maximin_block returns the requested number of points, all satisfying the constraints of the domain when the initial points do, and the smallest distance between two points of the design in the metric of L never gets below that of the initial design. Cycles over the points are repeated until a cycle moves no point by xtol or more in any coordinate of the metric, or the limit is reached. The call succeeds for every number of points.","all polyhedral domains, metrics, initial designs, tolerances and numbers of cycles","The number of updates and the designs visited are unbounded; a test checks particular designs.",['psdr/sample/maximin.py:maximin_block'])
p('C94','Clustered minimax designs',"minimax_cluster returns, among the designs it visits (the initial one and then each made by replacing every center by the best center of the points nearest to it), one with the smallest covering distance on the discretization, with the same number of points and, when the metric separates points, inside the convex domain; it stops only when the centers have stopped moving, the clusters are unchanged from the previous pass, or the iteration limit is reached.","all discretizations, initial designs, metrics, exponents, tolerances, iteration limits and exact center solvers","The best-so-far bookkeeping must hold along every sequence of designs, and the hull argument needs every cluster.",['psdr/sample/minimax.py:minimax_cluster','psdr/sample/minimax.py:_cq_center_cvxpy'])
p('C95','Particle swarm minimax designs',"minimax_cluster_pso returns, among all designs scored by any particle in any iteration, one with the smallest covering distance on the discretization together with that distance; it has the requested number of points and lies in the convex domain when the initial designs, cluster centers and random points do; each initial design adds the candidate farthest from the points already chosen.","all domains, metrics, discretizations, numbers of particles and iterations, weights, random draws and replacements of the worst particle","The result depends on an unbounded history of random updates; a test sees particular draws.",['psdr/sample/minimax.py:minimax_cluster_pso','psdr/sample/minimax.py:_align_vector'])
p('C96','Lloyd minimax designs',"minimax_lloyd returns a design with the requested number of points in the domain. When all bounded Voronoi vertices are used, every step keeps the fill distance from increasing beyond the tolerance used to recognize ties; the iteration stops before the limit only when no point moved by xtol. A design passed in by the caller is not changed.","all bounded polyhedral domains, metrics, designs, tolerances and iteration limits, exact solvers","Monotonicity of the fill distance is a statement about all points of the domain and every iteration; a test compares finitely many.",['psdr/sample/minimax_lloyd.py:minimax_lloyd'])
p('C97','Scaled minimax designs',"minimax_scale returns the design passed in, scaled towards the center of the domain by a factor in [0, 1]; the result stays in a convex domain and has the same number of points; among the factors of the grid (which contains one) it has the smallest fill distance, so the fill distance never gets worse.","all domains, metrics, designs, numbers of grid points and scalar minimizers","The fill distance is a maximum over all points of the domain; the choice ranges over all designs.",['psdr/sample/minimax_scale.py:minimax_scale'])
p('C98','Initial samples for low rank metrics',"initial_sample returns as many points as asked for, all in the convex domain; for a metric that is no multiple of the identity their images under the low rank metric are the samples drawn from the convex hull of the images of the corners, and for a metric of rank one this hull is the whole range of the metric on the domain. The coefficients a hull reports for a point are nonnegative, and they are the weights of a convex combination equal to the point exactly when it lies in the hull.","all convex domains, metrics, hulls, scalings, random directions and sample counts, exact solvers","Ranges over all domains, metrics and random draws; a test sees single samples.",['psdr/sample/initial.py:initial_sample','psdr/domains/convexhull.py:coefficients'])
p('C99','The next point of a sequential maximin design is feasible and nearly best among its candidates','seq_maximin_sample returns a point of the domain. Among the candidates it generated (all in the domain) the product of its distances to the samples in the given metrics is at least slack times the largest one, and no candidate with such a score is farther from the samples in the Euclidean metric. With one metric its distance to the samples is at least slack times the distance of any Voronoi vertex found. It agrees in at least one metric with a Voronoi vertex found in that metric, and the search ends before all combinations of vertices are tried only if the constraints of all metrics can be met together. Without samples it is a corner of the domain in a direction spanned by the dominant singular vectors. The call succeeds for slack at most one whenever vertices and candidates exist.','all domains, metrics, samples, slacks, vertex sets and answers of the candidate generators','The search tries combinations of constraints in an order that depends on the distances; a test sees one domain and one metric.',['psdr/sample/seqmaximin.py:seq_maximin_sample'])
p('C100','An affine ridge fit is the best affine approximation','Fitting a polynomial ridge approximation of degree one without bounds in the 1, 2 or infinity norm gives a unit direction, and no affine function of the inputs is closer to the data in that norm. With bound lower or upper the result is the best bound along its direction, and should be the best affine bound.','all data, norms, exact solvers and bases of degree one','Optimality is a statement about all affine functions; a test compares with a few.',['psdr/polyridge.py:PolynomialRidgeApproximation.fit','psdr/polyridge.py:_fit_affine','psdr/polyridge.py:_fit_coef'])
p('C101','Vector valued ridge approximation: orthonormal directions, fixed part kept, never a worse fit','Approximating several outputs by polynomials of the same few linear combinations returns orthonormal directions; with a fixed subspace its span is part of the span of the result; and the best polynomials of the result fit the outputs (sum of squares) at least as well as all polynomials of the starting directions. One output given as a flat array should work like a column, and any starting matrix should lead to orthonormal directions.','all samples, any number of outputs, all starting matrices, options and exact factorizations','The claim compares with all polynomials of the starting directions, for every data set and every path of the iteration.',['psdr/polyridge_vec.py:polynomial_ridge_approximation','psdr/polyridge_vec.py:_varpro_residual','psdr/polyridge_vec.py:_varpro_jacobian','psdr/polyridge_vec.py:_varpro_residual_fixed','psdr/polyridge_vec.py:_varpro_jacobian_fixed','psdr/polyridge_vec.py:_gn_solver'])
p('C102','The initial subspace contains the gradients and orders its directions by importance','From samples and evaluations, gradients, or both, the initial subspace has orthonormal columns whose span contains every gradient given; its leading n columns capture at least as much of the gradients (given and estimated) as any other n orthonormal columns. For samples of an affine function that span the space, its first column is along the gradient of the function. Any number of samples for which gradients are estimated should give a result.','all samples, gradients, permutations and exact factorizations','Optimality is over all orthonormal columns, and the result depends on a random subset of the samples.',['psdr/initialization.py:initialize_subspace','psdr/misc.py:check_sample_inputs'])
p('C103','Stretch sampling adds a point of the slice that is farthest from the samples','For a list of metrics the stretched domain fixes, for every metric used, the coordinates along the metric to those of a point of the domain remaining so far; each such point is one of the candidates, and with exact vertices no point of the remaining domain is farther from the samples in that metric. The new sample is in the domain and meets all equations of the stretched domain. A metric for which the search fails is skipped, and the samples given are the ones distances are measured from for every metric.','all domains, samples, lists of metrics and answers of the vertex search','The answer depends on the list of metrics and on vertex searches over the domain; farthest is a claim about all points.',['psdr/sample/stretch.py:stretch_sample_domain','psdr/sample/stretch.py:stretch_sample','psdr/sample/stretch.py:_maximin_block_candidate'])
p('C104','A tensor basis represents exactly the polynomials of its total degree, each by one coefficient vector','For the monomial, Legendre, Chebyshev, Laguerre and Hermite bases, of any degree, number of variables and scaling to a box that is not flat: every coefficient vector gives a polynomial of at most this total degree, and every such polynomial has exactly one coefficient vector. Hence coefficients can be converted between bases without loss, the columns of the Vandermonde matrix are independent exactly if the points determine the polynomials, and a least squares fit to values of such a polynomial at such points is that polynomial everywhere.','all degrees, dimensions, families, scalings, polynomials and sample points','Tests compare a few values; this is about all polynomials, all points and all degrees.',['psdr/basis.py:PolynomialTensorBasis','psdr/basis.py:MonomialTensorBasis','psdr/basis.py:LegendreTensorBasis','psdr/basis.py:ChebyshevTensorBasis','psdr/basis.py:LaguerreTensorBasis','psdr/basis.py:HermiteTensorBasis','psdr/poly.py:PolynomialApproximation'])
p('C105','The uncertainty of a set contains the values a Lipschitz function can take on the set','For data that a Lipschitz function interpolates, the interval returned for a set contains the values of the function on the whole set; both ends are bounds at points of the set. With noise level epsilon, the interval also contains the values of functions that match the data to within epsilon, as for single points. The shadow of the uncertainty has one row per value of the direction on an equally spaced grid over the domain, and each row contains the values on the slice.','all data, Lipschitz matrices, convex domains, starting points and answers of the convex programs','The interval is a claim about all points of the set and all Lipschitz functions; the search is local and starts from random samples.',['psdr/lipschitz.py:LipschitzMatrix.uncertainty_domain','psdr/lipschitz.py:LipschitzMatrix.shadow_uncertainty','psdr/lipschitz.py:LowerBound','psdr/lipschitz.py:UpperBound','psdr/minimax.py:minimax'])
p('C106','Quadrature rules of domains','quadrature_rule(N) returns at most N points of the domain with one nonnegative weight each. On a box it is exact for polynomials of degree at most 2q-1 in each coordinate, where q is the largest number with q^m <= N. On a bounded convex domain a rule is returned for every N, and the rules converge to the integral over the domain for every continuous function. The Monte-Carlo weights add up to the volume, which is exact for boxes.','all N, dimensions, domains and continuous integrands','Exactness and convergence are statements about all polynomials and continuous functions; termination of the search for the number of points is a statement about all domains.',['psdr/domains/euclidean.py:EuclideanDomain.quadrature_rule','psdr/domains/euclidean.py:EuclideanDomain.volume','psdr/quadrature.py:gauss'])
p('C107','The reported stationarity measure of the sequential linear program is zero exactly at stationary points','The number printed as the KKT norm in every iteration is never negative, and it is zero exactly if no step decreases the linearized objective: for the 2-norm, the maximum norm and the 1-norm.','all values and Jacobians of the residual, all exact nonnegative least squares solvers','The users read the number as a certificate of optimality; tests at sample points do not show that it vanishes only at stationary points.',['psdr/seqlp.py:sequential_lp','psdr/seqlp.py:kkt_norm'])
p('C108','Samples of the boundary lie on the boundary and can be anywhere on it','Every point returned when sampling the boundary of a domain is in the domain and on its boundary (relative to the equality constraints), the number of points is the requested one, and every part of the boundary can be returned.','all domains, all random directions and all runs of an exact solver','Membership in the boundary is a statement about all neighbourhoods of the point, and the reach of the sampler one about all random choices.',['psdr/domains/euclidean.py:EuclideanDomain.sample_boundary','psdr/domains/euclidean.py:EuclideanDomain.random_direction','psdr/domains/linineq.py:LinIneqDomain.center','psdr/domains/box.py:BoxDomain._corner'])
p('C109','The alternating ridge fit never loses against its starting subspace','Fitting a polynomial ridge approximation in the one, two or sup norm, or with a one sided bound, returns orthonormal directions and a function that respects the bound and is at least as close to the data as every polynomial ridge function of the starting subspace that respects the bound. Every step uses the true residual and its derivative, and searches all directions orthogonal to the current subspace.','all data, starting subspaces, norms, bounds, options and all runs of the inner convex solvers','The comparison is with all polynomials of the given degree and the iterates depend on arbitrary solver answers.',['psdr/polyridge.py:PolynomialRidgeApproximation._fit_alternating','psdr/polyridge.py:PolynomialRidgeApproximation._trajectory','psdr/polyridge.py:PolynomialRidgeApproximation._residual','psdr/polyridge.py:PolynomialRidgeApproximation._jacobian','psdr/seqlp.py:sequential_lp'])
p('C110','Distances to the Lipschitz constraints are the sizes of the smallest perturbations','For every pair of evaluations the distance routine returns a number whose absolute value is the Frobenius norm of the smallest perturbation of the squared Lipschitz matrix that makes the constraint of the pair active, and whose sign tells whether the constraint holds; for a gradient the number is the radius within which every perturbation keeps the constraint, or the size of the smallest perturbation that restores it.','all matrices, evaluations and gradients','Minimality is a statement about all perturbations.',['psdr/lipschitz_utils.py:dist_eval_constraints','psdr/lipschitz_utils.py:dist_grad_constraints_slow'])
p('C111','Search directions of the partial Lipschitz matrix solve the linearized problem','The convex program for the search direction of the partial Lipschitz matrix has as constraints the linearizations of the constraints of the evaluations and gradients at the current iterate, restricted to directions orthogonal to the current subspace, so that its optimal value is never positive.','all iterates, data and directions','The claim compares the program with a derivative for all directions.',['psdr/lipschitz_partial.py:PartialLipschitzMatrix._U_descent'])
p('C112',"Projection designs use every Voronoi cell once",
  "A design returned by projection_design has M rows in the domain, and for each of the given projections the rows lie, one each, in the M Voronoi cells of that projection's design (row j in cell j for the first projection). Among the designs the SAT solver proposes the one with the best maximin score is kept; a cell found empty never excludes a design that can be built, so when the solver has run out the best of all designs has been kept. The call returns when it has counted maxiter designs.",
  "Every domain, number of points, list of projections and designs for them, every SAT solver and least squares solver keeping its contract, every sequence of solutions, with and without assumptions",
  "The designs come from a randomized SAT solver; whether the clauses admit exactly the designs that can be built, and whether the loop ends, concern all permutations and all orders of proposals.",
  ["psdr/sample/projection.py: projection_design, _voronoi_cell_point", "psdr/sample/latin.py: _score_maximin"])
p('C113',"Densities of random domains integrate to one",
  "The density pdf of a random domain is nonnegative and has integral one over the domain: for uniform domains, for normal domains with any mean and covariance, truncated or not, and for lognormal domains. Samples of a normal domain follow the density.",
  "Every dimension, bounds, mean, covariance, truncation, offset and scaling",
  "An integral over the whole domain can only be approximated by evaluating the density at points.",
  ["psdr/domains/random.py: pdf", "psdr/domains/uniform.py: _pdf", "psdr/domains/normal.py: _pdf, _sample", "psdr/domains/lognormal.py: _pdf"])
p('C114',"Normalized random domains carry the same measure",
  "For a normal or lognormal domain the normalized domain has the measure of the domain in normalized coordinates: x belongs to the domain exactly if normalize(x) belongs to the normalized domain, draws correspond, and pdf_norm(normalize(x)) times the determinant of the normalization is pdf(x).",
  "Every mean, covariance, truncation, offset, scaling and diagonal normalization, every point",
  "The claim compares two densities at every point, for every Cholesky factor the constructor may compute.",
  ["psdr/domains/normal.py: _normalized_domain, _pdf", "psdr/domains/lognormal.py: _normalized_domain, _pdf", "psdr/domains/euclidean.py: _normalize"])
p('C115',"Chebyshev centre and radius",
  "chebyshev_center, center and radius of a domain given by bounds and linear constraints return the centre and radius of a largest ball in the domain: the centre belongs to the domain, every point within the radius satisfies the bounds and inequalities (and belongs to the domain if it satisfies the equalities), and no larger ball has its centre in the domain and satisfies them. The radius is nonnegative exactly if the domain has a point, and every nonempty bounded domain has a centre.",
  "Every dimension, all finite or infinite bounds, all linear inequality and equality constraints",
  "The ball and its competitors range over all points; tests compare a few radii.",
  ["psdr/domains/linineq.py: chebyshev_center, radius, center", "psdr/domains/euclidean.py: A_aug, b_aug"])
p('C116',"Constructing a constrained domain from its arguments",
  "LinQuadDomain (and LinIneqDomain, BoxDomain) called with any combination of bounds, inequality, equality and quadratic constraints returns a domain exactly if the arguments show the dimension and all shapes agree with it and all radii are positive; the members of the domain are then exactly the points satisfying the constraints written. Numbers are accepted for one dimensional bounds and single right hand sides, a single row for a constraint matrix. Otherwise an exception is raised.",
  "Every combination of arguments (rectangular arrays), every tolerance and point",
  "There are infinitely many shapes and combinations; a test constructs a few.",
  ["psdr/domains/linquad.py: __init__, _init_dim, _init_lb, _init_ub, _init_ineq, _init_eq, _init_quad", "psdr/domains/linineq.py: __init__", "psdr/domains/box.py: __init__"])
p('C117',"Linear constraints of the nozzle wall",
  "The rows built for a wall of the nozzle hold for a design exactly if its control points satisfy the documented conditions: neighbouring x-coordinates keep the distance delta, the throat keeps its width and is lowest when asked, the radii are within their limits and the slopes before and after the throat are within theirs; cleaning up the matrices keeps the set of feasible designs.",
  "Every number of control points, assignment of control points to design variables, limits and designs",
  "The claim is about every design of every wall; a test evaluates a few designs of the shipped walls.",
  ["psdr/demos/_multif_linear_constraints.py: bspline, cleanupConstraintMatrix", "psdr/demos/_multif_domains3d.py: buildDesignDomain"])
p('C118',"Linear constraints of nozzle layers and baffles",
  "The rows built for a layer hold for a design exactly if neighbouring x-coordinates and neighbouring y-coordinates keep their distances, the slopes of the thickness in x are within their limits, and thicknesses neighbouring around the circumference differ by at most deltaz; the rows for baffles hold exactly if neighbouring baffles are between the smallest and largest distance apart. Layers with wrong numbers of values raise RuntimeError.",
  "Every grid of coordinates, assignment to design variables, limits and designs",
  "The claim is about every design and every grid; the index arithmetic of the rows depends on both grid sizes.",
  ["psdr/demos/_multif_linear_constraints.py: piecewiseBilinearAxial, baffles"])
p('C119',"Hit-and-run keeps the uniform distribution",
  "If the point at which the sampler of a bounded domain with linear and quadratic inequalities stands is uniformly distributed over the domain, then so is the next point, for every direction drawn, over the part of the domain where the direction is accepted; over any number of samples the probability of every set differs from the uniform one by at most the number of samples times the probability of redrawing a direction. Samples of a fresh domain object are uniformly distributed.",
  "Every bounded domain with linear and quadratic inequalities, direction law, measurable set and number of samples",
  "The claim is about probability distributions over all starting points and all draws.",
  ["psdr/domains/euclidean.py: EuclideanDomain._hit_and_run, _sample, sample, random_direction"])
p('C120', 'Volume of domains',
  'volume() of a box, or a product of boxes, is the volume of the set; for a box with an infinite bound it is infinite, except that a box which is also flat in some direction gives nan although its volume is zero. For every other domain the result is a Monte Carlo estimate with finite normalization bounds: over independent uniform random numbers its mean is the volume of the points of the normalization box accepted by isinside, its variance is V(W-V)/N for the volume W of the normalization box, and so it converges in probability as N grows. If the normalization box contains the domain the mean is at least the volume of the domain, and converges to it as the tolerance of isinside goes to zero; at a positive tolerance it is not equal to it. Infinite normalization bounds raise OverflowError. The Monte Carlo quadrature rule has weights adding up to the volume, and integrates every integrable function exactly on average over a box.',
  'all boxes and products of boxes; all other domains with finite normalization bounds and measurable accepted set (shown for linear, quadratic, normal constraints), all numbers of draws, all integrands',
  'The result is random: its mean, variance and convergence are statements about a distribution, and tests look at one draw with a wide margin.',
  ['psdr/domains/euclidean.py: volume, quadrature_rule, is_box_domain', 'psdr/domains/tensor.py: is_box_domain'])
p('C121', 'One-point domains',
  'is_point of a domain that is not a box: a domain with exactly one point is reported as a point, and so is every bounded nonempty domain whose points agree to the tolerance of np.isclose in every coordinate; an empty domain never is, and does not raise. If the answer is yes, the domain is nonempty and bounded, and any two of its points are at most n(1e-8 + 1e-5 R) apart, where R bounds the coordinates. The answer is remembered. Because the tolerance is relative to the distance from the origin, the unit square at (1e6, 1e6) given by inequalities is reported to be a point, and sample(k) returns k copies of one point. The random walk of a domain without Chebyshev center starts at the mean of extreme points of the domain, which lies in the domain.',
  'all domains (with right normalization) other than boxes, all orthogonal matrices, all histories of calls before the query',
  'A test can only look at single domains; the answer involves a random matrix, a solver and the position of the domain, and a cached value.',
  ['psdr/domains/euclidean.py: is_point, _corner_center, _sample'])
p('C122', 'Symmetries of Gaussian process fits, and refits',
  'For given length scales, a Gaussian process fit does not depend on which eigenvectors the eigenvalue routine returns; reordering the samples changes neither the objective nor any prediction; moving all samples moves the predictions; predictions are linear in the values; and if no eigenvalue of the system is dropped, values of a polynomial of the chosen degree are reproduced exactly at every point. A successful fit depends on the last data only. Two expectations fail: the argument L0 is not the starting point of the search (its exponential is), and a fit that raises an error leaves the object with the new samples and the old weights.',
  'all samples, values, nuggets, structures, permutations, translations, eigenvalue routines, histories of fits',
  'The statements compare runs on related inputs for all inputs; tests use particular data and tolerances.',
  ['psdr/gp.py: GaussianProcess.fit, _fit, _fit_init, _log_marginal_likelihood, eval, _make_L'])
p('C123','An answer that a domain is empty is final',
 'Once closest_point or constrained_least_squares of a domain object has raised EmptyDomainException, every later well-formed call of closest_point, constrained_least_squares or corner on that object raises EmptyDomainException again, whatever the optimizer would reply the next time.',
 'all domains, all histories of calls before and after, all solver replies (no assumption on the solver)',
 'a test runs one solver and a few calls; the claim is about every interleaving of calls and every reply of the solver',
 ['psdr/domains/euclidean.py: EuclideanDomain.closest_point, EuclideanDomain.constrained_least_squares, EuclideanDomain.corner'])
p('C124','Convergence studies of subspaces',
 'subspace_convergence returns one angle and one number of points for each number of samples; the numbers are those the sampler delivered; the first angle is pi/2, each later one lies in [0, pi/2], is zero exactly if one of the two consecutive subspaces contains the other and pi/2 exactly if a unit vector of the smaller one is orthogonal to the other; the study succeeds exactly if every sampling and every fit succeeds and no subspace is zero.',
 'all samplers (also random ones), functions, domains, lists of sample numbers and dimension reduction objects whose fits depend on their own data only',
 'the angles are characterized for all subspaces and all histories of fits on a stateful object; tests check that the call runs',
 ['psdr/study.py: subspace_convergence','psdr/coord.py: CoordinateBasedDimensionReduction.U'])
p('C125','Derivative checks',
 'check_derivative, check_gradient, check_jacobian and check_hessian return the largest error of the claimed derivative over the coordinates (smallest over the steps): exactly for polynomials of degree two (one for check_gradient: residuals of degree one), up to M h^2/6 for smooth functions; zero is returned exactly if the derivative is right.',
 'all functions, claimed derivatives, points and nonempty lists of nonzero steps (also the default list)',
 'the checks are themselves the tests of derivatives; that they detect every error has to be proved for all functions',
 ['checkder/checkder.py: check_jacobian','checkder/checkder.py: check_gradient','checkder/checkder.py: check_derivative','checkder/checkder.py: check_hessian'])
p('C126','Intrinsic dimension and forbidden directions',
 'intrinsic_dimension is the dimension of the set of feasible points. The directions drawn for random walks and sweeps, after projection on the complement of the basis of forbidden directions, are exactly those which the equality constraints allow and which are parallel to the domain (to the hull of its points for a convex hull).',
 'all plain domains with a point strictly inside the inequality constraints; all convex hulls with equality constraints; all random vectors',
 'the dimension of the feasible set and the span of a hull are statements about infinitely many points',
 ['psdr/domains/euclidean.py: intrinsic_dimension, _A_eq_basis, random_direction','psdr/domains/convexhull.py: _A_eq_basis'])
p('C127','Asynchronous evaluation',
 'eval_async returns one future per row, in row order; in whatever order the scheduler executes the tasks of this and other calls, repeats them or loses results, a future that is done holds the values the functions have at its row, and joining the results gives eval. call_async does the same as a call.',
 'all histories of calls, executions and losses of results, before and after the call; all functions, domains, rows and keyword arguments',
 'the order of execution is up to the scheduler; a test sees one order',
 ['psdr/function.py: Function.eval_async, Function.call_async, Function.__init__'])
p('C128','Projection samples and Latin hypercube samples of general domains',
 'Every sample returned by projection_sample consists of points of the domain, and for every projection each of the projected targets is the nearest one to exactly one point; a Latin hypercube sample of a domain has one point in each of N equal pieces of the extent of every coordinate. The search ends for every behaviour of the solvers, and None is returned only if there is no such sample.',
 'all domains, projections, numbers of samples, targets, sequences of solutions of the SAT solver, maxiter',
 'the outcome depends on a randomized SAT solver and on cells being empty; a test sees one run, and absence of a design can not be tested',
 ['psdr/sample/projection.py: projection_sample','psdr/sample/latin.py: latin_hypercube_sample, latin_hypercube_maximin'])
p('C129','The Lipschitz matrix is a smallest one; its symmetries',
 'The matrix H found by LipschitzMatrix.fit is consistent with the samples and gradients and no consistent matrix has a smaller trace. Hence more data never lower the trace, the order of the data and repetitions do not matter, changing the units of the output or the origin scales it by the square of the factor, rotating and shifting the inputs leaves it unchanged, it is never more than m times the square of a Lipschitz constant, and directions orthogonal to all differences of samples and all gradients are ignored. The fit succeeds exactly if equal points have values within epsilon.',
 'all dimensions, samples, gradients, epsilon >= 0, optimal solvers, eigensolvers, orthogonal matrices, shifts and scalings',
 'minimality compares with every consistent matrix, and the symmetries relate pairs of runs on transformed data',
 ['psdr/lipschitz.py: LipschitzMatrix.fit, LipschitzMatrix._build_lipschitz_matrix_param, LipschitzMatrix._build_lipschitz_matrix_cvxpy'])
p('C130','The constraints handed to the optimizers describe the domain',
 'The list of constraints a domain builds for an optimization variable x can be built, and a point satisfies all of them exactly if it is in the domain: bounds (skipping infinite ones), linear inequalities, linear equalities, quadratic constraints, each factor of a product acting on its own coordinates. The same constraints in normalized coordinates describe the normalized domain.',
 'all well-formed domains (boxes, linear and quadratic domains, hulls, products), all points of the right length',
 'the constraints are used by solvers over all points; a test checks finitely many points of finitely many domains',
 ['psdr/domains/linquad.py: LinQuadDomain._build_constraints','psdr/domains/linquad.py: LinQuadDomain._build_constraints_norm','psdr/domains/convexhull.py: ConvexHullDomain._build_constraints','psdr/domains/tensor.py: TensorProductDomain._build_constraints','psdr/domains/unbounded.py: UnboundedDomain._build_constraints'])
p('C131','The polynomial demo functions and their gradients',
 'AffineFunction and QuadraticFunction evaluate the polynomial with the given coefficients (identity, zero, zero and the cube by default) at the unnormalized point, one value for a point and a column for several, and their gradient is the gradient of that function of normalized points. The constructor rejects coefficients of the wrong shape, and coefficients that do not match the domain are rejected at every evaluation.',
 'all coefficients, domains and points',
 'a gradient claim ranges over all coefficients and points; the tests only use symmetric matrices',
 ['psdr/demos/polynomial.py: AffineFunction','psdr/demos/polynomial.py: QuadraticFunction'])
p('C132','Sampled Voronoi vertices for the minimax design',
 'The points that minimax_lloyd uses in place of all Voronoi vertices lie in the domain, no two of them are within 1e-8, and every node of the design has at least one of them in its Voronoi cell. The update fails only for domains with quadratic constraints or without inequalities.',
 'all nodes, samples, draws, metrics, domains, QR factorizations and tie orders',
 'which vertices are found depends on random draws, and the tolerance effects need special positions',
 ['psdr/sample/minimax_lloyd.py: _update_voronoi_sample','psdr/sample/minimax_lloyd.py: minimax_lloyd','psdr/geometry/vertex.py: voronoi_vertex_sample'])
p('C133','Polynomial fits are best polynomials whatever the basis, and reproduce polynomials',
 'PolynomialApproximation.fit returns a polynomial of at most the given total degree that respects the bound at the samples and is closest to the data in the given norm among all such polynomials, whichever of the six bases is named. Data of a polynomial of that degree are reproduced, and the polynomial itself is returned if the samples determine it (always so with the Arnoldi basis). In the 2-norm the values at the samples do not depend on the basis, follow scaling of the data and addition of polynomials, and do not change under invertible affine maps of the inputs or reordering. All data can be fitted unless the samples are equal in a coordinate (tensor bases) or do not determine the polynomials (Arnoldi). fit_fixed_subspace has the same properties for polynomials of U^T x. The constructors accept exactly the documented arguments.',
 'all samples, data, degrees, bases, norms, bounds, matrices U, exact solvers',
 'optimality, uniqueness and invariance are statements over all polynomials and all data; a test sees one data set',
 ['psdr/poly.py: PolynomialApproximation','psdr/poly.py: linear_fit','psdr/polyridge.py: PolynomialRidgeApproximation.__init__','psdr/polyridge.py: fit_fixed_subspace','psdr/basis.py: ArnoldiPolynomialBasis'])
p('C134','Active subspaces turn with the coordinates, find the directions of ridge functions and are exact for polynomials',
 'The singular values reported by ActiveSubspace are determined by the gradients and weights, and so is every direction with a simple singular value: neither the order of the samples nor the decomposition routine matters, rotating the inputs rotates them, scaling the function scales the singular values and a negative factor turns the directions around. For a function of A^T x with k columns in A at most k singular values are nonzero and their directions lie in the range of A; every gradient is a combination of these directions. fit_function on a box with at least max(d,2)^m samples is exact for polynomials of total degree d: C is the integral of the gradient outer products, its null directions are exactly those in which the polynomial is constant, and the polynomial is a function of the reported directions.',
 'all gradients, weights, rotations, ridge functions (any profile), polynomials, boxes, sample numbers, decomposition and eigenvalue routines',
 'equivariance and exactness are relations between infinitely many runs and statements about all functions of a class',
 ['psdr/subspace.py: ActiveSubspace.fit','psdr/subspace.py: ActiveSubspace.fit_function','psdr/subspace.py: _fix_subspace_signs_grads','psdr/domains/euclidean.py: quadrature_rule'])
p('C135','Shadow plots show the samples at their active coordinates and the profile of the ridge function',
 'A shadow plot draws for every sample the point with its active coordinates u^T x (one or two of them) and the value f(x), in the order of the samples and nothing else, and the file that is written reads back as the same columns; samples or directions of the wrong dimension and any other plot dimension are refused before anything is drawn or written. For a ridge function the plot also shows the response: over exactly the range of the active coordinates, at every grid point t the value taken at every x with u^T x = t; the response is written to a second file next to the first one. The samples default to those of the object. If the numbers of samples and values differ the plot raises.',
 'all objects, samples, values, directions, file names, with and without an axis or a file',
 'all samples, directions and file names; that the curve is the graph of the profile concerns all points of the fibre over each grid point',
 ['psdr/subspace.py: SubspaceBasedDimensionReduction.shadow_plot','psdr/ridge.py: RidgeFunction.shadow_plot','psdr/polyridge.py: PolynomialRidgeApproximation.fit_fixed_subspace','psdr/pgf.py: PGF'])
p('C136','The demo problems are defined on their domains',
 'At every point of its domain the function and the gradient of each demo problem (OTL circuit, borehole, robot arm, piston, Hartmann, Golinski gear box, Nowacki beam, wing weight) evaluate to real numbers: no division by zero, no logarithm, root or fractional power outside its range. The flow of the borehole, the voltage of the circuit, the cycle time of the piston, the weight of the wing and the quantities of the beam are positive.',
 'all points of the design domains and of the uncertain domain of the borehole function',
 'a statement about every point of a box; near a singularity a test sees finite numbers',
 ['psdr/demos/otl_circuit.py: otl_circuit, otl_circuit_grad','psdr/demos/borehole.py: borehole, borehole_grad, build_borehole_uncertain_domain','psdr/demos/robot_arm.py: robot_arm, robot_arm_grad','psdr/demos/piston.py: piston, piston_grad','psdr/demos/hartmann.py: u_ave, u_ave_grad, Bind, Bind_grad','psdr/demos/golinski.py: golinski_volume, golinski_constraint1 ... 25','psdr/demos/beam.py','psdr/demos/wing_weight.py: wing_weight, wing_weight_grad'])
p('C137','A saved contour plot contains the contour lines',
 'Saving a contour plot writes one block for every contour line, with the level, the number of points and the points in order, closed lines ending where they begin; reading the file gives back all lines with their levels and in order. Unknown formats are refused before the file is opened.',
 'all contour sets, levels, paths and codes',
 'all sequences of codes and all decompositions of paths into lines; a test sees one plot',
 ['psdr/pgf.py: save_contour'])
p('C138','The class tests of domains are right',
 'A domain that says it is a box is exactly the set of points between its bounds; one that says it is specified by linear constraints is exactly the set of points meeting the bounds and linear constraints it exports; one that says it is linear-quadratic is exactly the set of points meeting all constraints it exports. Boxes are linear domains, linear domains are linear-quadratic; a product is in a class exactly if its factors are.',
 'all domain objects, products and points',
 'all constraint sets and all points; a test compares flags of a few domains and never the sets',
 ['psdr/domains/domain.py: is_linquad_domain, is_linineq_domain, is_box_domain','psdr/domains/euclidean.py: _is_linquad_domain','psdr/domains/convexhull.py: _is_box_domain','psdr/domains/tensor.py: _is_linquad_domain','psdr/sample/latin.py: latin_hypercube_sample'])
p('C139','Calling a surrogate is evaluating it',
 'For every class of functions: calling, evaluating and predicting give the same values and evaluate the function once, keyword arguments reach the evaluation, calling with return_grad gives the value and the gradient, each computed once and the value first. A gradient or hessian a class does not define is refused.',
 'all subclasses of BaseFunction (any set of overridden methods), points, keyword arguments and recursion limits',
 'all sets of overrides and all recursion limits; a test calls a few classes that define everything',
 ['psdr/function.py: BaseFunction','psdr/gp.py: GaussianProcess.eval','psdr/lipschitz_approx.py: LipschitzApproximation.eval'])
p('C140','After a rotated ridge fit the directions are ordered and point uphill',
 'With rotate = True the slopes of the fitted profile along different directions are uncorrelated over the samples, the directions come in decreasing order of mean square slope, and the mean slope of the profile over the projected samples is positive along every direction.',
 'all samples that determine the profile, data, subspaces, polynomial bases, exact solvers and singular value decompositions, bounds',
 'all data, subspaces and decompositions; a test compares a few fits of one direction',
 ['psdr/polyridge.py: PolynomialRidgeApproximation._finish'])
p('C141','Refitting forgets the past, failed fits change nothing',
 'For every history of fits of one object: a fit succeeds exactly if it succeeds for a new object and then the object answers as the new object does; a fit that raises does not change the answers. So the object always answers as a new object fitted to the last data that could be fitted.',
 'all histories of fits (successful and failing, of any data and dimensions) of polynomial, ridge and Lipschitz approximations, Lipschitz matrices and constants and active subspaces; all questions',
 'all histories and all failures; a test refits once',
 ['psdr/poly.py: PolynomialApproximation.fit','psdr/polyridge.py: PolynomialRidgeApproximation.fit_fixed_subspace','psdr/lipschitz_approx.py: LipschitzApproximation.fit','psdr/lipschitz.py: LipschitzMatrix.fit, LipschitzConstant.fit','psdr/subspace.py: ActiveSubspace.fit'])
p('C142','Objects and calls do not share arrays with the caller',
 'Whatever arrays exist, whatever is passed to the constructor or fit, and whatever the caller does afterwards with arrays they passed, made or obtained from the properties of the object, the data of the object stay as they were; a copy of a domain is independent of the original; calls do not change the arrays passed to them.',
 'all heaps, all arguments, all histories of writes, allocations and reads of properties',
 'A test would have to write into every array after every call; aliasing only shows in particular histories.',
 ['psdr/domains/linquad.py: _init_lb, _init_ineq, _init_quad, lb, ub, A','psdr/domains/convexhull.py: X','psdr/domains/point.py: PointDomain','psdr/sample/sample.py: Sampler','psdr/subspace.py: ActiveSubspace.U, C, singvals','psdr/lipschitz.py: LipschitzMatrix.__init__, H, L','psdr/lipschitz_partial.py: U, J','psdr/polyridge.py: PolynomialRidgeFunction','psdr/basis.py: PolynomialTensorBasis.__init__, ArnoldiPolynomialBasis.V','psdr/domains/euclidean.py: sweep','psdr/sample/minimax_lloyd.py: minimax_lloyd','psdr/sample/minimax.py: minimax_cluster'])
p('C143','Arrays of integers mean the same numbers as arrays of floats',
 'Evaluating a polynomial basis or polynomial, its gradient, or starting a design routine at an array of integers has the outcome it has at the same numbers stored as floats.',
 'all bases, degrees, points and start designs; both element types',
 'Tests draw random floats; integer arrays take other paths in numpy (stores drop fractions, operations in place are refused) in each routine.',
 ['psdr/basis.py: PolynomialTensorBasis.V, DV, ArnoldiPolynomialBasis.V, arnoldi_X','psdr/poly.py: PolynomialFunction.eval','psdr/geometry/vertex.py: voronoi_vertex_sample','psdr/sample/maximin.py: maximin_block','psdr/sample/minimax_lloyd.py: minimax_lloyd'])
p('C144','Membership and box samples in floating point arithmetic',"In arithmetic with relative error u per operation, whatever order of summation the numerical library uses: a point accepted by isinside with tolerance tol satisfies all constraints up to tol plus the rounding errors, and a point which satisfies them up to tol less the rounding errors is accepted; in double precision with at most a thousand operations per constraint and sums of absolute values of at most a million, the rounding errors are below a tenth of the default tolerance. Samples of a box pass the box's own test when the widths are not huge, corners of a box always pass it. A point which satisfies an equality constraint exactly is accepted.",'all formats and rounding modes without overflow and underflow, all constraints, points, tolerances, orders of summation (with or without fused multiply-add)','a test samples points for one library and one machine; rounding depends on the order in which the library adds','psdr/domains/euclidean.py:_isinside_bounds _isinside_ineq _isinside_eq _isinside_quad|psdr/domains/linquad.py:LinQuadDomain._isinside|psdr/domains/box.py:_sample _corner'.split('|'))
p('C145','Normalization in floating point arithmetic',"In arithmetic with relative error u per operation: normalizing a point and converting it back returns every coordinate up to six roundings relative to its distance from the centre used and one relative to its size, for all finite bounds, also equal ones; points of a box are normalized into [-1, 1].",'all formats and rounding modes without overflow and underflow, all finite bounds, all points, all orders of summation','a test samples bounds; the accuracy depends on all of them','psdr/domains/euclidean.py:_normalize _unnormalize _normalize_der _unnormalize_der _center'.split('|'))
p('C146','Finite difference gradients in floating point arithmetic',"In arithmetic with relative error u per operation, a finite difference gradient with step h is close to the gradient of the function: every entry is off by at most the curvature times the step, the error of the function values over the step, and the rounding of the moved coordinate over the step; a function which is not constant does not get a zero gradient everywhere.",'all formats and rounding modes without overflow and underflow, all steps and points of the format, all functions with bounded curvature along the coordinate, all evaluation errors','a test compares gradients of a few functions at points of moderate size','psdr/function.py:Function.grad'.split('|'))
p('C147','Polynomial evaluation in floating point arithmetic is backward stable',"In arithmetic with relative error u per operation, the value computed for a polynomial in the monomial basis at a (scaled) point is the exact value at that point of a polynomial whose coefficients each differ from the given ones by at most degree + dimension + number of terms roundings, for every order of summation in the library; this holds for eval and for the product VC without the matrix, for every column of coefficients. Points between the bounds of the scaling are scaled into [-1, 1] without any excess, the bounds to the ends.",'all formats and rounding modes without overflow and underflow, all dimensions, index sets, coefficients and points, all orders of summation with or without fused multiply-add','a test compares values at a few points with a tolerance','psdr/basis.py:PolynomialTensorBasis.V PolynomialTensorBasis.VC PolynomialTensorBasis._scale MonomialTensorBasis|psdr/poly.py:PolynomialFunction.eval'.split('|'))
p('C148','The Chebyshev basis is accurate in floating point arithmetic',"In arithmetic with relative error u per operation, the Chebyshev polynomial of degree n computed by the recurrence at a point of [-1, 1] differs from cos(n arccos x) by at most 7 n^2 u, as long as this is at most one, and the entries of the Vandermonde matrix of the tensor product basis are accurate accordingly.",'all binary formats and rounding modes without overflow and underflow, all degrees, all points of the format in [-1, 1], all dimensions and indices','a test evaluates a few degrees; whether the errors of the recurrence grow exponentially shows only for large ones','psdr/basis.py:ChebyshevTensorBasis PolynomialTensorBasis.V'.split('|'))
p('C149','Moving inside a box in floating point arithmetic',"In arithmetic with relative error u per operation, extent from a point of a box is finite exactly if the direction is not zero, it is zero exactly if the point lies on a face and the direction leaves through it, and the computed point x + beta*p passes isinside for every beta between zero and the extent, for every tolerance of at least three roundings of the width of the box.",'all formats and rounding modes without overflow and underflow, all boxes with finite bounds, all points and directions','a test tries some directions; an excess by rounding shows for few of them','psdr/domains/euclidean.py:_extent_bounds _isinside_bounds|psdr/domains/box.py:BoxDomain._extent'.split('|'))
p('C150','Uncertainty intervals in floating point arithmetic',"In arithmetic with relative error u per operation, the bounds of the uncertainty interval of a Lipschitz matrix agree with the largest of the f_j - ||L(x - x_j)|| and the smallest of the f_j + ||L(x - x_j)|| up to an error proportional to u and to the size of |L||x| + |L||x_j| and of the values; the value of every function which satisfies the Lipschitz condition lies in the interval up to this error; at a data point the interval contains no other value; the lower end is at most the upper one.",'all formats and rounding modes without overflow and underflow, all matrices, data and test points, all orders of summation','a test has a few data points in general position','psdr/lipschitz.py:LipschitzMatrix.uncertainty'.split('|'))
p('C151','The Legendre basis is accurate in floating point arithmetic',"The Legendre polynomials are at most one in absolute value on [-1, 1], and in arithmetic with relative error u per operation the polynomial of degree n computed by the recurrence at a point of [-1, 1] differs from the exact value by at most 15 n^2 u, as long as this is at most one; the entries of the Vandermonde matrix of the tensor product basis are accurate accordingly.",'all binary formats and rounding modes without overflow and underflow, all degrees, all points of [-1, 1], all dimensions and indices','a test evaluates a few degrees; whether the errors of the recurrence grow exponentially shows only for large ones','psdr/basis.py:LegendreTensorBasis PolynomialTensorBasis.V'.split('|'))
p('C152','Active subspaces and Monte Carlo integrals converge',"If the gradients passed to ActiveSubspace.fit are those at independent samples of one distribution, then almost surely, as the number of samples grows: C converges to the mean outer product of the gradient, the squared singular values converge to its eigenvalues, the first n reported directions capture in the mean as much of the gradient as any n-dimensional subspace, up to any tolerance, the reported subspace converges to the leading eigenspace if there is a gap, and single directions converge with their signs if the eigenvalue is simple and the mean gradient has a component along the eigenvector. The Monte Carlo quadrature rules of a domain converge to the integral for every integrable function.",'all distributions with square integrable gradients, all dimensions, almost all sequences of samples, all singular value decompositions','a test sees finitely many samples; convergence is a statement about the limit and about almost all sequences','psdr/subspace.py:ActiveSubspace.fit|psdr/domains/euclidean.py:EuclideanDomain.quadrature_rule'.split('|'))
p('C153','Lipschitz constants, matrices and bounds converge as the samples fill the domain',"Let f be continuous on a set and the samples come arbitrarily close to every point of it. Then the traces of the matrices found by LipschitzMatrix.fit on the first N samples never decrease and converge to the smallest trace of a Lipschitz matrix of f on the whole set; the matrices themselves converge if that matrix is unique; the lower and upper bounds of uncertainty computed with the fitted matrices converge to f at every point of the set; the constants found by LipschitzConstant.fit at distinct samples never decrease and converge to the least Lipschitz constant of f on the set, or grow without bound if there is none. Independent uniform samples of a convex domain with interior have these properties almost surely.",'all sets, all continuous functions on them, all sequences of samples that fill the set; all solvers returning a feasible matrix of smallest trace; almost all sequences of independent uniform samples','a test sees finitely many samples; convergence is a statement about the limit, for every filling sequence','psdr/lipschitz.py:LipschitzMatrix.fit|psdr/lipschitz.py:LipschitzMatrix.uncertainty|psdr/lipschitz.py:LipschitzConstant.fit|psdr/domains/euclidean.py:EuclideanDomain.sample'.split('|'))
p('C154','Boxes, segments, simplices and spheres are sampled uniformly',"If the random number generators deliver independent numbers, uniform in [0,1] or standard normal: the rows returned by sample of a bounded box with interior are independent and uniformly distributed over the box; a sample of the hull of two points is uniformly distributed over the segment; the weights returned by sample_simplex are uniformly distributed over the simplex in every dimension; and sample_sphere prefers no direction: every set of designs has the same probability as the set turned by any rotation or reflection.",'all dimensions, boxes, segments, numbers of samples, measurable sets; all rotations and reflections','the claims are about probabilities of all sets, a test sees finitely many draws','psdr/domains/box.py:BoxDomain._sample|psdr/domains/convexhull.py:ConvexHullDomain._sample|psdr/geometry/geometry.py:sample_simplex|psdr/geometry/geometry.py:sample_sphere'.split('|'))
p('C155','The Lipschitz constant in floating point arithmetic',"LipschitzConstant.fit called with distinct points returns, in floating point arithmetic, the smallest constant consistent with the samples and gradients up to a relative error of about ten times the number of coordinates plus two times the unit roundoff, however close the points or the values are to one another, and never less than the smallest constant.",'all rounding functions and orders of summation, all finite sets of distinct points, all values and gradients','differences of nearby values and points cancel, and a test sees few of the sets of points and no other rounding or summation order','psdr/lipschitz.py:LipschitzConstant._fit'.split('|'))
p('C156','Greedy designs are near optimal for uncertainty',"For a given Lipschitz matrix, the largest width of the intervals returned by uncertainty over a domain, in the worst case over all functions with that Lipschitz matrix, is exactly twice the fill distance of the samples plus twice the noise level; choosing the sample points one after the other from the values seen so far cannot guarantee a smaller width than the best fixed design; maximin_coffeehouse, provided its candidates include a farthest point of the domain (as they do on intervals), guarantees at most twice the width of any other fixed or adaptive design with as many points, and in a bounded domain of dimension m its guaranteed width decreases like the number of points to the power -1/m.",'all Lipschitz matrices, all domains, all functions with that matrix, all fixed designs and all adaptive choices of points','a worst case over all functions and all adaptive strategies cannot be sampled','psdr/lipschitz.py:LipschitzMatrix.uncertainty|psdr/sample/maximin_coffeehouse.py:maximin_coffeehouse|psdr/geometry/vertex.py:voronoi_vertex'.split('|'))
p('C157','Means over Latin hypercube designs',"The mean of a function over a Latin hypercube design on a bounded box (latin_hypercube_sample, latin_hypercube_maximin) is an unbiased estimate of its mean over the box; for sums of functions of one coordinate each it does not depend on the random permutations, it is exact for linear functions, and its error for Lipschitz summands is at most the sum of Lipschitz constant times side length over four times the number of points.",'all boxes, all numbers of points, all permutations and exchanges drawn, all functions','the claim is about all permutations and all functions; a test sees a few draws','psdr/sample/latin.py:_latin_hypercube_sample_box|psdr/sample/latin.py:_latin_hypercube_maximin_box'.split('|'))
p('C158','The leading directions of the Lipschitz matrix are the best reduced coordinates',"After LipschitzMatrix.fit, every function that changes no more than the fitted matrix allows is, on a set of diameter d, within t*d/2 of a function of the first n coordinates U[:,:n].T x, where t bounds |L u| over the remaining directions; if the remaining directions do not change the function nothing is lost.  On a ball of radius rho the error with the first n coordinates is at most rho*|L u_n| and no other n linear coordinates guarantee less.",'all data, solver answers that satisfy their contract, all n, all sets, all functions, all other choices of coordinates','the bound ranges over all functions with a given Lipschitz matrix, and optimality over all linear coordinates','psdr/lipschitz.py:LipschitzMatrix.fit|psdr/lipschitz.py:LipschitzMatrix._fit|psdr/lipschitz.py:LipschitzMatrix.U|psdr/subspace.py:SubspaceBasedDimensionReduction._fix_subspace_signs_grads'.split('|'))
p('C159','Polynomial fits of growing degree: nested, interpolating, convergent',"For PolynomialApproximation.fit in any of the six bases, any norm and any bound: a higher degree never fits the same data worse; with a degree of at least the number of samples less one, consistent data are reproduced exactly, and no smaller degree suffices in general; samples of a continuous function on a compact set are matched to any accuracy from some degree on, uniformly over all sets of samples.  In the maximum norm the fits converge on the whole set: every sufficiently large degree has a sample density from which on all fits are within the given accuracy everywhere.",'all data, all bases, norms and bounds, all degrees, all continuous functions on compact sets, all sets of samples','convergence is a statement about all functions, all degrees and all designs','psdr/poly.py:PolynomialApproximation.fit|psdr/poly.py:PolynomialApproximation.__init__'.split('|'))
p('C160',
"Predicted variance of a Gaussian process bounds its error",
"Called with return_cov the Gaussian process returns beside each prediction a variance. For a fit without polynomial part to values of a function in the space of the fitted kernel, the squared error of the prediction at every point is at most the energy of the function times the variance there, and no smaller number would do. The variance vanishes at the samples and only there, tends to one away from all samples while the prediction tends to the polynomial part, and for a given length scale does not grow when samples are added. For a given length scale the predictions tend to the value of the function wherever samples accumulate.",
"all sets of samples, also coinciding ones; all length scale matrices; all nuggets from the default up; all functions that are finite combinations of kernels; all points; all exact eigenvalue routines",
"A test compares errors with variances for one function at some points; the bound is over all functions of the space and all points, and its sharpness is an existence statement for each point.",
["psdr/gp.py: GaussianProcess._fit, GaussianProcess.eval"])
p('C161',
"Gradients from local linear models are accurate to first order",
"The gradient that local_linear_grads estimates at a location from samples of a smooth function errs by at most a constant times the curvature of the function times the spread of the samples about the location; the constant depends on the shape of the samples and on the bandwidth or perplexity, not on the function, the location or the spread. So the estimate tends to the gradient when the samples contract to the location. For samples symmetric about the location the estimate is exact for quadratic functions.",
"all dimensions; all affinely spanning shapes of samples; all spreads; all locations; all functions with bounded curvature at the samples; all bandwidths and perplexities; all exact least squares solvers and root finders",
"A test compares one gradient of one function with an estimate at one spread; the constant is uniform over all functions, locations and spreads.",
["psdr/local_linear.py: local_linear, local_linear_grads, perplexity_bandwidth"])
p('C162',
"Gauss-Newton solves linear least squares in any units, and its slopes vanish",
"gauss_newton with its default line search, applied to a residual that is an affine function of the variables, returns a minimizer of the residual norm, whatever units the residual is measured in. On any problem, a run that uses up its iterations has passed through a point whose slope is bounded by a constant times the initial residual norm over the number of iterations; with bounded Jacobians the gradient is bounded accordingly.",
"all affine residuals with matrices of any shape and rank, all starting points, tolerances, iteration limits and verbosities; all residuals, Jacobians, trajectories and solvers for the bound on the slopes; all exact least squares solvers",
"A test runs a few problems of moderate size in one unit of measurement; the claim is about all of them, and where the line search starts to reject every step cannot be seen from runs that succeed.",
["psdr/gn.py: gauss_newton, linesearch_armijo"])
p('C163',
"Minimax optimization finds the minimum of affine and of convex functions",
"minimax applied to affine functions on a convex set returns a point that minimizes the largest of them over the whole set, or one closer to such a point than tol_dx in every coordinate, with or without the trust region. Applied to convex functions with bounded curvature, without the trust region, it returns a point whose value is within an explicit tolerance of the minimum unless the distance to the minimum has shrunk by a constant factor in every pass.",
"all dimensions and numbers of functions; all convex sets, affine functions and convex functions with bounded curvature; all starting points in the set; all Armijo constants in [0, 1], tolerances, iteration limits and at least two backtracking trials; all exact solvers for the steps",
"A test runs one problem from one start; that the local method finds the global minimum of every such problem, and how fast, is a statement about all of them.",
["psdr/minimax.py: minimax"])
p('C164',
"Sequential linear programming solves linear problems",
"sequential_lp applied to an affine function, with any of its objectives, a domain and bounds on the values of the function, returns a point that satisfies the bounds and has the least objective of all points that do, or a point that agrees with such a point to the relative tolerance tol_dx.",
"all dimensions; all affine functions, domains, bounds on the values and objectives (1-norm, 2-norm, largest entry, hinge, single value); all starting points; all iteration limits and numbers of trials; all exact solvers for the steps",
"A test runs one problem from one start, usually a feasible one; the claim covers all starts.",
["psdr/seqlp.py: sequential_lp"])
p('C165','Active subspaces tolerate errors in the gradients',
'Fit an active subspace to inexact instead of exact gradients, with the same weights, and let e be the root of the weighted sum of the squared errors of the gradients. Then every singular value changes by at most e; the first n directions capture at least as much of the exact gradients as any other n orthonormal directions, up to 2e (in the root of the captured sum of squares); and the subspace of the first n directions turns by at most e times the size of the gradients divided by the gap between the squares of the n-th and the next singular value. So the subspace converges as the errors vanish if there is a gap. OuterProductGradient without standardization therefore finds nearly optimal directions for the exact gradients at the samples, up to a constant times the curvature of the function times the spread of the samples.',
'all gradients, errors, weights, dimensions, all exact singular value decompositions and least squares solvers; all smooth functions, sample shapes, spreads, bandwidths and perplexities',
'a statement about all perturbations of all data and about a limit; the singular vectors are discontinuous functions of the data, so samples of perturbations say little',
['psdr/subspace.py: ActiveSubspace.fit','psdr/opg.py: OuterProductGradient.fit','psdr/local_linear.py: local_linear_grads'])
p('C166','Polynomial ridge functions are recovered',
'Let the data be values of a polynomial ridge function, possibly with errors, at samples that determine the polynomials of its degree in all the variables. A ridge fit without misfit equals the function everywhere, and its subspace contains every direction the function depends on; with as many directions it is the same subspace. A fit with a small misfit is close to the function everywhere, with a factor that depends only on the samples, the degree and the place. So fits started at the subspace of the function return the function and its subspace from exact data, and from inexact data a function closer than twice the error times the factor, by variable projection or by the alternating method, in every norm and under every bound the function respects; fits of degree one with one direction do so without a starting point.',
'all polynomial ridge functions, degrees, dimensions, samples, errors, norms and bounds, all exact solvers, all runs of the optimizers',
'a statement about all functions and all points between the samples; tests compare a fit with one function at some points',
['psdr/polyridge.py: PolynomialRidgeApproximation.fit, _fit_affine, _fit_varpro, _fit_alternating, _finish'])
p('C167','Lipschitz matrices, constants and active subspaces of the same data agree',
'The Lipschitz matrix fitted to gradients bounds the matrix of their active subspace (times the total weight) in every direction, so that directions it ignores are inactive and its sizes along its directions, in order, bound the singular values of the active subspace. Its size along the first direction lies between the Lipschitz constant of the data and the root of the dimension times that constant. The trace of the Lipschitz matrix is at most that of the diagonal Lipschitz matrix, and this is at most the dimension times the square of the constant; all three are consistent with the data. The fitted matrix is of least trace among the consistent ones whenever no reported direction is zero.',
'all samples, gradients, tolerances and weights, all exact solvers and decompositions',
'relates four estimators on all data; a test compares numbers on one data set and cannot separate a general order from luck',
['psdr/lipschitz.py: LipschitzMatrix.fit, DiagonalLipschitzMatrix.fit, LipschitzConstant.fit','psdr/subspace.py: ActiveSubspace.fit'])
p('C168','Samples of product domains are independent with the product of the laws of the factors',
'Let each factor of a product domain draw its rows independently with some law, and let the random numbers of the factors be independent. Then sample(N) of the product returns N rows, the rows are independent, and in every row the parts belonging to the factors are independent and each has the law of its factor. For boxes this is the uniform law on the product of the boxes, for factors with densities the joint density is the product, and for products of boxes, points and normal domains without truncation all hypotheses hold.',
'all numbers of factors, dimensions, bounds, means, covariances, numbers of rows; all laws of the factors',
'a statement about the joint distribution of all rows and columns; tests check membership of a few samples',
['psdr/domains/tensor.py: TensorProductDomain._sample','psdr/domains/box.py: BoxDomain._sample','psdr/domains/normal.py: NormalDomain._sample','psdr/domains/point.py: PointDomain._sample'])
p('C169','Hit-and-run forgets where it starts and approaches the uniform distribution',
'Take a bounded domain given by linear and quadratic inequalities with more volume than two cubes with sides 2e-7. From every interior point a hit-and-run step enters every region with a probability at least proportional to the volume of the region outside a cube with sides 2e-7. Hence the laws of two samplers started at different interior points differ by at most q^k after k steps, with an explicit q < 1 depending on the dimension, diameter and volume, and the law of a sampler started anywhere approaches the uniform distribution at this rate, up to the share of steps that redraw their direction divided by 1 - q.',
'all such domains and starting laws, all numbers of steps, all events',
'the joint effect of infinitely many random steps; tests look at finitely many samples of one chain',
['psdr/domains/euclidean.py: EuclideanDomain._hit_and_run, EuclideanDomain.random_direction, EuclideanDomain._sample'])
p('C170','Gauss-Newton converges quadratically near a solution',
'Let the residual vanish at a point, with a Jacobian of full rank and Lipschitz continuous near it. Started close enough (explicit bound), gauss_newton with its defaults for the line search, the trajectory and the solver raises nothing, accepts every full step and returns a point at least eight times closer. The remaining distance is below a seventh of the step tolerance, or below (q e)^(2^maxiter)/q where e is the initial distance and q = gamma/(2 sigma), or success is reported and it is below 8/(7 sigma^2) times the gradient tolerance.',
'all residuals, Jacobians, starts, tolerances, iteration limits and solvers returning least squares solutions',
'a rate holds for all problems and starts at once; tests run one problem until a tolerance',
['psdr/gn.py: gauss_newton, linesearch_armijo, trajectory_linear'])
p('C171','The high level minimax design picks the exact method when it can and delivers the points asked for',
'minimax_design uses the exact construction exactly when the metric has one row or the domain has one dimension; it then returns N points of the domain, for every N > 0, and no N points cover the domain with a smaller radius. Otherwise it clusters a Sobol sequence: the design has N points, lies in the convex domain if the metric separates points, and covers the sequence at least as well as its first N points.',
'all convex domains, metrics, numbers of points, iteration limits and tolerances; any exact corner solver and any convex solver',
'optimality over all designs and all metrics, and limits beyond the sizes tests use',
['psdr/sample/minimax.py: minimax_design, minimax_design_1d, minimax_cluster'])
p('C172','Grids, sweeps and Latin hypercube designs in floating point arithmetic',
'In floating point arithmetic the grid of a box starts and ends exactly at the bounds, never decreases along a coordinate, stays between the bounds and is accurate up to four roundings; sample_grid(n) of a box in m dimensions returns exactly n^m points, none lost to the membership test whatever its tolerance. Coordinates of Latin hypercube designs stay in their strata and in the box. A sweep starts and ends exactly at its end points and its points pass the membership test. The grid values are all different.',
'all boxes with bounds in the format, all numbers of points small compared with the precision, all rounding modes that are monotone with a relative error bound',
'rounding depends on every bit of the bounds; tests use a few round numbers',
['psdr/domains/euclidean.py: EuclideanDomain.sample_grid, EuclideanDomain.sweep', 'psdr/sample/latin.py: _latin_hypercube_sample_box, _latin_hypercube_maximin_box'])
p('C173','Runs of external programs: results do not depend on the disk and nothing is left behind',
'Evaluating a demo function that runs an external program gives a result that depends only on its inputs, its arguments and the program, not on what is on the disk, where the working directory is, or on earlier evaluations. Nothing that was on the disk before is changed. Without a directory, the disk afterwards is exactly as before; with one that is to be kept, it contains the inputs as the program left them, its outputs and the log, and is never overwritten by a later call. A batch gives the results of its points.',
'all programs (any function of the command line and the directory), all contents of the disk, all choices of working directory, all inputs, all batches',
'tests cannot run every program or start from every state of the disk, and the programs are not available in the test environment',
['psdr/demos/multif.py: multif', 'psdr/demos/naca0012.py: naca0012_func', 'psdr/demos/oas.py: oas_func', 'psdr/function.py: Function.eval'])
p('C174','Evaluations of external programs at the same time do not disturb each other',
'If any number of evaluations run at the same time, each with a temporary directory, every one that finishes returns what it would return alone, whatever the order of their steps. At no time is anything changed that was on the disk before; once all have returned, the disk is as before. No evaluation waits for another.',
'all numbers of evaluations, all interleavings of their steps (making the directory, writing inputs, steps of the programs, reading results, removing the directory), all programs',
'the number of interleavings is unbounded and a test sees one of them',
['psdr/demos/multif.py: multif', 'psdr/demos/naca0012.py: naca0012_func', 'psdr/demos/oas.py: oas_func', 'psdr/function.py: Function.eval_async'])
p('C175','The log of an external program and its exit code',
'The log of an external program contains all lines it printed, in order. Whatever reaches the log, the result is the same. If the program reports failure by its exit code, no result is returned.',
'all outputs and all schedules of the program and of the reader of its output, all exit codes',
'how much has been read when the program ends depends on the schedule',
['psdr/demos/multif.py: multif', 'psdr/demos/naca0012.py: naca0012_func', 'psdr/demos/oas.py: oas_func'])
p('C176','Arguments and numbers reach the external programs',
'Arguments given when a demo function is made or when it is evaluated (fidelity level, iterations, directory, version, cores, numbers of bumps) reach the external program, those of the evaluation first; unknown ones raise. The program gets the inputs exactly. The airfoil has equally spaced bumps, none at an end. A batch of points of the wing model is evaluated to one row per point.',
'all arguments of constructor and call, all real inputs, all numbers of bumps, all batches',
'tests try a few arguments; the number format affects every input in its last digit',
['psdr/demos/multif.py: MULTIF, multif', 'psdr/demos/naca0012.py: NACA0012, naca0012_func', 'psdr/demos/oas.py: OpenAeroStruct, oas_func', 'psdr/demos/naca0012/naca0012_driver.py: driver', 'psdr/function.py: Function.eval'])
p('C177','The order of the samples does not matter',
'Reordering samples, their values and gradients changes nothing a user sees: the Lipschitz constant (also the exception), the scale, signs and smallest trace of the Lipschitz matrix, the uncertainty interval, local linear models at given locations and their bandwidths, the Arnoldi basis, fill distance and Voronoi vertices, and how many points are recognized as distinct.',
'all lists of samples, values and gradients, all their permutations, all dimensions',
'there are factorially many orders; tests use one',
['psdr/lipschitz.py: LipschitzMatrix, LipschitzConstant', 'psdr/local_linear.py: local_linear, perplexity_bandwidth', 'psdr/basis.py: ArnoldiPolynomialBasis', 'psdr/vandermonde.py: vandermonde_arnoldi', 'psdr/geometry/geometry.py: unique_points', 'psdr/geometry/vertex.py: voronoi_vertex', 'psdr/geometry/fill.py: fill_distance'])
p('C178','Safety factors of chance constraints',
'The empirical safety factor of a ridge chance constraint is violated by at most the given fraction of the random samples, for both modes, so a design whose ridge coordinate keeps that distance from the failure point fails with at most that empirical probability; the number of samples is the one asked for.',
'all samples, probabilities, both modes, all monotone ridge profiles',
'the claim is about the order statistics of every sample and every probability; with round probabilities and many samples a test cannot see the interpolation',
['psdr/duu.py: RidgeChanceConstraint, RidgeChanceConstraint.sample_random_ridge, RidgeChanceConstraint.empirical_safety_factor_1d'])
p('C179','Closest points exist, are unique, and move no more than the points',
'For every nonempty domain without an unbounded factor, every point and every weight matrix that loses no direction there is exactly one closest point, and closest_point returns it, whatever was asked of the domain before; asking for the closest point of the answer gives the answer; the answers for two points are at most as far apart as the points, in the norm of the weight.',
'all domains, points, weights, exact solvers, and histories of calls',
'existence and uniqueness are about all points of the domain at once, and continuity about all pairs of points',
['psdr/domains/euclidean.py: EuclideanDomain.closest_point, EuclideanDomain._closest_point','psdr/domains/point.py: PointDomain.closest_point'])
p('C180','Estimated densities of propagated uncertainty',
'The curve returned for the density of a propagated response (and of the random ridge coordinate) has as many points as asked for, spans exactly the range of the samples, and its values are those of a probability density (nonnegative, integral one) whose mean is the mean of the samples; the exported range carries the whole mass; a curve is returned for all samples that are not constant.',
'all samples, numbers of points, random domains and response functions',
'integrals and means are about the whole line, for every sample; a test sees finitely many values of the curve',
['psdr/duu.py: forward_propagation_pdf, plot_pgf_forward_propagation_pdf, RidgeChanceConstraint.random_ridge_pdf, RidgeChanceConstraint.plot_pgf_random_ridge_pdf'])
p('C181','Corners describe the domain',
'A nonempty domain consists of exactly the points that no corner excludes: x is in the domain if and only if, in every direction p for which corner(p) answers, p.x is at most p.corner(p); corner answers in every direction if the domain is bounded. The reach p.corner(p) depends only on the direction, is subadditive in p and grows with the domain, and domains with the same reach are equal. The distance of a point to the domain is the largest amount by which it lies beyond a corner, over directions of length one. All of this after any calls to the domain.',
'all domains, points, directions, solvers that find optima, and histories of calls',
'equality of sets is tested by infinitely many directions, and no finite number of them decides it',
['psdr/domains/euclidean.py: EuclideanDomain.corner, EuclideanDomain._corner','psdr/domains/box.py: BoxDomain._corner'])
p('C182','Finite difference gradients and the active subspaces computed from them converge',
'With fd_grad=True the gradients of a smooth function, at all points at once, are wrong in every coordinate by at most its curvature times the step. Active subspace directions computed from them capture as much of the true gradients as any directions do, up to a multiple of the step, and with a gap behind the chosen directions the computed subspace comes as close as wanted to the one of the true gradients once the step is small enough.',
'all functions with curvature bounded along the coordinate axes, steps, lists of points, weights, and singular value decompositions',
'the limit of small steps, and the bound for all smooth functions; tests compare a few gradients with a tolerance',
['psdr/function.py: Function.grad, Function.__init__','psdr/subspace.py: ActiveSubspace.fit'])
p('C183','Means and covariances of samples of random domains',
'The samples of a normal domain have the mean and the covariance the domain was built with, the samples of a box the center and the variance of the uniform distribution with uncorrelated coordinates, the samples of a lognormal domain the mean offset + scaling exp(mean + cov/2); almost surely the averages over growing samples tend to these numbers.',
'all means, covariances, truncations, bounds, offsets and scalings, and all sequences of independent draws outside a null set',
'statements about the distribution of random draws and limits of averages; a test sees finitely many draws of one seed',
['psdr/domains/normal.py: NormalDomain._sample, NormalDomain.__init__','psdr/domains/lognormal.py: LogNormalDomain._sample','psdr/domains/box.py: BoxDomain._sample'])
p('C184','Estimated fill distances converge to the fill distance',
'fill_distance_estimate with starting points drawn independently from the domain converges almost surely to the fill distance of the samples as the number of starting points grows.',
'all domains with linear constraints, metrics L, samples Xhat, and all sequences of independent starting points outside a null set',
'a limit over infinitely many starting points and a statement about almost every sequence; a test sees one finite draw',
['psdr/geometry/fill.py: fill_distance_estimate','psdr/geometry/vertex.py: voronoi_vertex_sample'])
p('C185','Sequential maximin designs fill the domain',
'A design on a bounded domain built by calling seq_maximin_sample again and again, each time with fresh random starting points, almost surely comes arbitrarily close to every point of the domain, in the given metric.',
'all bounded domains, metrics, slack parameters, sequences of starting points outside a null set, and all choices left open by ties and by the other starting points',
'a limit over infinitely many calls and almost every random sequence; a test sees finitely many points',
['psdr/sample/seqmaximin.py: seq_maximin_sample','psdr/geometry/vertex.py: voronoi_vertex_sample'])
p('C186','Coffee-house designs from sampled Voronoi vertices fill the domain',
'maximin_coffeehouse with full = False comes as close as desired to all of its random starting points once it has enough points, the number depending only on the domain and the metric; with starting points as numerous as the design (the default is ten times as many) the designs almost surely fill a bounded domain as they grow.',
'all bounded domains, metrics, starting points, random directions, and sizes beyond a threshold',
'a statement about all large sizes and almost all random starting points; a test runs a few sizes with one seed',
['psdr/sample/maximin_coffeehouse.py: maximin_coffeehouse','psdr/geometry/vertex.py: voronoi_vertex_sample'])
p('C187','Active subspaces of smooth functions converge with the number of gradients',
'On a bounded domain with an interior, ActiveSubspace.fit_function(fun, N) returns for all large N; for every function with a continuous gradient the matrix C converges to the average outer product of the gradient over the domain, the squared singular values to its eigenvalues, and the leading directions to its leading eigenspaces as N grows.',
'all bounded domains without equality constraints whose boundary has measure zero, functions with continuous gradients, and all large N',
'a limit over all numbers of gradients for every smooth function; a test compares a few values for one function',
['psdr/subspace.py: ActiveSubspace.fit_function','psdr/domains/domain.py: Domain.quadrature_rule'])
p('C188','Polynomial fits of noisy random samples are consistent',
'PolynomialApproximation(degree, norm = 2).fit on N independent samples (x, y) of any distribution with second moments for which only the zero polynomial of the degree vanishes almost surely: almost surely the fit is returned for all large N (positive degree or Arnoldi basis), and at every point it converges to the polynomial of the degree with the smallest mean squared error, which is unique. If y is a polynomial of the degree plus independent noise of mean zero, the limit is that polynomial.',
'all distributions of samples, degrees, bases, exact solvers, and almost all sequences of samples',
'an almost sure limit over all numbers of samples and all distributions; a test fits one random data set',
['psdr/poly.py: PolynomialApproximation.fit','psdr/poly.py: linear_fit'])
p('C189','Affine ridge fits of noisy random samples find the direction',
'PolynomialRidgeApproximation(1, 1, norm = 2).fit without bound on N independent samples (x, y) of any distribution with second moments for which no nonzero affine function vanishes almost surely, and whose best affine function in the mean square has a nonzero slope: almost surely the direction is computed without error for all large N and converges, sign included, to the normalized slope; if the fits are returned for all large N, their values converge at every point to the best affine function. If y is affine plus independent noise of mean zero, the limit is the direction of that affine function.',
'all distributions of samples, exact solvers, polynomial bases, and almost all sequences of samples',
'an almost sure limit over all numbers of samples and all distributions; a test fits one random data set',
['psdr/polyridge.py: PolynomialRidgeApproximation.fit, PolynomialRidgeApproximation._fit_affine'])
open("/verif/properties.jsonl","w").write("".join(json.dumps(x)+"\n" for x in P))
print(len(P))
