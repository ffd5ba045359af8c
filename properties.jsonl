{"id": "C01", "title": "Subdivision solver never loses a root (exact=True)", "statement": "If solveChebyshevSubdivision(Ms, errors, exact=True) returns, and F_1..F_n are any functions with |F_i(x) - M_i(x)| < errors[i] for every x in [-1,1]^n (M_i(x) the Chebyshev series with coefficient tensor M_i), then every common zero of F_1..F_n in [-1,1]^n lies in at least one of the returned bounding boxes.", "quantifier": "every dimension n, every list of n coefficient tensors of any shape, every positive error vector, every family of functions within the errors, every common zero in the closed box, every run that returns (any recursion depth)", "why_tests_cant": "Tests compare a handful of systems against known roots; they cannot cover all tensors and all functions within the error band, nor all paths of the zoom/subdivide/recombine recursion.", "anchors": ["yroots/ChebyshevSubdivisionSolver.py:solveChebyshevSubdivision", "yroots/ChebyshevSubdivisionSolver.py:solvePolyRecursive", "yroots/ChebyshevSubdivisionSolver.py:TransformChebInPlace1DErrorFree"]}
{"id": "C02", "title": "Subdivision solver never loses a root (default transformation)", "statement": "The same no-lost-root guarantee for the default exact=False: every common zero in [-1,1]^n of functions strictly within the stated errors lies in a returned bounding box.", "quantifier": "every dimension, every list of coefficient tensors, every positive error vector, every family of functions strictly within the errors, every common zero, every run that returns", "why_tests_cant": "The default path truncates small rows of the re-expansion, so correctness depends on a bound over all shapes and all scalings; a test sees one shape and one scaling.", "anchors": ["yroots/ChebyshevSubdivisionSolver.py:solveChebyshevSubdivision", "yroots/ChebyshevSubdivisionSolver.py:solvePolyRecursive", "yroots/ChebyshevSubdivisionSolver.py:TransformChebInPlace1D", "yroots/ChebyshevSubdivisionSolver.py:getTransformationError"]}
{"id": "C03", "title": "solve() never loses a root", "statement": "If solve(funcs, a, b, returnBoundingBoxes=True) returns and on every box it approximates the reported approximation error is a strict bound on |f - approximation|, then every common root of funcs in [a,b] lies in one of the returned bounding boxes, including through whole-box re-splitting and re-solving of large boxes.", "quantifier": "all dimensions, all functions, all valid boxes a<=b, all minBoundingIntervalSize, all recursion histories that return", "why_tests_cant": "The number and geometry of re-solved boxes depends on the functions; no finite set of systems exercises every history.", "anchors": ["yroots/Combined_Solver.py:solve", "yroots/ChebyshevSubdivisionSolver.py:solveChebyshevSubdivision"]}
{"id": "C04", "title": "Results stay inside the search region", "statement": "Whenever solve(funcs,a,b,returnBoundingBoxes=True) returns, every returned bounding box [lo,hi] satisfies a<=lo<=hi<=b componentwise and every returned root lies componentwise in [a,b].", "quantifier": "all inputs and all runs that return", "why_tests_cant": "A sampled system may never reach the re-split or re-solve branches where containment could break.", "anchors": ["yroots/Combined_Solver.py:solve", "yroots/ChebyshevSubdivisionSolver.py:TrackedInterval.getFinalInterval", "yroots/ChebyshevSubdivisionSolver.py:TrackedInterval.getFinalPoint"]}
{"id": "C05", "title": "solve() accepts every valid box", "statement": "For callable functions and a<=b componentwise, solve does not itself produce an invalid sub-box: none of the boxes it recursively solves has a lower bound above its upper bound (so no ValueError 'at least one lower bound is greater' is raised).", "quantifier": "all boxes a<=b in every dimension", "why_tests_cant": "Depends on the box location relative to the origin; tests only use boxes around the origin.", "anchors": ["yroots/Combined_Solver.py:solve (lines 138-152)"]}
{"id": "C06", "title": "Re-splitting covers the box", "statement": "When the single bounding box is the whole region and solve re-splits it, the 2^n sub-boxes handed to the recursive calls jointly cover [a,b] and any two of them share only boundary points.", "quantifier": "all dimensions, all boxes whose split point lies inside the box, every point of the box", "why_tests_cant": "Covering is a statement about every point and every dimension; tests check finitely many roots.", "anchors": ["yroots/Combined_Solver.py:solve (lines 138-152)"]}
{"id": "C07", "title": "Near-unit boxes are treated exactly", "statement": "For polynomial objects (MultiPower/MultiCheb) the box actually searched is the requested [a,b]: a linear polynomial system with its root in the interior of [a,b] is reported with a bounding box containing the root up to the advertised error, also when [a,b] is merely close to [-1,1]^n.", "quantifier": "all boxes [a,b], all polynomial inputs", "why_tests_cant": "Only a thin set of boxes within the allclose tolerance of the unit box misbehaves; random tests never hit it.", "anchors": ["yroots/Combined_Solver.py:solve (lines 110-126)"]}
{"id": "C08", "title": "Chebyshev re-expansion is exact when nothing is dropped", "statement": "Transforming coefficients c by (alpha,beta) yields coefficients whose Chebyshev series at x equals the series of c at alpha*x+beta, for every x, if no trailing entry falls under the drop threshold.", "quantifier": "all lengths >= 2, all coefficients, all alpha, beta, x", "why_tests_cant": "Polynomial identity over all degrees and reals; tests evaluate random samples with rounding tolerance.", "anchors": ["yroots/ChebyshevSubdivisionSolver.py:TransformChebInPlace1D", "yroots/ChebyshevSubdivisionSolver.py:TransformChebInPlace1DErrorFree", "yroots/ChebyshevSubdivisionSolver.py:TransformChebInPlace1DErrorFreeSplit"]}
{"id": "C09", "title": "Transformation error bound is an upper bound", "statement": "getTransformationError(M,dim) bounds, uniformly on [-1,1]^n, the difference between the transformed tensor and the exact re-expansion (drops of rows under 1e-16 / 1e-32 included), whenever the target interval lies in [-1,1].", "quantifier": "all tensors, all dims, all target sub-intervals of [-1,1], all x in [-1,1]^n", "why_tests_cant": "The worst case needs particular degree and scaling combinations; the docstring itself says the bound is not rigorous.", "anchors": ["yroots/ChebyshevSubdivisionSolver.py:getTransformationError", "yroots/ChebyshevSubdivisionSolver.py:TransformChebInPlace1D", "yroots/ChebyshevSubdivisionSolver.py:TransformChebInPlaceND", "yroots/ChebyshevSubdivisionSolver.py:transformCheb"]}
{"id": "C10", "title": "Multi-dimensional transform acts coordinatewise", "statement": "Transforming an n-D tensor along each dimension represents p(alpha_1 x_1+beta_1, ..., alpha_n x_n+beta_n): only the chosen axis is changed by each step and the axis permutation is undone.", "quantifier": "all n, all tensors, all dims, all alphas and betas", "why_tests_cant": "Requires every axis of every rank; tests use rank 1 to 3.", "anchors": ["yroots/ChebyshevSubdivisionSolver.py:TransformChebInPlaceND", "yroots/ChebyshevSubdivisionSolver.py:transformCheb", "yroots/ChebyshevSubdivisionSolver.py:transformChebToInterval", "yroots/ChebyshevSubdivisionSolver.py:chebTransform1D"]}
{"id": "C11", "title": "Linear-term bound is sound", "statement": "linearCheck1(totalErrs, A, consts) returns an interval containing every point of [-1,1]^n at which functions with these linear and constant terms and total coefficient-plus-error mass vanish.", "quantifier": "all n, all matrices, all constants, all masses, all points of the cube", "why_tests_cant": "Universal over real matrices and points; boundary and sign cases are measure-zero for random tests.", "anchors": ["yroots/ChebyshevSubdivisionSolver.py:linearCheck1"]}
{"id": "C12", "title": "Bounding-interval computation never excludes a root", "statement": "BoundingIntervalLinearSystem(Ms, errors, False): if functions strictly within errors of Ms vanish at x in [-1,1]^n then throwOut is False and x lies in the returned interval; the returned interval is inside [-1,1]^n.", "quantifier": "all n, all tensors, errors, functions within the errors, points x, all row/column scalings", "why_tests_cant": "Involves scaling, preconditioning and inverse bounds for all matrices; tests check a few.", "anchors": ["yroots/ChebyshevSubdivisionSolver.py:BoundingIntervalLinearSystem", "yroots/ChebyshevSubdivisionSolver.py:linearCheck1", "yroots/ChebyshevSubdivisionSolver.py:getLinearTerms"]}
{"id": "C13", "title": "Linear terms are read from the right places", "statement": "getLinearTerms(M)[i] is the coefficient of T_1(x_i) (0 if the tensor has a single entry along axis i), for tensors of any rank and shape.", "quantifier": "all ranks and shapes with all axes nonempty, all i", "why_tests_cant": "Index arithmetic on raveled arrays has to be right for every shape.", "anchors": ["yroots/ChebyshevSubdivisionSolver.py:getLinearTerms"]}
{"id": "C14", "title": "Zooming preserves all roots and valid errors", "statement": "One zoom iteration (outside the final step) either reports the interval empty, in which case there is no common root of functions strictly within the errors, or returns tensors/errors/interval such that every root is in the new interval and the new errors strictly bound the approximation error there.", "quantifier": "all tensors, errors, tracked intervals, functions", "why_tests_cant": "An invariant over all states of an unbounded loop.", "anchors": ["yroots/ChebyshevSubdivisionSolver.py:zoomInOnIntervalIter"]}
{"id": "C15", "title": "Interval tracking is consistent", "statement": "After any sequence of addTransform calls with sub-intervals of [-1,1], the tracked interval equals the image of the top interval under the composed recorded transforms (so getFinalInterval agrees with the tracked interval), lies inside the previous interval and keeps lower<=upper.", "quantifier": "all dimensions, all finite sequences of sub-intervals, all starting intervals", "why_tests_cant": "History property: must hold after every sequence of operations.", "anchors": ["yroots/ChebyshevSubdivisionSolver.py:TrackedInterval.addTransform", "yroots/ChebyshevSubdivisionSolver.py:TrackedInterval.getFinalInterval", "yroots/ChebyshevSubdivisionSolver.py:TrackedInterval.getFinalPoint", "yroots/ChebyshevSubdivisionSolver.py:TrackedInterval.startFinalStep"]}
{"id": "C16", "title": "Copies of tracked intervals are independent", "statement": "Mutating a copy() of a TrackedInterval (addTransform) never changes the interval, transforms or topInterval observable through the original, and transforming any TrackedInterval leaves the topInterval of its top-level constructor argument unchanged.", "quantifier": "all intervals, all sequences of copy/addTransform operations on any live object", "why_tests_cant": "Aliasing bugs depend on the order of operations on shared arrays.", "anchors": ["yroots/ChebyshevSubdivisionSolver.py:TrackedInterval.__init__", "yroots/ChebyshevSubdivisionSolver.py:TrackedInterval.copy", "yroots/ChebyshevSubdivisionSolver.py:TrackedInterval.addTransform"]}
{"id": "C17", "title": "Constant-term check is sound", "statement": "If the constant-term check discards a box then some function within its error of its approximation has no zero in the box.", "quantifier": "all tensors, errors, functions within the (non-strict) errors", "why_tests_cant": "Universal over tensors and functions.", "anchors": ["yroots/ChebyshevSubdivisionSolver.py:solvePolyRecursive (lines 1213-1217)"]}
{"id": "C18", "title": "2-D quadratic check is sound", "statement": "quadratic_check_2D(M,tol) = True implies every function within tol of M on [-1,1]^2 has no zero there.", "quantifier": "all 2-D tensors, all tol, all functions within tol", "why_tests_cant": "Equality and degenerate-Hessian cases have measure zero; soundness is over all coefficients.", "anchors": ["yroots/QuadraticCheck.py:quadratic_check_2D"]}
{"id": "C19", "title": "3-D quadratic check is sound", "statement": "quadratic_check_3D(M,tol) = True implies every function within tol of M on [-1,1]^3 has no zero there.", "quantifier": "all 3-D tensors, all tol, all functions within tol", "why_tests_cant": "27 families of candidate extrema with degenerate sub-cases; tests cannot enumerate them.", "anchors": ["yroots/QuadraticCheck.py:quadratic_check_3D"]}
{"id": "C20", "title": "n-D quadratic check is sound", "statement": "quadratic_check_nd(M,tol) = True implies every function within tol of M on [-1,1]^n has no zero there.", "quantifier": "all dimensions, all tensors, all tol, all functions within tol", "why_tests_cant": "Exponentially many faces, sign-pattern skipping of faces, singular sub-Hessians; all dimensions.", "anchors": ["yroots/QuadraticCheck.py:quadratic_check_nd", "yroots/QuadraticCheck.py:get_fixed_vars"]}
{"id": "C21", "title": "Trimming is accounted for", "statement": "trimMs(Ms, errors) only removes top-degree slices; the sup-norm difference between old and new polynomial on [-1,1]^n is at most the increase of the error entry; the increase is 0 or strictly less than errors*1e-3; no axis is trimmed below 3 entries.", "quantifier": "all tensors, all error vectors, all points", "why_tests_cant": "Data-dependent loop over all axes and degrees.", "anchors": ["yroots/ChebyshevSubdivisionSolver.py:trimMs"]}
{"id": "C22", "title": "Subdivision children cover the parent and match their polynomials", "statement": "The sub-intervals produced by getSubdivisionIntervals cover the parent interval, and the j-th tuple of tensors represents the parent polynomials restricted to the j-th sub-interval, for every per-polynomial order of subdivision dimensions, with errors that bound the transformation error.", "quantifier": "all tensors, all dims sets, all per-polynomial orders, all split points, all dimensions", "why_tests_cant": "The ordering bookkeeping must be right for every permutation; tests cover small dims.", "anchors": ["yroots/ChebyshevSubdivisionSolver.py:getSubdivisionIntervals", "yroots/ChebyshevSubdivisionSolver.py:getInverseOrder"]}
{"id": "C23", "title": "Child alignment does not depend on set iteration order", "statement": "The pairing of child tensors with child intervals is right whatever order Python iterates the set of subdivision dimensions in.", "quantifier": "all dimension sets, all iteration orders allowed by Python's set", "why_tests_cant": "CPython iterates small int sets in ascending order in tested dimensions; other orders only appear in dimension >= 9.", "anchors": ["yroots/ChebyshevSubdivisionSolver.py:getSubdivisionIntervals (line 1112)"]}
{"id": "C24", "title": "Inverse order is the right permutation", "statement": "getInverseOrder(order) is a permutation of 0..2^k-1 that, applied to children generated by splitting dimensions in the given order, yields the children as generated by splitting in increasing dimension order.", "quantifier": "all k, all orders (lists of distinct dims)", "why_tests_cant": "All permutations of all lengths.", "anchors": ["yroots/ChebyshevSubdivisionSolver.py:getInverseOrder"]}
{"id": "C25", "title": "Subdivision always makes progress", "statement": "getSubdivisionDims returns, for every polynomial, a permutation of one common set of dimensions; the set is nonempty whenever some dimension still has positive length that is not negligible.", "quantifier": "all tensors, intervals, levels", "why_tests_cant": "Filter interactions across all shapes and interval lengths.", "anchors": ["yroots/ChebyshevSubdivisionSolver.py:getSubdivisionDims", "yroots/ChebyshevSubdivisionSolver.py:getSubdivisionIntervals (line 1078)"]}
{"id": "C26", "title": "Combining touching boxes loses nothing and terminates", "statement": "The combine loop terminates for every list of exterior boxes; every point of an input box lies in an output box; output has at most as many boxes; boxes not merged are input boxes.", "quantifier": "all lists of boxes in all dimensions", "why_tests_cant": "A data-dependent loop with in-place deletion while indexing.", "anchors": ["yroots/ChebyshevSubdivisionSolver.py:solvePolyRecursive (lines 1318-1365)"]}
{"id": "C27", "title": "Combined boxes are pairwise non-overlapping", "statement": "After the combine loop no two boxes in the resulting exterior list overlap.", "quantifier": "all lists of boxes", "why_tests_cant": "Merging can create new overlaps with boxes already passed; only specific geometric configurations show it.", "anchors": ["yroots/ChebyshevSubdivisionSolver.py:solvePolyRecursive (lines 1318-1365)"]}
{"id": "C28", "title": "The final step keeps its candidate", "statement": "A box that entered the final step is either discarded by the constant/quadratic check on valid errors or reported: the zero-error zooming and final-step subdivision never make it disappear, and its reported bounding box is the box from before the final step.", "quantifier": "all tensors, errors, intervals, recursion depths", "why_tests_cant": "Property of all recursion histories.", "anchors": ["yroots/ChebyshevSubdivisionSolver.py:solvePolyRecursive (lines 1254-1298)", "yroots/ChebyshevSubdivisionSolver.py:TrackedInterval.canThrowOut", "yroots/ChebyshevSubdivisionSolver.py:TrackedInterval.startFinalStep"]}
{"id": "C29", "title": "Every reported root lies in its reported box", "statement": "For each bounding interval returned by solveChebyshevSubdivision, each root point reported from it (midpoint or duplicate roots) lies inside that bounding box, and the box is inside [-1,1]^n with lower<=upper.", "quantifier": "all inputs and runs that return", "why_tests_cant": "Requires an invariant over the whole recursion.", "anchors": ["yroots/ChebyshevSubdivisionSolver.py:solveChebyshevSubdivision", "yroots/ChebyshevSubdivisionSolver.py:TrackedInterval.getFinalPoint"]}
{"id": "C30", "title": "Power-to-Chebyshev conversion preserves the function", "statement": "MultiPower.to_cheb() returns a tensor whose Chebyshev series equals the power-basis polynomial at every point.", "quantifier": "all ranks, shapes, coefficients, points", "why_tests_cant": "Recurrence with parity slicing for all degrees.", "anchors": ["yroots/polynomial.py:MultiPower.to_cheb"]}
{"id": "C31", "title": "Polynomial arithmetic is pointwise arithmetic", "statement": "For MultiPower/MultiCheb objects of the same dimension, (p+q)(x)=p(x)+q(x), (p-q)(x)=p(x)-q(x), and for MultiPower (p*q)(x)=p(x)q(x), whatever their shapes.", "quantifier": "all shapes, coefficients and points", "why_tests_cant": "Shape-mismatch padding must be right for every pair of shapes.", "anchors": ["yroots/polynomial.py:match_size", "yroots/polynomial.py:MultiCheb.__add__", "yroots/polynomial.py:MultiCheb.__sub__", "yroots/polynomial.py:MultiPower.__add__", "yroots/polynomial.py:MultiPower.__sub__", "yroots/polynomial.py:MultiPower.__mul__"]}
{"id": "C32", "title": "Cleaning zeros preserves the polynomial", "statement": "Constructing a polynomial with clean_zeros=True does not change its values; the result has no all-zero top slice along any axis of length > 1, and cleaning again changes nothing.", "quantifier": "all tensors and points", "why_tests_cant": "Loop over axes with data-dependent deletion.", "anchors": ["yroots/polynomial.py:Polynomial.clean_coeff", "yroots/polynomial.py:Polynomial.__init__"]}
{"id": "C33", "title": "Point evaluation computes the defining sum", "statement": "MultiCheb(points)/MultiPower(points) return sum over multi-indices of coeff * product of basis polynomials, at each given point, for every rank; evaluate_grid returns the same values on the tensor grid.", "quantifier": "all ranks, shapes, coefficients and points", "why_tests_cant": "Identity over all degrees and ranks.", "anchors": ["yroots/polynomial.py:chebval", "yroots/polynomial.py:polyval", "yroots/polynomial.py:chebval2", "yroots/polynomial.py:polyval2", "yroots/polynomial.py:MultiCheb.__call__", "yroots/polynomial.py:MultiPower.__call__", "yroots/polynomial.py:MultiCheb.evaluate_grid", "yroots/polynomial.py:MultiPower.evaluate_grid", "yroots/polynomial.py:chebvalnd", "yroots/polynomial.py:polyvalnd"]}
{"id": "C34", "title": "Evaluation returns one value per point", "statement": "Evaluating a polynomial object at k>=2 points returns k values.", "quantifier": "all polynomials, all k", "why_tests_cant": "Fails only for special shapes (constants) that tests do not evaluate on several points.", "anchors": ["yroots/polynomial.py:MultiPower.__call__", "yroots/polynomial.py:MultiCheb.__call__", "yroots/polynomial.py:polyval", "yroots/polynomial.py:chebval"]}
{"id": "C35", "title": "Gradient is the gradient", "statement": "grad(point) of MultiPower/MultiCheb equals the vector of partial derivatives of the polynomial at the point, and repeated calls (cached Jacobian) give the same answer.", "quantifier": "all polynomials, points, call sequences", "why_tests_cant": "Identity over all degrees plus a cache history.", "anchors": ["yroots/polynomial.py:MultiPower.grad", "yroots/polynomial.py:MultiCheb.grad"]}
{"id": "C36", "title": "Chebyshev interpolation reproduces the samples", "statement": "interval_approximate_nd(f,degs,a,b) (all degs >= 1) returns coefficients whose Chebyshev series agrees with f at all Chebyshev grid points of [a,b], and equals f everywhere (after the affine change of variable) if f is a polynomial of at most these degrees.", "quantifier": "all dimensions, degrees, boxes, functions", "why_tests_cant": "Discrete orthogonality for all degrees and dimensions.", "anchors": ["yroots/ChebyshevApproximator.py:interval_approximate_nd", "yroots/ChebyshevApproximator.py:transform"]}
{"id": "C37", "title": "Reported approximation error bounds the tail", "statement": "If the Chebyshev coefficients of f outside the kept box decay geometrically at the measured rates from the measured epsilons, the error returned by getApproxError bounds the absolute sum of all discarded coefficients.", "quantifier": "all dimensions, degrees, epsilons >= 0, rates > 1, all coefficient families with that decay", "why_tests_cant": "Infinite multi-dimensional tail, every dimension.", "anchors": ["yroots/ChebyshevApproximator.py:getApproxError"]}
{"id": "C38", "title": "Approximation error is a nonnegative valid bound for every smooth function", "statement": "chebApproximate(f,a,b) returns (coeffs, error) with error >= 0 and |f(x) - series(x)| <= error on [a,b] for every polynomial f.", "quantifier": "all polynomials f and boxes", "why_tests_cant": "Fails only for adversarial or tiny-magnitude functions that pass the sampled convergence tests.", "anchors": ["yroots/ChebyshevApproximator.py:chebApproximate", "yroots/ChebyshevApproximator.py:checkConstantInDimension", "yroots/ChebyshevApproximator.py:getFinalDegree", "yroots/ChebyshevApproximator.py:getApproxError"]}
{"id": "C39", "title": "Degree selection keeps every significant coefficient", "statement": "getFinalDegree(coeff,tol) returns degree, epsVal with every averaged coefficient beyond degree at most epsVal (or below tol when degree 0 is chosen), epsVal at least twice machine epsilon, and degree < len(coeff).", "quantifier": "all coefficient vectors of length >= 2 with nonnegative entries, all tol", "why_tests_cant": "Depends on positions of maxima for all vectors.", "anchors": ["yroots/ChebyshevApproximator.py:getFinalDegree"]}
{"id": "C40", "title": "Approximation terminates on polynomials", "statement": "The degree search of chebApproximate terminates for every polynomial f.", "quantifier": "all polynomials, boxes", "why_tests_cant": "Nontermination cannot be observed by a finite test; it happens for special functions (e.g. identically zero).", "anchors": ["yroots/ChebyshevApproximator.py:getChebyshevDegrees", "yroots/ChebyshevApproximator.py:startedConverging", "yroots/ChebyshevApproximator.py:hasConverged"]}
{"id": "C41", "title": "Integer coefficients behave like floats", "statement": "Solving with MultiCheb objects built from integer coefficient lists gives the same result as with the same coefficients given as floats.", "quantifier": "all integer coefficient tensors", "why_tests_cant": "Depends on dtype propagation through in-place array operations.", "anchors": ["yroots/polynomial.py:Polynomial.__init__", "yroots/Combined_Solver.py:solve (lines 122-124)", "yroots/ChebyshevSubdivisionSolver.py:BoundingIntervalLinearSystem", "yroots/ChebyshevSubdivisionSolver.py:TransformChebInPlace1D"]}
{"id": "C42", "title": "Polynomial equality is symmetric", "statement": "p == q iff q == p for polynomial objects.", "quantifier": "all pairs of polynomials", "why_tests_cant": "Only pairs at the tolerance boundary are asymmetric.", "anchors": ["yroots/polynomial.py:Polynomial.__eq__", "yroots/polynomial.py:Polynomial.__ne__"]}
{"id": "C43", "title": "Error-free transformations are error free", "statement": "TwoSum, Split and TwoProd return (x,y) with x+y equal to the exact sum/value/product and x the rounded result, barring overflow/underflow.", "quantifier": "all pairs of floating-point numbers", "why_tests_cant": "2^128 input pairs.", "anchors": ["yroots/ChebyshevSubdivisionSolver.py:TwoSum", "yroots/ChebyshevSubdivisionSolver.py:Split", "yroots/ChebyshevSubdivisionSolver.py:TwoProd", "yroots/ChebyshevSubdivisionSolver.py:TwoProdWithSplit", "yroots/ChebyshevSubdivisionSolver.py:TwoSum_NoNumba", "yroots/ChebyshevSubdivisionSolver.py:TwoProd_NoNumba"]}
{"id": "C44", "title": "Input tensors are not modified", "statement": "solveChebyshevSubdivision does not change the caller's coefficient tensors, list of tensors or error vector.", "quantifier": "all inputs and histories", "why_tests_cant": "Mutation through aliases depends on the path taken through the recursion.", "anchors": ["yroots/ChebyshevSubdivisionSolver.py:solvePolyRecursive", "yroots/ChebyshevSubdivisionSolver.py:trimMs", "yroots/ChebyshevSubdivisionSolver.py:BoundingIntervalLinearSystem", "yroots/ChebyshevSubdivisionSolver.py:transformChebToInterval"]}
{"id": "C45", "title": "Quadratic checks decide exactly whether the quadratic part crosses the band", "statement": "quadratic_check returns True if and only if the part of the series of total degree at most two stays, on the whole cube, strictly on one side of the band of half-width (sum of the absolute values of the remaining coefficients + tol) - in particular the candidate points (corners, edge, face and interior critical points) always include the true extrema.", "quantifier": "all coefficient tensors, all dimensions, all tolerances", "why_tests_cant": "Degenerate quadratics (singular or semidefinite on some face) form a measure-zero set that random tests never hit.", "anchors": ["yroots/QuadraticCheck.py:quadratic_check_2D", "yroots/QuadraticCheck.py:quadratic_check_3D", "yroots/QuadraticCheck.py:quadratic_check_nd", "yroots/QuadraticCheck.py:get_fixed_vars"]}
{"id": "C46", "title": "Interior boxes need no combining", "statement": "Every box a recursive call returns as interior lies strictly inside the box of the call, so it neither overlaps nor touches any box found in a neighbouring box, and leaving interior boxes out of the combining loop loses no merge.", "quantifier": "all environments, options, arrays, errors, intervals of a run, fuels", "why_tests_cant": "A box wrongly classified as interior only shows when two roots' boxes meet on a subdivision face.", "anchors": ["yroots/ChebyshevSubdivisionSolver.py:isExteriorInterval", "yroots/ChebyshevSubdivisionSolver.py:solvePolyRecursive (lines 1259-1262, 1295-1298, 1314-1384)"]}
{"id": "C47", "title": "The final step reports one root per converged point", "statement": "When the final step subdivides, exactly one result is kept for each lower corner among the results of the halves, the box reports the roots of exactly the kept results (its own final point if the halves give none, and then it is marked as a possible extra root).", "quantifier": "all environments, options, arrays, errors, intervals in the final step", "why_tests_cant": "Depends on coincidences between results of different halves at arbitrary recursion depth.", "anchors": ["yroots/ChebyshevSubdivisionSolver.py:solvePolyRecursive (lines 1264-1298)", "yroots/ChebyshevSubdivisionSolver.py:solveChebyshevSubdivision (lines 1440-1450)"]}
{"id": "C48", "title": "Every subdivision cuts at the recorded split point and shrinks the box", "statement": "Each child of a subdivided box is, in each subdivided dimension, one of the two pieces at the recorded split point (0.0394... for the first cut, the centre afterwards), hence at most 0.52 times as wide, and unchanged in the other dimensions; copying, zooming and starting the final step keep the recorded split points.", "quantifier": "all arrays, boxes, levels, dimension orders, set iteration orders", "why_tests_cant": "A wrongly remembered split point still gives a correct cover, only with other cuts.", "anchors": ["yroots/ChebyshevSubdivisionSolver.py:getSubdivisionIntervals (lines 1110-1129)", "yroots/ChebyshevSubdivisionSolver.py:TrackedInterval (lines 404-414, 528-542)"]}
{"id": "C49", "title": "The one-dimensional companion-matrix solver finds exactly the roots", "statement": "OneDimension.solve on a one-variable polynomial returns exactly its complex roots, each as often as its multiplicity, for the companion/colleague matrix and for the division matrix, by eigenvalues or by eigenvectors.", "quantifier": "all nonempty real coefficient lists with nonzero leading coefficient, both bases, both matrices, all exact eigenvalue routines", "why_tests_cant": "Random polynomials are almost never constant and almost never vanish at 0, where the division matrix fails.", "anchors": ["yroots/OneDimension.py:solve (lines 6-41)", "yroots/OneDimension.py:multPower, divPower, multCheb, getXinv, divCheb (lines 43-236)"]}
{"id": "C50", "title": "Interval reductions of the legacy solver keep every root", "statement": "getBoundingInterval (improveBound and getBoundingParallelogram, 2-D and n-D, merging, clamping and widening) returns a sub-box of [-1,1]^n containing every common zero of functions within the errors of the approximations.", "quantifier": "all dimensions, all coefficient tensors and errors, all lists of reduction methods, all functions within the errors", "why_tests_cant": "Exact (zero-error) linear systems and singular linear parts are measure-zero inputs.", "anchors": ["yroots/IntervalChecks.py:getBoundingInterval (lines 395-647)"]}
{"id": "C51", "title": "Legacy 2-D and 3-D quadratic checks and constant-term check are right on every subinterval", "statement": "quadratic_check_2D and quadratic_check_3D throw a subinterval out if and only if the part of total degree at most two stays, on that subinterval, on one side of the band of half-width (rest of the coefficients + tol); constant_term_check throws out only boxes without zeros.", "quantifier": "all coefficient tensors, tolerances and subintervals with positive sides", "why_tests_cant": "27 families of candidate points per subinterval, degenerate Hessians have measure zero.", "anchors": ["yroots/IntervalChecks.py:constant_term_check (lines 649-672)", "yroots/IntervalChecks.py:quadratic_check_2D (lines 700-853)", "yroots/IntervalChecks.py:quadratic_check_3D (lines 855-1204)"]}
{"id": "C52", "title": "Legacy n-D quadratic check is right on every subinterval", "statement": "quadratic_check_nd throws a subinterval out if and only if the quadratic part stays on one side of the band on that subinterval.", "quantifier": "all dimensions, coefficient tensors, tolerances and subintervals", "why_tests_cant": "The faulty index only matters for four or more variables on subintervals with different sides and a minimum on a face.", "anchors": ["yroots/IntervalChecks.py:quadratic_check_nd (lines 1226-1403)"]}
{"id": "C53", "title": "get_subintervals covers all roots and accounts for the whole volume", "statement": "The boxes returned by get_subintervals contain every common zero in the box, and their volume plus the increase of current_area is the volume of the box.", "quantifier": "all dimensions, boxes, approximations, methods and both values of runChecks", "why_tests_cant": "Coverage quantifies over all functions within the errors; conservation over all branches.", "anchors": ["yroots/IntervalChecks.py:IntervalData.get_subintervals (lines 157-228)", "yroots/IntervalChecks.py:track_interval (lines 253-280)"]}
{"id": "C54", "title": "trim_coeffs accounts for every coefficient it removes", "statement": "trim_coeffs(coeffs, ...) returns arrays and errors such that on the cube each new series differs from the old one by at most the increase of its error; good_approx is returned exactly if all errors are within their tolerances, and then no coefficient has total degree above that of the first axis.", "quantifier": "all dimensions, shapes, coefficient arrays, errors and tolerances", "why_tests_cant": "The bound is over all points of the cube and all arrays; the missing coefficient is one in a whole array and usually tiny.", "anchors": ["yroots/subdivision.py:trim_coeffs (lines 833-905)"]}
{"id": "C55", "title": "mon_combos_limited lists each monomial in the shape exactly once", "statement": "mon_combos_limited_wrap(deg, dim, shape) returns exactly the exponent tuples of length dim and sum deg with every exponent below the shape, without repetition.", "quantifier": "all degrees, dimensions at least 1, shapes without empty axis", "why_tests_cant": "Recursion with a list that callee and caller both overwrite; the claim is about all depths.", "anchors": ["yroots/subdivision.py:mon_combos_limited_wrap (lines 910-929)", "yroots/subdivision.py:mon_combos_limited (lines 931-971)"]}
{"id": "C56", "title": "mon_combosHighest and mon_combos list the monomials, num_mons and num_mons_full count them", "statement": "mon_combosHighest([0]*dim, deg) returns exactly the exponent tuples of degree deg, mon_combos([0]*dim, deg) those of degree at most deg, without repetition; their numbers are num_mons(deg, dim) and num_mons_full(deg, dim).", "quantifier": "all degrees and all dimensions at least 1", "why_tests_cant": "The functions and the counts are written independently; agreement is for all degrees and dimensions.", "anchors": ["yroots/utils.py:mon_combosHighest (lines 748-781)", "yroots/utils.py:mon_combos (lines 783-815)", "yroots/utils.py:num_mons_full, num_mons (lines 817-847)"]}
{"id": "C57", "title": "Memoised functions return the values of the function", "statement": "In every sequence of calls of a function decorated with memoize, Memoize or memoize_permutaions, every call returns the value of the undecorated function at its arguments, and the function is evaluated at most once per key.", "quantifier": "all functions, all sequences of calls", "why_tests_cant": "The claim is about all call sequences.", "anchors": ["yroots/utils.py:Memoize, memoize (lines 11-33)", "yroots/utils.py:memoize_permutaions (lines 1019-1034)"]}
{"id": "C58", "title": "RootTracker keeps every zero, once, with its box and method", "statement": "After any sequence of add_roots, add_potential_root and keep_possible_duplicates, every zero that was passed in is reported; roots, intervals and methods stay aligned, each root with the box and method of the call that delivered it; and if the boxes have no common interior point each zero is reported once; get_polish_intervals returns every recorded box once and leaves nothing of the earlier search behind.", "quantifier": "all dimensions, all sequences of calls, all zeros and boxes", "why_tests_cant": "The claim is an invariant over all call sequences; losing a zero depends on the order of the boxes.", "anchors": ["yroots/RootTracker.py:RootTracker (whole file)"]}
{"id": "C59", "title": "Term comparison is the textbook monomial order", "statement": "Term.__lt__ with order grevlex, lexographic or grlex is the textbook order of that name; each is a monomial order (total, transitive, compatible with multiplication, 1 is smallest, well-founded), and the other comparison operators belong to <.", "quantifier": "all orders, all numbers of variables, all exponent tuples", "why_tests_cant": "Well-foundedness and compatibility quantify over infinitely many monomials.", "anchors": ["yroots/utils.py:67-126 Term"]}
{"id": "C60", "title": "solve reads and validates its arguments", "statement": "Callables with one lower and one upper bound each, in any of the accepted forms (scalar, list, array, tuple), are read as meant; anything else - an entry that is not callable, bounds in the wrong order, a number of bounds that is not the number of functions - raises an error.", "quantifier": "all argument forms, all numbers of functions and bounds", "why_tests_cant": "All combinations of forms and lengths, including mismatching ones nobody tries.", "anchors": ["yroots/Combined_Solver.py:87-106 solve"]}
{"id": "C61", "title": "solve_linear solves linear systems", "statement": "For linear polynomials the single common root is returned if there is exactly one, the empty array if there is none, and TooManyRoots is raised if there are infinitely many.", "quantifier": "all dimensions, all linear systems, every exact linear solver", "why_tests_cant": "The three outcomes are separated by rank conditions that random systems never meet.", "anchors": ["yroots/utils.py:395-440 solve_linear"]}
{"id": "C62", "title": "triangular_solve reduces an echelon form", "statement": "triangular_solve of a matrix in row echelon form is its reduced row echelon form: the same kernel, unit pivots, zeros elsewhere in the pivot columns; inverse_P inverts permutations.", "quantifier": "all shapes, all matrices in echelon form without zero rows, all permutations", "why_tests_cant": "All positions of the pivots.", "anchors": ["yroots/utils.py:164-184 inverse_P", "yroots/utils.py:339-393 triangular_solve"]}
{"id": "C63", "title": "Roots at infinity are the zeros of the leading form", "statement": "roots_at_inf returns exactly the zeros, up to scaling, of the leading form of a bivariate polynomial, and common_root_at_inf answers whether two polynomials have a common one.", "quantifier": "all shapes and coefficients, every exact eigenvalue oracle", "why_tests_cant": "The projective zeros depend on which coefficients vanish; the check of common roots is wrong except for symmetric forms.", "anchors": ["yroots/ProjectiveSpace.py:9-98 common_root_at_inf, roots_at_inf, pad_with_zeros"]}
{"id": "C64", "title": "mon_mult2 multiplies by a monomial", "statement": "mon_mult2 of a Chebyshev or power coefficient tensor and a monomial is the coefficient tensor of the product, in the basis of the tensor.", "quantifier": "all dimensions, shapes, coefficients, monomials; every commutative ring with 2 nonzero", "why_tests_cant": "The fold of T_a T_b has a different case for every relation of the degrees.", "anchors": ["yroots/utils.py:618-746 _fold_in_i_dir, _mon_mult1, mon_mult2", "yroots/utils.py:538-570 slice_top, slice_bottom"]}
{"id": "C65", "title": "M_maker interpolates whatever it has memoised", "statement": "Every call of interval_approximate_nd of an M_maker object, after any sequence of earlier calls that filled the two dictionaries, returns the coefficients of the polynomial that interpolates f at the Chebyshev extrema, of one more entry than the degree along each axis, together with the largest |f| on the grid.", "quantifier": "all functions, intervals, dimensions, degrees >= 1, all sequences of calls", "why_tests_cant": "The reuse of values of half the degrees depends on the history of calls.", "anchors": ["yroots/M_maker.py:247-349 interval_approximate_nd", "yroots/M_maker.py:351-460 chebyshev_block_copy, block_copy_slicers, interval_approx_slicers"]}
{"id": "C66", "title": "The degree search of M_maker ends and reports what it found", "statement": "The constructor of M_maker ends; its attributes degs, M, M2, inf_norm, err and values_block belong together: M interpolates f with the degrees degs, M2 with twice these, err bounds the difference of the two on the cube, values_block are the values on the grid of degs; and the search ends for one of the two stated reasons.", "quantifier": "all functions, intervals, dimensions, tolerances, guesses, largest degrees", "why_tests_cant": "All functions; termination.", "anchors": ["yroots/M_maker.py:8-120 __init__", "yroots/M_maker.py:122-245 get_err, error_test, find_good_approx"]}
{"id": "C67", "title": "makePolyCoeffMatrix reads the polynomial that is written", "statement": "The array that makePolyCoeffMatrix returns for a string is the coefficient array of the polynomial written in the string.", "quantifier": "all strings that are sums of monomials, any number of variables, terms, exponents and coefficients; every reading of int and float literals", "why_tests_cant": "Strings have no bounded length; tests use polynomials whose monomials are distinct.", "anchors": ["yroots/utils.py:442-536"]}
{"id": "C68", "title": "Tolerances walks through the tolerances given", "statement": "After the k-th call of nextTols every attribute of a Tolerances object has its k-th value (numbers are repeated), nextTols returns False exactly when there is none left, getTolDict gives back the lists; lists of different lengths are refused.", "quantifier": "all keyword arguments (names, numbers, lists of any length), any number of calls", "why_tests_cant": "The attributes share one namespace with the methods and the lists; tests use the names of the library.", "anchors": ["yroots/utils.py:1373-1459"]}
{"id": "C69", "title": "condeig computes the condition number of an eigenvalue", "statement": "householder returns a Hermitian unitary matrix that deflates the eigenvector; condeig returns |x||y|/|y^H x| for right and left eigenvectors x, y; it fails exactly if the eigenvalue is not simple; with condvec the second value is the reciprocal of the separation.", "quantifier": "all complex matrices of any size, eigenvalues and eigenvectors; every correct QR factorisation, triangular solve and svd", "why_tests_cant": "The identity between the deflated triangular system and the left eigenvector is algebra over all matrices.", "anchors": ["yroots/utils.py:1462-1497"]}
{"id": "C70", "title": "nullspace keeps the common zeros of linear polynomials", "statement": "nullspace(linear_polys) reduces the coefficients of the linear polynomials to echelon form: the polynomials it returns have the same common zeros as the input.", "quantifier": "all lists of linear polynomials in any number of variables", "why_tests_cant": "Elimination order and rank depend on all coefficients; the constants are only wrong when the rank drops, which random tests do not hit.", "anchors": ["yroots/LinearProjection.py:228-277"]}
{"id": "C71", "title": "bounding_parallelepiped covers the hyperplane in the cube", "statement": "The parallelepiped that bounding_parallelepiped returns for a linear polynomial lies in its zero set and contains every zero in [-1,1]^n.", "quantifier": "all linear polynomials in any number of variables with a non-zero coefficient, all points; every correct pivoted QR factorisation", "why_tests_cant": "The number of intersection points grows like 2^n and their position is arbitrary.", "anchors": ["yroots/LinearProjection.py:153-226"]}
{"id": "C72", "title": "project_down maps the cube onto the parallelepiped", "statement": "The affine map T of project_down maps [-1,1]^(n-1) onto the bounding parallelepiped.", "quantifier": "all linear polynomials, all points", "why_tests_cant": "A wrong centre is invisible in tests in three variables.", "anchors": ["yroots/LinearProjection.py:81-92"]}
{"id": "C73", "title": "chebyshev_block_copy returns the mirrored block", "statement": "After chebyshev_block_copy the first 2 deg entries along each axis of the returned array are the block of values, reflected at deg.", "quantifier": "all numbers of variables, degrees, blocks, sizes of the shared array and sequences of earlier calls", "why_tests_cant": "The array is shared and only grows; what is returned depends on the largest degree used before, and on uninitialised memory.", "anchors": ["yroots/subdivision.py:210-320"]}
{"id": "C74", "title": "full_cheb_approximate interpolates and bounds the error", "statement": "full_cheb_approximate returns the Chebyshev interpolant of degree deg, the norm on the grid of degree 2 deg and a bound for the difference of the two interpolants; None exactly if the bound exceeds the tolerance; polynomials of degree at most deg are reproduced with error 0.", "quantifier": "all functions, boxes, degrees, tolerances and sizes of the shared array", "why_tests_cant": "The first call of a solve already uses uninitialised memory; tests that run after another solve in the same process do not see it.", "anchors": ["yroots/subdivision.py:155-156", "yroots/subdivision.py:210-320", "yroots/subdivision.py:382-518"]}
{"id": "C75", "title": "The one-dimensional subdivision solver accounts for the whole interval", "statement": "subdivision_solve_1d tracks intervals that follow each other from a to b; for each interval that is not too deep it adds exactly the roots near the interval of a polynomial within the tolerance of the interpolant.", "quantifier": "all real functions, intervals, degrees, levels and tolerances; every correct eigenvalue routine", "why_tests_cant": "The recursion tree depends on the function; that the roots belong to a polynomial within the error holds for all functions.", "anchors": ["yroots/subdivision.py:322-363", "yroots/subdivision.py:973-1086"]}
{"id": "C76", "title": "sorted_matrix_terms lists the columns of the Macaulay matrix", "statement": "sorted_matrix_terms(degree, dim) lists every exponent tuple of degree at most degree exactly once, by decreasing degree, the constant last; cut is the number of those of degree degree.", "quantifier": "all degrees from one on and all numbers of variables", "why_tests_cant": "The list is built by recursion and a loop over degrees; a repeated or missing monomial shows only as a singular matrix for some systems.", "anchors": ["yroots/Multiplication.py:580-624"]}
{"id": "C77", "title": "The rows of the Macaulay matrix are the multiples of the polynomials", "statement": "create_matrix writes each polynomial into its own row, in the basis of the columns; build_macaulay produces one row for each polynomial and each monomial that keeps the degree within find_degree, and the row is the product.", "quantifier": "all nonzero polynomials, degrees, numbers of variables and sort routines; power and Chebyshev basis", "why_tests_cant": "All rows pass through one shared scratch array; leftovers would show up only for some sequence of shapes.", "anchors": ["yroots/Multiplication.py:424-486", "yroots/Multiplication.py:532-578", "yroots/MacaulayReduce.py:18-66", "yroots/utils.py:264-288"]}
{"id": "C78", "title": "The reductions of the Macaulay matrix compute its null space", "statement": "reduce_macaulay_svd, reduce_macaulay_qrt: Q has orthonormal columns and every null vector is recovered from its n coordinates by -E and Q; conversely all such vectors are null vectors.  reduce_macaulay_tvb: the first entries of each null vector, in the permuted order, are -E times the last n.", "quantifier": "all matrices of rank at least the number of columns minus n, all condition limits, all exact factorisation routines", "why_tests_cant": "Whether the columns kept are the right ones depends on the rank and on the singular values of the input.", "anchors": ["yroots/MacaulayReduce.py:68-204"]}
{"id": "C79", "title": "The Möller-Stetter matrices have the roots as joint eigenvalues", "statement": "For each common zero z of the rows, the matrices returned by ms_matrices, ms_matrices_cheb, ms_matrices_p and ms_matrices_p_cheb have a common left eigenvector with the eigenvalues z_1, ..., z_dim.", "quantifier": "all Macaulay matrices reduced by one of the three methods, all zeros in complex space", "why_tests_cant": "The index arrays look up shifted monomials by a nearest-neighbour search; a wrong hit gives plausible matrices.", "anchors": ["yroots/Multiplication.py:99-254"]}
{"id": "C80", "title": "msroots returns the joint eigenvalues", "statement": "sort_eigs brings the eigenvalues into the order of the diagonal.  If the matrices have n joint left eigenvectors whose values are separated by the fixed combination, msroots returns these n tuples, in some order.", "quantifier": "all matrices, all numbers of variables, all orders of the computed eigenvalues, repeated eigenvalues of the single matrices included", "why_tests_cant": "The eigenvalues are computed for each coordinate separately and matched; a mismatch swaps coordinates between roots.", "anchors": ["yroots/Multiplication.py:256-339"]}
{"id": "C81", "title": "The Macaulay solver returns exactly the roots", "statement": "multiplication returns the n common zeros of the system in complex space, or those in the unit polydisc if return_all_roots is false, by each of the three methods.", "quantifier": "all systems with as many separated zeros as the product of the degrees and a Macaulay matrix of the expected rank; power and Chebyshev basis", "why_tests_cant": "Any coefficient array satisfying the assumptions, not a sample of systems; includes complex zeros.", "anchors": ["yroots/Multiplication.py:15-97"]}
{"id": "C82", "title": "eigensolve returns the common roots of polynomials in one variable", "statement": "The values returned for several polynomials in one variable are their common roots.", "quantifier": "all lists of nonzero polynomials", "why_tests_cant": "The comparison uses a tolerance of 1e-10 along a chain of polynomials.", "anchors": ["yroots/polyroots.py:45-67"]}
{"id": "C83", "title": "The legacy subdivision solver loses no part of the box", "statement": "subdivision_solve_nd, run to any depth: the roots, potential roots and unexcluded intervals it stores lie in the box up to the buffers; the tracked area grows by the volume of the box, up to the buffers; every common zero in the box lies in an interval tracked as Base Case, Macaulay or Too Deep.", "quantifier": "all functions, boxes, degrees, tolerances, levels and approximation routines; the last part for at most three variables", "why_tests_cant": "The recursion has 52 levels with 2^dim branches and several ways to cut boxes; a lost sliver shows only for a root in it.", "anchors": ["yroots/subdivision.py:522-574", "yroots/subdivision.py:662-831", "yroots/utils.py:1241-1258"]}
{"id": "C84", "title": "The roots stored by the legacy subdivision solver are almost zeros", "statement": "At each root that subdivision_solve_nd stores with the default target_deg = 1, each function is at most target_tol + rel_approx_tol*norm in absolute value, where target_tol may be replaced by the noise of the evaluations; in general each root is a zero of the trimmed approximations or comes from the Macaulay solver for them.", "quantifier": "all functions, boxes, degrees, tolerances, levels and approximation routines within their errors, any number of variables", "why_tests_cant": "The bound passes through trimming, buffering, the linear solver, two filters and the duplicate handling.", "anchors": ["yroots/subdivision.py:662-831", "yroots/subdivision.py:833-905", "yroots/RootTracker.py:63-95"]}
{"id": "C85", "title": "The legacy solver with polishing rounds", "statement": "subdivide_to_linear on several functions, with any number of rounds of tolerances: what is returned lies in the box up to the buffers of the rounds; no possible duplicate is forgotten; every returned root is, up to the tolerances of the last round, a common zero on the box it comes from; every common zero lies in an interval the first round tracked as Base Case, Macaulay or Too Deep; each root is returned once, and further rounds keep it.", "quantifier": "all functions, boxes, arguments, lists of tolerances and approximation routines within their errors", "why_tests_cant": "The rounds interact through the root tracker, the interval data and the tolerances; each failure needs a special position of a root or a special combination of arguments.", "anchors": ["yroots/subdivision.py:29-207", "yroots/RootTracker.py:177-199", "yroots/IntervalChecks.py:137-157"]}
{"id": "C86", "title": "Index arrays multiply rows of the Macaulay matrix by monomials", "statement": "all_permutations(deg, dim, D) has an entry for exactly the monomials in dim variables of degree at most max(1, deg). Indexing the coefficient row of a polynomial with the entry of a monomial gives the coefficient row of their product, whenever the product has degree at most D; the columns are in graded lexicographic order (mons_ordered reversed).", "quantifier": "all numbers of variables, degrees, matrix degrees of at least one, monomials and rows, over any commutative ring", "why_tests_cant": "The arrays come from a recursion over degree and dimension on true/false patterns; a shift in one block is invisible for polynomials without terms there.", "anchors": ["yroots/utils.py:908-1015", "yroots/utils.py:1036-1041", "yroots/utils.py:164-184", "yroots/utils.py:291-299"]}
{"id": "C87", "title": "Index arrays multiply Chebyshev rows by Chebyshev polynomials", "statement": "all_permutations_cheb(deg, dim, D) has an entry for exactly the powers 1 to max(1, deg) of each variable. The entry for the power c of the variable i consists of three index arrays; half the sum of the three indexed rows is the Chebyshev coefficient row of T_c(x_i) times the polynomial, whenever the product has degree at most D.", "quantifier": "all numbers of variables, degrees, matrix degrees of at least one and rows, over any commutative ring", "why_tests_cant": "Index 0 stands for 'no term' as well as for the first column, and three arrays must share out the cases of T_c T_m = (T_{c+m} + T_{|c-m|})/2.", "anchors": ["yroots/utils.py:1043-1238"]}
{"id": "C88", "title": "Rows of one degree of the Macaulay matrix", "statement": "deg_d_polys(polys, deg, dim) selects, for at most dim polynomials of degrees d_v, rows that correspond one to one to the monomials of degree deg divisible by some x_v^d_v; with dim polynomials and deg at least 1 + sum (d_v - 1) there are as many rows as monomials of that degree. Doing this for each degree up to D gives linearly independent rows spanning the same space as all multiples by monomials up to degree D.", "quantifier": "all numbers of variables, degrees and polynomials over any field; the rank for polynomials whose leading monomial for some monomial order is x_v^d_v", "why_tests_cant": "The documentation says 'I have no proof of it, but it seems to work real good'; random dense polynomials never show the dependent rows.", "anchors": ["yroots/utils.py:874-906"]}
{"id": "C89", "title": "Newton polishing and root samples", "statement": "newton_polish returns a common zero with invertible Jacobian unchanged, solves affine systems with invertible matrix in one iteration from any start, and from starts near a common zero with invertible Jacobian at least halves the distance per iteration until it is below tol, raising nothing; it raises if the Jacobian is singular at the start; real polynomials and starts stay real. getRootSample raises exactly if a polishing call raises; otherwise it returns end points in the unit cube, pairwise at least 1e-5 apart, with one within 1e-5 of every end point in the cube.", "quantifier": "all systems of as many polynomials as variables, zeros, starting points, tolerances and numbers of iterations; all lists of starts; exact arithmetic", "why_tests_cant": "Convergence near every simple zero is a statement about a neighbourhood whose size depends on the system.", "anchors": ["yroots/utils.py:1260-1309", "yroots/utils.py:1311-1341"]}
{"id": "C90", "title": "Sorting of polynomials, rows and roots", "statement": "sorted_polys_coeff, sorted_polys_monomial and sort_polys_by_degree return the given polynomials in another order: by decreasing share of the leading coefficient in the sum of the absolute values, by increasing number of non-zero coefficients, by increasing (or decreasing) degree. row_swap_matrix fails exactly if a row is zero and otherwise orders the rows by the column of the first non-zero entry. sortRoots orders the rows by their product with the random vector; two lists of the same roots with pairwise different products are sorted to the same list, and two lists that match up to small errors are sorted into matching order if the products are further apart than the errors.", "quantifier": "all lists of polynomials, matrices, lists of roots and every argsort that sorts positions; exact arithmetic", "why_tests_cant": "Orders and ties depend on the data; tests compare a few sorted lists.", "anchors": ["yroots/utils.py:216-262", "yroots/utils.py:264-288", "yroots/utils.py:849-872", "yroots/utils.py:1499-1509"]}
{"id": "C91", "title": "Dimensions of polynomials, monomials, small entries", "statement": "match_poly_dimensions raises for an empty list only; afterwards all polynomials have the largest number of variables, and a polynomial that had fewer is the same polynomial in the last variables (not in the first: x becomes y). divides decides divisibility of monomials, lcm is the least common multiple, quotient the exponent of the quotient. clean_zeros_from_matrix sets exactly the entries of absolute value below the accuracy to zero for real arrays, but not for complex ones.", "quantifier": "all lists of coefficient arrays of any dimensions (power and Chebyshev basis); all exponents; all arrays; exact arithmetic", "why_tests_cant": "The tests use polynomials in the same number of variables and real arrays.", "anchors": ["yroots/utils.py:131-162", "yroots/utils.py:187-214", "yroots/utils.py:572-594"]}
{"id": "C92", "title": "The legacy solver on affine systems", "statement": "For a system of n >= 2 affine functions in n variables with exactly one common zero: if the zero is strictly inside of the box, subdivide_to_linear returns it and nothing else, without an exception and without potential roots, for any number of polishing rounds, any degree >= 2 and the default degrees; if the zero is outside of the box by more than the tolerances no root is returned; if there is no common zero, no root is returned or the exception for infinitely many roots is raised. The approximations by full_cheb_approximate are exact for affine functions if its shared array has a suitable size.", "quantifier": "all dimensions >= 2, affine systems, boxes, lists of tolerances with target tolerance at least macheps, with and without trust_small_evals; exact arithmetic and exact approximations", "why_tests_cant": "Tests solve a few systems; here the run is followed for all systems and all numbers of rounds.", "anchors": ["yroots/subdivision.py:29-207", "yroots/subdivision.py:522-574", "yroots/subdivision.py:662-905"]}
{"id": "C93", "title": "The subdivision solver on affine systems", "statement": "For n polynomials in n variables whose coefficients of total degree two and more vanish, with an invertible matrix of linear coefficients that is well conditioned after the scaling of the code: let h_j be the half-width in direction j of the set of points at which all polynomials are within the given errors of zero, plus 2^-51. If the box with half-widths h around the zero z lies in [-1,1]^n and has less than 99% of its volume, and the matrix scaled by h is well conditioned as well, solveChebyshevSubdivision returns exactly the root z and exactly this box, whatever the options. Without errors, every zero with |z_j| <= 1 - 2^-51 is returned, with a box of half-width 2^-51. If some |z_j| exceeds 1 by more than h_j, nothing is returned. In all cases the recursion and the loops end.", "quantifier": "all dimensions, all affine systems and sizes of the arrays, all error bounds, all options, all exact singular value decompositions; exact arithmetic", "why_tests_cant": "Tests solve a few linear systems with one setting; here the whole run (trimming, checks, zooming, final step, report) is followed for all affine systems, and termination is part of the claim.", "anchors": ["yroots/ChebyshevSubdivisionSolver.py:578-754", "yroots/ChebyshevSubdivisionSolver.py:812-956", "yroots/ChebyshevSubdivisionSolver.py:1131-1460"]}
{"id": "C94", "title": "solve on affine systems", "statement": "Let solve be called with n affine functions c_i + sum A_ij x_j in n variables with invertible A, on a box [a,b] with a < b, and let the approximations on this box be exact affine polynomials with nonnegative errors e (always so for polynomial objects on [-1,1]^n, where e = 2^-52, and for callables whenever chebApproximate finds a degree of at least one in the directions in which the function is not constant and a nonnegative error). With G the inverse of A and w_j = sum |G_jk| e_k + (b_j - a_j) 2^-52: if the box with half-widths w around the zero y lies in [a,b], has less than 99% of its volume and is not larger than minBoundingIntervalSize in some direction, and the scaled matrices are well conditioned, solve returns exactly one root, y, and exactly this box. If y is outside of [a,b] by more than w_j in some direction, solve returns nothing.", "quantifier": "all dimensions, affine systems, boxes and tolerances, callables and both kinds of polynomial objects, exact=True and False; exact arithmetic", "why_tests_cant": "Tests solve a few systems; here approximation, conversion, subdivision and the transformation back are followed for all affine systems, and the run is shown to end.", "anchors": ["yroots/Combined_Solver.py:10-200", "yroots/ChebyshevApproximator.py:358-450", "yroots/ChebyshevSubdivisionSolver.py:1387-1464"]}
{"id": "C95", "title": "Affine functions are approximated exactly, and solve encloses the zero of affine callables", "statement": "Let f = c + sum q_j x_j be an affine function on a box [a,b] and S its largest absolute value there. chebApproximate returns f itself, in the coordinates of the cube, as an array with two coefficients in the directions in which f varies and one in the others, with an error bound between 0 and 3^n 2^-51 that is positive unless f is constant. Hence solve, called with n affine callables whose matrix A is invertible, returns exactly one root, the zero y of the system, with a box around it whose half-widths are at most (3^n sum_k |A^-1_jk| + b_j - a_j) 2^-51, whenever that box fits into [a,b].", "quantifier": "all dimensions, affine functions and systems, boxes, relative tolerances; exact arithmetic", "why_tests_cant": "Which degree the search settles on depends on magnitudes of coefficients relative to the supremum norm and to machine epsilon; tests use a few functions of unit scale. The run that returns a box without the zero needs a slope that is small against the others.", "anchors": ["yroots/ChebyshevApproximator.py:28-450", "yroots/Combined_Solver.py:10-200"]}
{"id": "C96", "title": "row_linear_dependencies splits the rows into independent ones and ones they span", "statement": "row_linear_dependencies(A) returns two lists that together contain every row index once; the rows in the first list are linearly independent, and every row of A is a combination of them.", "quantifier": "all matrices over an ordered field, all accuracies >= 0, every pivoted QR factorisation meeting its contract (Q orthogonal, A P = Q R, R upper triangular, each pivot the longest remaining column)", "why_tests_cant": "The choice goes through a second pivoted QR of the last rows of Q transposed; that the pivot columns there are exactly rows that may be removed is a statement about null spaces. Tests with generic matrices have full rank and never reach it.", "anchors": ["yroots/utils.py:301-337"]}
{"id": "C97", "title": "remove_linear replaces a system with a linear polynomial by one in fewer variables with the same zeros", "statement": "remove_linear(polys) returns polynomials without linear ones, a map and a flag; the map takes the common zeros of the new polynomials to common zeros of the given ones, and every common zero in the cube is the image of one in the smaller cube.", "quantifier": "all lists of Chebyshev polynomials, tolerances and QR factorisations meeting their contract; three variables for the correspondence of zeros", "why_tests_cant": "The tests of this module are commented out. Every call with a linear polynomial raises, so no test can show what the projection does; that an interpolant of the composition is exact needs the total degree in all dimensions.", "anchors": ["yroots/LinearProjection.py:9-151"]}
{"id": "C98", "title": "get_abs_approx_tol measures the coefficients above a degree", "statement": "get_abs_approx_tol(func, deg, a, b) interpolates func with degree 2 deg near a point of the box and returns ten times the mean of the absolute values of the coefficients of total degree at least deg; so it is 0 exactly if there are none.", "quantifier": "all functions, dimensions, degrees, boxes, random points and contents of the shared array (of suitable size); exact arithmetic", "why_tests_cant": "On an interval of width 2e-14 the values that a test sees are rounding noise, which hides which coefficients are summed and by how many they are divided.", "anchors": ["yroots/subdivision.py:576-660"]}
{"id": "C99", "title": "Rounding does not make the bounding step throw out roots", "statement": "BoundingIntervalLinearSystem in floating-point arithmetic keeps every common zero in the cube: the width added to the new intervals covers the rounding errors.", "quantifier": "all systems with representable coefficients, all roundings to nearest with 53 digits, sums in any order, all answers of the linear algebra; no overflow or underflow", "why_tests_cant": "The loss needs a coefficient much smaller than its row and a zero at the edge of what the row allows; random tests do not hit it, and a lost zero leaves no trace in the output.", "anchors": ["yroots/ChebyshevSubdivisionSolver.py:608-626", "yroots/ChebyshevSubdivisionSolver.py:651-721", "yroots/ChebyshevSubdivisionSolver.py:1200-1247"]}
{"id": "C100", "title": "Transformation error bound covers rounding", "statement": "In floating-point arithmetic (exact=False) the array returned by TransformChebInPlaceND differs on the cube from the polynomial on the subinterval by at most getTransformationError(M, dim).", "quantifier": "all arrays, all axes, all subintervals of [-1,1] with representable midpoint and half length, all roundings to nearest with 53 digits; no overflow or underflow", "why_tests_cant": "The excess is a few percent of 1e-15 and needs particular midpoints; comparisons with a tolerance cannot see it, and the bound is what decides whether a box is discarded.", "anchors": ["yroots/ChebyshevSubdivisionSolver.py:45-120", "yroots/ChebyshevSubdivisionSolver.py:339-374", "yroots/ChebyshevSubdivisionSolver.py:807-827"]}
{"id": "C101", "title": "Rounding does not make the constant check throw out roots", "statement": "The constant-term check of solvePolyRecursive, in floating-point arithmetic, discards a box only if functions within errors of the polynomials have no common zero there.", "quantifier": "all systems with representable coefficients, all roundings to nearest with 53 digits, sums in any order; no overflow or underflow", "why_tests_cant": "The margin is one unit in the last place of the sum of the coefficients; a random test does not come that close, and a discarded root leaves no trace.", "anchors": ["yroots/ChebyshevSubdivisionSolver.py:1211-1217"]}
{"id": "C102", "title": "Rounding does not spoil the errors of trimmed polynomials", "statement": "After trimMs in floating-point arithmetic the new errors are valid for the trimmed polynomials whenever the old ones were valid for the old polynomials.", "quantifier": "all systems with representable coefficients, all roundings to nearest with 53 digits, sums in any order; no overflow or underflow", "why_tests_cant": "The missing part is below one unit in the last place of the error.", "anchors": ["yroots/ChebyshevSubdivisionSolver.py:1131-1171"]}
{"id": "C103", "title": "Interval tracking survives rounding", "statement": "In floating-point arithmetic the tracked interval stays ordered and inside the interval before, close to the one of exact arithmetic, and the halves of a subdivision leave no gap.", "quantifier": "all sequences of addTransform, copy and startFinalStep with sub-intervals in [-1,1]^n, all roundings to nearest with 53 digits; no overflow or underflow", "why_tests_cant": "The deviations are of the size of one unit in the last place and depend on all the steps before.", "anchors": ["yroots/ChebyshevSubdivisionSolver.py:420-454", "yroots/ChebyshevSubdivisionSolver.py:1110-1127"]}
{"id": "C104", "title": "The reported interval survives rounding", "statement": "In floating-point arithmetic getFinalInterval and getFinalPoint return, up to a few units in the last place, the interval of exact arithmetic and its midpoint; the interval is ordered and inside the starting interval.", "quantifier": "all sequences of operations with at most 2^20 calls of addTransform, all roundings to nearest with 53 digits; no overflow or underflow", "why_tests_cant": "The double-double loop matters only after many transforms, and a test compares with the same floating-point values.", "anchors": ["yroots/ChebyshevSubdivisionSolver.py:460-514"]}
{"id": "C105", "title": "Reported roots in user coordinates survive rounding", "statement": "The roots and boxes which solve returns for the search region [a,b] are, up to a few units in the last place of the bounds, the images of those of exact arithmetic; they are inside [a,b], and boxes stay ordered.", "quantifier": "all sequences of operations with at most 2^20 calls of addTransform, all real a, b, all roundings to nearest with 53 digits; no overflow or underflow", "why_tests_cant": "Tests use search intervals such as [-1,1] or [-5,5] for which the map to the region is exact at the ends.", "anchors": ["yroots/ChebyshevApproximator.py:9-26", "yroots/Combined_Solver.py:173-190"]}
{"id": "C106", "title": "The quadratic check in two variables survives rounding", "statement": "In floating-point arithmetic, if quadratic_check_2D returns True, functions within the tolerance of the polynomial have no zero on the square; and if the quadratic part stays clearly away from the band of the other coefficients, it returns True.", "quantifier": "all coefficient arrays with at most 2^20 representable entries, all tolerances, all roundings to nearest with 53 digits, sums in any order; no overflow or underflow", "why_tests_cant": "The loss needs a quadratic form that is nearly singular (relative determinant about 1e-11) with its minimum just below zero; random tests do not meet it, and a test compares with the same floating-point values.", "anchors": ["yroots/QuadraticCheck.py:34-182", "yroots/ChebyshevSubdivisionSolver.py:1221-1224"]}
{"id": "C107", "title": "The quadratic check in three variables survives rounding", "statement": "In floating-point arithmetic, if quadratic_check_3D returns True, functions within the tolerance of the polynomial have no zero on the cube; and if the quadratic part stays clearly away from the band of the other coefficients, it returns True.", "quantifier": "all coefficient arrays with at most 2^20 representable entries, all tolerances, all roundings to nearest with 53 digits, sums in any order; no overflow or underflow", "why_tests_cant": "The loss needs a quadratic form that is nearly of rank one with its minimum just below zero; random tests do not meet it, and a test compares with the same floating-point values.", "anchors": ["yroots/QuadraticCheck.py:184-520", "yroots/ChebyshevSubdivisionSolver.py:1221-1224"]}
{"id": "C108", "title": "A relative slack in the errors protects the roots from rounding", "statement": "In floating-point arithmetic the beginning of solvePolyRecursive (constant check, quadratic check, trimming, linear bounds and inverse matrix) does not throw out a cube with a common zero of functions within errors of the polynomials.", "quantifier": "all systems with at most 2^20 representable entries per array, all nonnegative errors, all roundings to nearest with 53 digits, sums in any order, linear algebra with given relative errors; no overflow or underflow", "why_tests_cant": "It composes the rounding errors of five checks and a quantity (the error of the inverse) that no test can vary; whether a cube is lost depends on the last bits of all of them.", "anchors": ["yroots/ChebyshevSubdivisionSolver.py:608-741", "yroots/ChebyshevSubdivisionSolver.py:1131-1171", "yroots/ChebyshevSubdivisionSolver.py:1200-1247", "yroots/QuadraticCheck.py:51-520"]}
{"id": "C109", "title": "Transformation error bound covers rounding with exact=True", "statement": "In floating-point arithmetic with exact=True the array returned by TransformChebInPlaceND differs on the cube from the polynomial on the subinterval by at most getTransformationError(M, dim).", "quantifier": "all arrays, all axes, all subintervals of [-1,1] with representable midpoint and half length, all roundings to nearest with 53 digits; no overflow or underflow", "why_tests_cant": "The variant carries an error term for every entry of every column; whether those terms catch all rounding errors depends on the order of a dozen operations per entry, and a lost term changes the result by one part in 10^16.", "anchors": ["yroots/ChebyshevSubdivisionSolver.py:122-238", "yroots/ChebyshevSubdivisionSolver.py:240-337", "yroots/ChebyshevSubdivisionSolver.py:339-374", "yroots/ChebyshevSubdivisionSolver.py:807-827"]}
{"id": "C110", "title": "Errors returned by transformChebToInterval are valid in floating point", "statement": "In floating-point arithmetic (exact=False) the errors returned after a zoom to a subinterval bound, on the whole cube, the distance of the new arrays from the functions composed with the exact affine map onto that subinterval, if the old errors bounded the distance before.", "quantifier": "all dimensions, all arrays, all errors, all functions within the errors, all subintervals of [-1,1]^n with representable bounds, all roundings to nearest with 53 digits and all orders of summation; no overflow or underflow", "why_tests_cant": "The midpoint and half length are themselves rounded, so the new cube is not exactly the subinterval, the rounding of each axis enters the next one, and the error itself is a rounded sum; all of it is at the level of 10^-16, where no reference value is available at run time.", "anchors": ["yroots/ChebyshevSubdivisionSolver.py:801-804", "yroots/ChebyshevSubdivisionSolver.py:806-832", "yroots/ChebyshevSubdivisionSolver.py:834-859", "yroots/ChebyshevSubdivisionSolver.py:861-886", "yroots/ChebyshevSubdivisionSolver.py:438-443"]}
{"id": "C111", "title": "The zoom loop in floating point does not lose a root", "statement": "If the errors bound the distance of the functions from the arrays on the cube and the functions have a common root there, then the rounded zoom loop of solvePolyRecursive (not in the final step, exact=False) never marks the interval as empty; the root is in the nested subinterval that is returned, and the returned errors bound the distance of the functions from the returned arrays there.", "quantifier": "all dimensions, all arrays with representable coefficients, all functions within the errors, all roots, all tracked intervals outside of the final step, all numbers of zooms, all roundings to nearest with 53 digits, all orders of summation, and any linear algebra of given accuracy; no overflow or underflow", "why_tests_cant": "Every zoom throws away most of the cube on the strength of rounded bounds and passes rounded arrays and rounded errors to the next; whether a root close to a bound survives 20 zooms cannot be told from the output, since a lost root leaves no trace.", "anchors": ["yroots/ChebyshevSubdivisionSolver.py:628-753", "yroots/ChebyshevSubdivisionSolver.py:861-894", "yroots/ChebyshevSubdivisionSolver.py:896-956", "yroots/ChebyshevSubdivisionSolver.py:1243-1252"]}
{"id": "C112", "title": "The recursive search in floating point does not lose a root", "statement": "If the errors bound the distance of the functions from the arrays on the cube and the functions have a common root there, then the rounded search of solvePolyRecursive (constant-term check, quadratic check, trimming, zooms, subdivision and recursion, exact=False, up to the final step) returns a box that contains the root, and the arrays and errors returned with it describe the functions there.", "quantifier": "all dimensions, all arrays with representable coefficients, all functions within the errors, all roots, all tracked intervals outside of the final step, all depths up to 60, all numbers of zooms, all roundings to nearest with 53 digits, all orders of summation, any linear algebra of given accuracy, any sort permutation; no overflow or underflow", "why_tests_cant": "The number of paths through the recursion is exponential, and a root that is lost next to a subdivision point or through an error that is too small by one rounding leaves no trace in the output.", "anchors": ["yroots/ChebyshevSubdivisionSolver.py:1013-1049", "yroots/ChebyshevSubdivisionSolver.py:1051-1129", "yroots/ChebyshevSubdivisionSolver.py:1177-1317"]}
{"id": "C113", "title": "Combining touching boxes in floating point loses nothing", "statement": "In floating point the combine loop terminates, the tracked boxes of its result cover every point covered before, and the sub-box to which the polynomials are transformed for the rerun contains the local coordinates of all points of the two boxes that were combined.", "quantifier": "all lists of tracked intervals in all dimensions, all points, all roundings to nearest with 53 digits; no overflow or underflow", "why_tests_cant": "The tracked box is exact, the sub-box for the polynomials is a rounded quotient of differences that cancel; a discrepancy shows only for boxes that are tiny compared with their parent, and the rerun then searches the wrong set without a message.", "anchors": ["yroots/ChebyshevSubdivisionSolver.py:1318-1365"]}
{"id": "C114", "title": "Corners of an array: slice_top and slice_bottom", "statement": "Assigning an array M to result[slice_top(M.shape)] of an array of zeros at least as large keeps the polynomial in both bases; assigning it to result[slice_bottom(M)] of an array enlarged by mon multiplies the power-basis polynomial by the monomial with exponents mon; an array too large is refused with ValueError.", "quantifier": "all arrays, all numbers of axes, all shapes of the larger array", "why_tests_cant": "Tests use one or two shapes; the clipping of slice bounds, the case of a bound -0 and broadcasting of axes of length 1 depend on the shape.", "anchors": ["yroots/utils.py:538-570", "yroots/utils.py:613-615", "yroots/utils.py:706", "yroots/utils.py:729", "yroots/utils.py:738"]}
{"id": "C115", "title": "get_var_list gives the variables", "statement": "get_var_list(dim) is the list of the dim unit vectors, in order; coeff[tuple(get_var_list(dim))] is the list of the linear coefficients in the order of the variables.", "quantifier": "all dimensions, all arrays", "why_tests_cant": "The index lists are read column by column by numpy, the list of variables is written row by row; tests use dimension 2 and 3. Whether every axis is long enough depends on the input.", "anchors": ["yroots/utils.py:290-299", "yroots/utils.py:415-420", "yroots/IntervalChecks.py:633", "yroots/LinearProjection.py:186-187", "yroots/LinearProjection.py:246"]}
