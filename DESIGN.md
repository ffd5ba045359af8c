# Formal model of yroots (tylerjarvis/RootFinding)

Source read as text: `/repo/yroots`. Properties: `properties.jsonl`. Status and theorem names per property:
`MANIFEST.json`. Mutation tests: `seeded/LOG.jsonl`. Everything is Lean 4.33.0 with Mathlib; build with `lake build` in
`lean/`.

Layout of `lean/Verif`:

* `Spec/` what the words of the properties mean, independently of the program (`Tensor.eval`, `chebT`, `IsFloat`,
  `RoundsToNearest`);
* `Model/` the program, function by function, each definition citing file and lines;
* `Proofs/` helper lemmas and invariants;
* `Props/` the property theorems (names `Cxx_...`) and the examples showing that their hypotheses can be met.

## Trusted base

* The Lean kernel and Mathlib. Every property theorem depends on at most `propext`, `Classical.choice`, `Quot.sound`.
* The hand translation from Python to Lean.
* **Arithmetic is exact.** The solver is generic over an ordered field `K` with a floor function; theorems that need
  cosines, compactness or derivatives are over `ℝ`. Overflow, underflow and NaN are outside the model. Rounding is
  modelled for C43 and C99 to C113 (radix 2, 53 digits, unbounded exponents, any tie rule, sums in any order).
* External calls are parameters with a stated contract, or their defining formula:
  `np.linalg.svd` (`SVD.Valid`: orthogonal factors, descending non-negative singular values; with rounding `SvdF.Accurate`, C108; the former satisfiable by
  `SVD.exists_valid`), `np.argsort` (a permutation), iteration over a Python `set` (a list without repetitions with the
  same elements; ascending where stated), `matrix_rank` and `la.solve` (`LinAlg`), user functions,
  `scipy.fftpack.dctn`, `scipy.signal.convolve`, `chebder`, `polyder` (formulas).
* Unbounded recursion and `while` loops carry fuel; running out is the value `Exc.outOfFuel`. Theorems about results read
  "for every fuel, if the run returns ...", i.e. partial correctness of the unbounded program (`Props/Fuel`:
  an outcome other than `outOfFuel` is the outcome for all larger amounts of fuel).
* Not modelled: printing, timing, warnings, plotting, numba compilation (the numba and plain copies of a function have
  the same body and are one definition), the file `num_of_times` which `BoundingIntervalLinearSystem` rewrites on every call
  (lines 718-720), memory sharing between a numpy slice and its base.

## Representation

* `Tensor n K`: `shape : Fin n → ℕ` and `coef : (Fin n → ℕ) → K`; entries outside the shape are never read by the
  specification. `Tensor.eval M x` is the sum over multi-indices of coefficient times product of Chebyshev polynomials,
  `Tensor.evalPow` the same for powers. These are specifications, not models of code.
* `Box n K`: lower and upper corner. `TrackedInterval n K`: a record with the attributes of the class.
* Exceptions are values `Except Exc _`.
* In-place updates are threaded as state. Aliasing is modelled in `Model/Heap`, `Model/HeapSolver`: arrays, lists and
  objects are cells, attributes hold addresses; `C44_same_outcome` proves that this program computes what the value model
  computes.

## What is modelled

| file | lines | model |
|------|-------|-------|
| ChebyshevSubdivisionSolver.py | 12-43 `SolverOptions` | `Opts` (Solver) |
| | 46-374 the three variants of `TransformChebInPlace1D`, `TransformChebInPlaceND` | Transform |
| | 376-576 `TrackedInterval` | Interval (values), Heap (references) |
| | 578-626 `getLinearTerms`, `linearCheck1` | Bounding |
| | 628-753 `BoundingIntervalLinearSystem` with scaling, preconditioning, the aliased `a_init`, both passes | Bounding |
| | 755-805 `TwoSum`, `Split`, `TwoProd`, `TwoProdWithSplit` | Transform (exact), Float (rounded) |
| | 807-894 `getTransformationError`, `transformCheb`, `transformChebToInterval` | Transform |
| | 896-956 `zoomInOnIntervalIter` | Zoom |
| | 981-1129 `getInverseOrder`, `getSubdivisionDims`, `getSubdivisionIntervals` | Subdivide; PySet for the iteration over `dimSet` in CPython |
| | 1131-1171 `trimMs` | Zoom |
| | 1173-1464 `isExteriorInterval`, `solvePolyRecursive`, `solveChebyshevSubdivision` | Combine, Solver, HeapSolver |
| QuadraticCheck.py | all | Quadratic |
| polynomial.py | constructor, cleaning, arithmetic, `__call__`, `evaluate_grid`, `grad`, `to_cheb`, `__eq__` | Polynomial |
| | dtype of coefficient arrays, up to the first bounding step | Dtype |
| ChebyshevApproximator.py | all | Approx |
| Combined_Solver.py | 10-200 `solve` | Solve |

`chebTransform1D` (958-979) is the definition `transformND`, which it calls. Not modelled: `__repr__`/`__str__`, plotting.

Legacy modules of the earlier solver, still in the package:

| file | lines | model |
|------|-------|-------|
| OneDimension.py | all | OneDim (eigenvalue routines are the oracle `Eigen`) |
| IntervalChecks.py | 20-280, 395-1403 | IntervalChecks (`scipy.linalg.solve` is the oracle `LinSolve`, rank test and solver of the check `LinAlg`; plotting and printing, 282-393, not modelled) |
| subdivision.py | 833-971 `trim_coeffs`, `mon_combos_limited` | TrimCoeffs, MonCombos |
| utils.py | 11-33, 1019-1034 memoisation; 748-847 enumeration of monomials | Memo, MonCombos |
| RootTracker.py | whole file: `add_roots`, `add_potential_root`, `keep_possible_duplicates`, `get_polish_intervals` | RootTracker |
| utils.py | 67-126 `Term` | TermOrder |
| utils.py | 395-440 `solve_linear` | SolveLinear (`scipy.linalg.lu` written out, `np.linalg.solve` an oracle) |
| utils.py | 164-184 `inverse_P`, 339-393 `triangular_solve` | TriangularSolve |
| ProjectiveSpace.py | 9-98 | RootsAtInf (`return_root` is not modelled) |
| utils.py | 618-746 `_fold_in_i_dir`, `_mon_mult1`, `mon_mult2` | MonMult |
| M_maker.py | whole file | MMaker (`fftn` as its defining sum; warnings and `M_rescaled` are left out; `max_deg[dim]` is a parameter) |
| utils.py | 442-536 `makePolyCoeffMatrix` | PolyString (`int` and `float` of a string are parameters) |
| utils.py | 1373-1459 `Tolerances` | Tolerances |
| utils.py | 1462-1497 `householder`, `condeig` | EigCond (LAPACK routines are parameters) |
| LinearProjection.py | 228-277 `nullspace`, `rref` | Rref |
| LinearProjection.py | 81-92, 153-226 `bounding_parallelepiped`, the map of `project_down` | Parallelepiped (QR factorisations are parameters) |
| subdivision.py | 210-320, 382-518 `values_arr`, `chebyshev_block_copy`, `interval_approximate_nd`, `full_cheb_approximate` | BlockCopy (contents of `np.empty` are parameters) |
| subdivision.py | 322-363 `interval_approximate_1d`, 973-1086 `good_zeros_1d`, `subdivision_solve_1d` | Solve1D |
| Multiplication.py | 15-97 `multiplication`, 99-254 index arrays and `ms_matrices*`, 256-339 `sort_eigs`, `msroots`, 424-486 `build_macaulay`, 532-624 `create_matrix`, `sorted_matrix_terms` | Macaulay (numpy and scipy routines are fields of `MacLib`, `MsLib`; not modelled: 341-422 and 488-530, which use undefined names) |
| MacaulayReduce.py | 18-204 `add_polys`, `find_degree`, `reduce_macaulay_qrt`, `reduce_macaulay_svd`, `reduce_macaulay_tvb` | Macaulay |
| polyroots.py | 45-67 `eigensolve` in one variable | Eigensolve |
| subdivision.py | 522-574 `zeros_in_interval`, `good_zeros_nd`, 662-831 `subdivision_solve_nd` | SolveND (`full_cheb_approximate`, `get_abs_approx_tol`, `multiplication` are fields of `NDLib`) |
| subdivision.py | 29-207 `subdivide_to_linear` | SubdivideTop (tolerances of the rounds as a list, see Tolerances; plots and messages left out; one function: OneDim) |
| utils.py | 908-1015 `arrays`, `permutation_array`, `all_permutations`, 1036-1238 `mons_ordered`, `cheb_perturbation2/3`, `all_permutations_cheb`, `mons_1D` | Permutations (dictionaries are lists of pairs; memoisation left out) |
| utils.py | 874-906 `deg_d_polys` | DegDPolys (degree and multiplication by monomials are parameters) |
| utils.py | 1260-1341 `newton_polish`, `getRootSample` | Newton (over the complex numbers, exact; `numpy.linalg.solve` and the random starting points are parameters) |
| utils.py | 216-288 `sorted_polys_coeff`, `sorted_polys_monomial`, `row_swap_matrix`, 849-872 `sort_polys_by_degree`, 1499-1509 `sortRoots` | Sorting, Macaulay (`numpy.argsort` and the random vector are parameters; the degree of a polynomial is a parameter) |
| utils.py | 131-162 `clean_zeros_from_matrix`, `divides`, 187-214 `lcm`, `quotient`, 572-616 `match_poly_dimensions`, `match_size` | Dimensions, Polynomial |
| utils.py | 301-337 `row_linear_dependencies` | RowDeps (pivoted QR is a parameter) |
| LinearProjection.py | 9-151 `remove_linear`, `project_down`, `proj_approximate_nd` | RemoveLinear (`degree` and the call of `trim_coeffs` are parameters, with the values of this commit as `pinnedDegree`, `pinnedTrim`; systems in one variable are not modelled) |
| subdivision.py | 576-660 `get_abs_approx_tol`, `deg_slices`, `random_point` (the point is a parameter) | EvalNoise |
| ChebyshevSubdivisionSolver.py | 608-626, 651-721, 1200-1247 in floating-point arithmetic (linear algebra, quadratic checks and `trimMs` are parameters) | FloatBounding |
| ChebyshevSubdivisionSolver.py | 45-120, 339-374 in floating-point arithmetic, exact=False | FloatTransform |
| ChebyshevSubdivisionSolver.py | 1131-1171, 1211-1217 in floating-point arithmetic | FloatTrim, FloatBounding |
| ChebyshevSubdivisionSolver.py | 420-489, 1110-1127 in floating-point arithmetic | FloatInterval |
| ChebyshevSubdivisionSolver.py, ChebyshevApproximator.py | 491-514 `getFinalPoint`, 9-26 `transform` in floating-point arithmetic | FloatInterval |
| QuadraticCheck.py | 34-182 `quadratic_check_2D` in floating-point arithmetic | FloatQuadratic |
| QuadraticCheck.py | 184-520 `quadratic_check_3D` in floating-point arithmetic | FloatQuadratic |
| ChebyshevSubdivisionSolver.py | 122-374 (exact=True) | `Model/FloatTransformExact.lean`: the two error-free variants and the dispatch over the axes in floating point |
| ChebyshevSubdivisionSolver.py | 801-886 in floating point | `Model/FloatZoom.lean`: midpoint and half length, the loop over the axes and the error sum with rounding, exact=False |
| ChebyshevSubdivisionSolver.py | 628-753, 861-956, 1243-1252 in floating point | `Model/FloatIter.lean`: the bounding step with its cut to [-1,1] and its ratio, one zoom, the zoom loop, with rounding, exact=False |
| ChebyshevSubdivisionSolver.py | 1013-1129, 1177-1317 in floating point | `Model/FloatSearch.lean`: choice of the axes, subdivision of the arrays and intervals, the search up to the final step, with rounding, exact=False |
| ChebyshevSubdivisionSolver.py | 1318-1365 in floating point | `Model/FloatCombine.lean`: the combined interval and the combine loop with rounding |
| utils.py | 290-299 `get_var_list`, 538-570 `slice_top`, `slice_bottom` | Slices (slice assignment with broadcasting and indexing by lists as in numpy) |

## Per property

| id | result | how |
|----|--------|-----|
| C01 | proved for axes of at most 10^16 entries (partial) | invariant `the errors strictly bound abs(F - M) on the tracked box`, kept by trimming (C21), zooming (C14), subdividing (C22), combining (C26) and re-running; induction on fuel. The restriction comes from C09 |
| C02 | proved for axes of at most 7 entries (partial); false for axes of 101 entries | same proof; the code's bound on the transformation error is false for long axes (C09), and `C02_no_lost_root_default_false` (`Props/LostRoot.lean`) follows one run of the whole solver that loses a root because of it |
| C03 | partial; false by default for long axes (`C03_solve_default_false`) | induction on fuel over `solve` on top of C01/C02; the approximator is a parameter whose reported errors are assumed strict on the visited boxes; for polynomials and `chebApproximate` itself this follows if the degrees found suffice and the error is positive |
| C04 | proved | induction; boxes of the sub-solver are in [-1,1]^n (C29) |
| C05 | false, witness [100,101]; exact condition proved | the split point 0.512(a+b) lies in [a,b] only under a condition stated by `C05_split_valid_iff` |
| C06 | proved | over `boolProduct` |
| C07 | false, witness x - 1/2 on [-1.000005, 1] | `np.allclose` takes the box for the unit box; proved on the unit box and away from it |
| C08 | proved | loop invariant: the buffers hold the coefficients of T_(k-1)(αx+β), T_k(αx+β); three variants |
| C09 | false for degree 40 with the default setting; partial | perturbation of the three-term recurrence, abs(U_k) ≤ k+1 |
| C10 | proved | induction over the axes |
| C11 | proved, with an exact characterisation of the returned interval | triangle inequality |
| C12 | proved | C11 and the inverse through the SVD; also in the final step; the result is in [-1,1]^n |
| C13 | proved | mixed-radix arithmetic on the raveled array |
| C14 | roots kept: proved; new errors: as C09, false by default for long axes (`C14_zoom_default_false`) | C12, C09, C15 |
| C15 | tracking, nesting proved; final interval false for topInterval ≠ [-1,1] | induction over operation sequences |
| C16 | proved for copies, refuted in general | heap model, separation invariant over all programs |
| C17 | proved, with characterisation | triangle inequality |
| C18, C19 | proved for functions strictly within tol; false at equality | extreme values of a quadratic on a cube: induction over faces |
| C20 | proved for an exact rank test; false with numpy's tolerance (witness, n = 4) | Schur-complement argument for skipped faces |
| C21 | proved, also maximality | loop invariant |
| C22 | proved given ascending set iteration (true of CPython in at most 8 dimensions, C23) and C09; false by default for axes of 130 entries (`C22_subdivision_default_false`) | induction over dimensions, C24; the negation follows the run of the transformation with integers (`Proofs/SplitLoss.lean`) |
| C23 | false in dimension 9 (order 8, 0); proved for ascending orders, which CPython's hash table gives in at most 8 dimensions whatever the insertion order | invariant of the table: key k sits in slot k |
| C24 | proved | binary index arithmetic |
| C25 | proved; the case without dimensions raises IndexError (`C25_no_dims_false`) | filters |
| C26 | proved | termination measure and invariant of the nested loops |
| C27 | false in 2-D; proved in 1-D | |
| C28, C29 | proved for every environment | invariant over the recursion |
| C30 | proved | recurrence x T_k = (T_(k+1) + T_(k-1))/2 |
| C31-C33, C35 | proved | sums over multi-indices; Horner and Clenshaw recurrences with broadcasting; cached Jacobian |
| C34 | false for constant MultiPower; proved otherwise | broadcasting of an axis of length 1 |
| C36 | proved | discrete orthogonality of cosines, product over axes |
| C37 | proved, finite and infinite sums | expansion of a product of geometric sums |
| C38 | false (two witnesses); partial bounds | |
| C39 | proved, with the conditions under which an interpolant is accepted | induction over the doublings |
| C40 | false (two witnesses); terminates for polynomials nonzero at a corner, and in one variable | |
| C41 | false: in-place division of an integer array raises | dtype model |
| C42 | false: `allclose` is relative to its right operand; symmetric up to a factor | |
| C43 | proved | Knuth's and Dekker's theorems, proved from the definition of rounding to nearest |
| C44 | proved | refinement of the value model by the heap model; every cell in use before the call is unchanged |
| C45 | proved in 2-D, 3-D; n-D with an exact rank test | range of a quadratic |
| C46 | proved for every environment | invariant over the recursion: what is set aside as interior touches no face of the box of the call |
| C47 | proved for every environment | loop invariant of the removal of duplicates; inversion of one call |
| C48 | proved for every enumeration of the dimensions | induction over the dimensions |
| C49 | proved for the companion and colleague matrices; false for the division matrix if 0 is a root, or for constants | characteristic polynomial from the left eigenvector of powers or Chebyshev values, so roots come with multiplicity |
| C50 | proved for functions strictly within the errors; false when an error is attained | the affine part at a zero is bounded by the rest plus the error (`eval_linear_bound`), so the zero is strictly inside every interval that is pushed; invariant over the methods, then merging, clamping, widening |
| C51 | proved | `quad_range` moved to a box by an affine change of variables, then completeness of the candidate points |
| C52 | proved for boxes with equal sides; false otherwise | as C51 with exact linear algebra; witness in four variables |
| C53 | volume accounting proved; cover for strict errors, at most three variables, false in four | from C50-C52; the subintervals tile the cube (product of sums), induction over the checks |
| C54 | proved if the corner coefficient is zero; false otherwise (witness T2(x)T2(y)) | invariant of the loop: all coefficients of total degree above the current one are zero; C55 for the list of monomials |
| C55 | proved | induction over the remaining positions with the overwritten list threaded through; a callee leaves everything but its own position as it was |
| C56 | proved | C55 with a large shape; hockey-stick identity for the counts |
| C57 | proved for memoize and Memoize; false for memoize_permutaions | invariant of the cache over sequences of calls |
| C58 | four partial results, each with a witness that the full claim is false | invariants over sequences of calls |
| C59 | proved; witness for different lengths | each scan against the textbook definition; Dickson's lemma for well-foundedness |
| C60 | acceptance proved; validation partial, with a witness | case analysis |
| C61 | partial with two witnesses | row operations of the LU factorisation keep the solutions |
| C62 | `inverse_P` proved; `triangular_solve` for matrices that are not square; witness | induction over the scan for pivots and over the back substitution |
| C63 | `roots_at_inf` partial; `common_root_at_inf` false, with a witness | C49 for the dehomogenised form |
| C64 | power proved; Chebyshev partial, with a general negation for the pinned numpy | closed form of the fold along one axis, then induction over the axes |
| C65 | partial with a negation | invariant of the dictionaries; fibrewise summation for the mirrored FFT |
| C66 | partial with three witnesses | induction over the rounds with the measure sum(max - deg); keys of the memo in order |
| C67 | partial | `C67_reads_partial`: list of characters split at `+` and `*`; induction over the terms with the array of the terms read so far; int and float literals are an oracle that is assumed right on decimal integers.  `C67_repeated_false`, `C67_square_false`, `C67_negative_false`: witnesses. |
| C68 | partial | `C68_sequence_partial`: the instance dictionary as an association list, invariant over the number of calls.  `C68_lengths`: ValueError iff two lists differ in length.  Witnesses for names that collide. |
| C69 | proved | `C69_householder`, `C69_condeig`, `C69_defined`, `C69_condvec`: exact complex arithmetic; qr, solve_triangular and svd are a structure of functions with their specification (`EigLib.Correct`). |
| C70 | partial | `C70_nullspace`, `C70_solutions_partial`, `C70_polys_partial`, `C70_defined`: induction over the elimination steps with an invariant on kernel and echelon form.  Witnesses: `C70_inconsistent_false`, `C70_tall_false`. |
| C71 | partial | `C71_covers_partial`: a zero in the cube is a convex combination of zeros on edges of the cube (induction over the number of coordinates off the boundary), all of which are found; rows of R bound their coordinates.  `C71_in_plane`: by the pivoting the last column of Q is normal to the vertices.  `exists_qr` (Proofs/PivotQR) constructs pivoted QR factorisations by Householder reflections, so the assumption on QR is not vacuous.  `C71_small_false`: for `1e-9 x` no intersection is found. |
| C72 | partial | `C72_image_partial`: for three variables.  `C72_line_false`: for the polynomial y in two variables and every correct QR factorisation there are zeros in the square that are not in the image. |
| C73 | partial | `C73_copy_partial`, `C73_run_partial` (induction over the blocks, and over any sequence of calls: the size never shrinks).  `C73_lost_false`: for every even size between deg+1 and 2 deg - 1. |
| C74 | partial | `C74_full_partial`: FFT of the mirrored array equals the cosine transform (from C65).  `C74_zero_false`: for every deg ≥ 4 there is a content of the uninitialised memory for which the zero function is rejected. |
| C75 | partial | `C75_solve`: induction over the recursion; the approximation is the interpolant (C65), trimming changes it by at most the dropped coefficients, `multCheb` finds all roots (C49).  `C75_poly`: leading coefficient in the Chebyshev basis.  `C75_raises`, `C75_small_false`. |
| C76 | proved | `C76_terms`: from the enumeration of monomials (C56), by induction over the degree.  `C76_degree_zero`: the degenerate case. |
| C77 | partial | `C77_create`, `C77_build` (the rows as polynomials; invariants of the scratch array), `C77_mult_power`, `C77_mult_cheb` (the multiplications meet the assumption).  `C77_build_false`, `C77_long_axis`. |
| C78 | proved | `C78_cols`: the rank of the lower block is at least k, so the first k singular values (pivots) are nonzero and the first k coordinates of a null vector vanish.  `C78_cols_null` by dimension count, `C78_cols_total`, `C78_tvb`. |
| C79 | proved | The shifted monomial of a lower column is itself a column, so the nearest one is an exact hit; x T_n = (T_{n+1} + T_{|n-1|})/2 in the Chebyshev basis; then C78. |
| C80 | proved | `C80_sort`, `C80_sort_close`: invariant of the greedy matching; argsort of a permutation is its inverse.  `C80_msroots`: each matrix is a polynomial in the combination (interpolation), so the Schur vectors triangularise all of them at once. |
| C81 | partial | `C81_roots`: C77 to C80 composed.  `C81_total`: the product of the degrees is smaller than the number of monomials of lower degree, so square systems with accepted condition number do not raise.  `C81_single_false`: one polynomial in one variable, x^2 - 1/4, meets all assumptions but `multiplication` raises a NameError. |
| C82 | partial | `C82_common`, `C82_near_partial`, `C82_separated`: induction over the list.  `C82_false`: witness. |
| C83 | partial | `C83_location`, `C83_area`, `C83_cover_partial`: induction over the tree of calls (`Runs`, to which every successful run is shown to belong), with C50 to C53 for each node.  `C83_cover_false`: a zero of two exact polynomials on `[-10, 10]^2` that is in no tracked interval, and no root or potential root within 1e-9 of it, for every maximal level. |
| C84 | partial | `C84_roots`: invariant over the tree of calls of C83, with C54 and C61.  `C84_residual_partial`: with `target_deg = 1` the Macaulay solver is never called.  `C84_residual_false`: a run with exact approximations and the default tolerances. |
| C85 | partial | `C85_location`, `C85_residual_partial`, `C85_potential`, `C85_cover_partial`: invariants of tracker and interval data over the tree of calls of C83, then over the intervals of a round and over the rounds.  `C85_once_false`: `x - m + ε (x - m)^3` and `y - 1/2` on `[-1, 1]^2` with the default reductions.  `C85_trust_false`: a run with exact approximations that returns the zero after one round and nothing after two. |
| C86 | proved | The pattern of `arrays` is the divisibility pattern of the columns (double induction over dimension and degree); the divisible columns are the columns of one degree less times the variable; composition of arrays is multiplication of monomials; invariant over the loop that fills the dictionary. |
| C87 | proved | The first array as in C86.  The other two: the loops write each position at most once because `m -> |m - c|` is injective on the monomials they run over; monomials without a column have no entry in the row. |
| C88 | false in general, partial proved | Multiplying the monomial of a row by x_v^d_v is injective because the exponents of earlier variables are bounded; distinct leading monomials give independence; a multiple that is not a row is rewritten with f_i f_v = f_v f_i, by induction over the polynomial and well-founded induction over the monomial order. |
| C89 | proved | The map of a Newton step is estimated with the derivative at the zero, continuity of the Jacobian and of the inverse of linear maps; induction over the iterations.  Sampling: invariant of the loop. |
| C90 | proved | Taking entries at permuted positions is a permutation; order from the specification of argsort; uniqueness of sorted permutations. |
| C91 | proved | Bijection of the index sets of the two arrays; cleaning does not change values (PolyClean); divisibility of monomials from Mathlib. |
| C92 | proved | The arrays are trimmed to their linear part; one call of line 805 for other degrees; `solve_linear` finds the zero (C61); the filters keep it; induction over the polishing rounds.  `C92_approx` derives the hypothesis on the approximations from C74 and the uniqueness of Chebyshev coefficients. |
| C93 | proved | Trimming keeps an affine system; the checks do not discard it; the first zoom cuts to the box around `z` (the extremes of the parallelepiped are attained, so that the two ways to bound agree); the errors grow enough by the transformation that the second zoom stops; the final step with errors zero zooms at `z` until the boxes of half-width `2^-51` stop shrinking, or finds a point; the midpoint of its box is `z`. |
| C94 | proved | C93 in the coordinates of the cube; the coefficients of an exact approximation are affine by the uniqueness of Chebyshev coefficients (C36); the example is a complete run over the reals with `chebApproximate`. |
| C95 | partial, false in general | Coefficients of the interpolant from C36 (uniqueness of Chebyshev coefficients); supremum norm at a corner; one pass of the search per direction by induction over the directions; the error bound as a sum over subsets of directions; then C94. The counterexample is a complete run of the model of `solve` over the reals. |
| C96 | partial, false in general | The nonzero pivots come first, so the count is the rank; the last rows of Q transposed annihilate A and are orthonormal; their pivot columns form an invertible matrix, which gives independence of the other rows and solves for the pivot ones. |
| C97 | partial, false of the code | Case analysis of the recursion for the exceptions. The composition with an affine map has degree at most the total degree in each variable, so the interpolant is exact (C36, C73); then C71 and C72. |
| C98 | partial, false in general | Uniqueness of the coefficients of the interpolant (C36), the block copy (C73), and counting. |
| C99 | partial, false in general | Relative error of each rounding, lower bounds for rounded sums by induction on the tree of additions, exactness of scalings by powers of two; the witness by evaluation with ties to even. |
| C100 | partial, false in general | Each rounded column satisfies the recurrence of the Chebyshev polynomials up to a defect; the defects are summed with Chebyshev polynomials of the second kind (induction on the column); the witness by evaluation. |
| C101 | partial, false in general | Rounded sums of nonnegative numbers are at least each of them and lose a relative 2^-53 per term (induction on the tree of additions); the witness by evaluation. |
| C102 | partial, false in general | Invariant of the loop: the error is at least (1 - 2^-53)^(rows removed + coefficients) times the exact one, and error plus allowance grows by at most a factor 1 + 2^-53 per row. |
| C103 | partial, false in general | Simulation between the rounded and the exact run over all operation sequences: an affine step is a convex combination of the bounds, so errors are passed on with factor 1 and each step adds 4 units of the size; witnesses by evaluation. |
| C104 | partial, false in general | TwoSum and TwoProd are exact (C43), so only the three operations on the error term round; invariant on value, error and their sum over the list of transforms, combined with the simulation of C103. |
| C105 | partial, false in general | Error bound of a rounded affine map on top of C104; monotonicity of rounding; witnesses by evaluation. |
| C106 | partial, false in general | Error analysis of the evaluation, of the quotients on the sides and of Cramer's rule if the determinant is at least 2^-29 of its scale; if not, the value at the interior point is within 2^-28 of one on the boundary, reached along the flat direction. Combined with the exact extremum theorem of C45. |
| C107 | partial, false in general | Error analysis of the evaluation and of the sum of the other coefficients. For the loss: along a direction in which the exact form is nearly flat the point slides to the boundary at a small cost; otherwise the form is definite enough for the computed critical point to be close to the true one, or for its value to be no larger. Interior, faces and edges in turn. The witness by kernel evaluation, its common zero by the intermediate value theorem. |
| C108 | partial, false in general | The bounds on the rounding errors of every check (C99, C101, C102, C106, C107) are put in terms of the sums of the absolute values of the coefficients; the interval from the inverse matrix is shown to contain the scaled zero: a row of the inverse times the scaled masses adds up to at least 1/4, so all errors are relative to that sum. |
| C109 | partial | The error-free transformations (C43) make every step exact up to the rounding of the error terms: value plus error term follow the recurrence with local errors of order u^2. Local errors are propagated with Chebyshev polynomials of the second kind; the sums of absolute values of the columns are bounded by discrete orthogonality (sqrt(2N) times the maximum). What remains of order u is the accumulation of the output, N roundings of sums of size sqrt(2N). |
| C110 | partial | The columns of the rounded recurrence are compared with T_c at the exact affine map: rounding the midpoint and half length is a relative perturbation of the multiplier, propagated with Chebyshev polynomials of the second kind like the rounding errors (C109). Induction over the axes for any start array and start error; the sum of the errors is compared with the exact one. |
| C111 | partial | Invariant over the zooms: the true error and the maximum of the polynomial grow by a factor (1 + 21 N^(5/2) 2^-52 C) per axis, the stored error by 1 +- 2^-29 per zoom. It needs the sum of the absolute values of the coefficients to be at most C times the maximum on the cube (`Proofs/NormBound.lean`: Parseval at the Chebyshev points, axis by axis, and Cauchy-Schwarz), since otherwise the sum could grow by a factor with every zoom. The bounds of one zoom contain the root by C108; the point the root stands for is tracked exactly. |
| C112 | partial | Invariant over all steps of a path through the recursion (`SearchInv`): after k zooms or splits and l trimmings the true error and the maximum of the polynomial have grown by at most (1 + q)^(n k), the stored error exceeds the true one by what is left of the slack; one step for trimming (C102), for one zoom (C111), for one axis of a subdivision (C100); the child that has the root is found by the exact split points, and induction on the depth of the recursion. The checks keep the box by C106, C107, C108. |
| C113 | partial | Tracked boxes: the loop invariants of C26 for the rounded merge. Sub-box: rounding error of each of the five operations of line 1347; bounds replaced by -1 and 1 are exact. |
| C114 | proved except for arrays with an empty axis (partial), false there | slice bounds as integers with Python's rules, numpy's assignment with broadcasting; a bijection of the multi-indices shifted by `mon` |
| C115 | proved if every axis has two entries (partial), otherwise IndexError | invariant of the loop that changes one list and changes it back; numpy's indexing with a tuple of lists written out |

## Disagreements between the code and the properties

* **C05** `midPoint = (a+b)*0.512...` (Combined_Solver.py 147) is not `a + (b-a)*0.512...`; on [100,101] it is 102.98 and the
  recursive call raises `ValueError`.
* **C07** `np.allclose(a,-1)` (lines 110-113) accepts [-1.000005, 1]; the coefficients are then read on [-1,1] and the boxes are
  mapped to [a,b], so the reported box of x - 1/2 misses 1/2.
* **C09** `getTransformationError` = `macheps * shape[dim] * sum(abs(M))` ignores rows dropped below 1e-16; at degree 40 the
  true error exceeds it.
* **C15** `getFinalInterval` replays the transforms from [-1,1], not from `topInterval`.
* **C16** the constructor stores its argument as `topInterval` and as `interval` (lines 405-406), so the first `addTransform`
  on an uncopied object changes `topInterval`; `copy()` shares `topInterval`. `addTransform` also clamps its argument in
  place (434-437).
* **C18-C20** the comparisons are strict (`<`, `>`), so a function at distance exactly `tol` may have a zero in a
  discarded box. `quadratic_check_nd` skips faces whose matrix is numerically rank deficient.
* **C23** child intervals are generated in set iteration order, child tensors in ascending order; CPython iterates {0, 8}
  as 8, 0.
* **C25** when every dimension has length 0 or is negligible, `getSubdivisionIntervals` raises `IndexError`.
* **C27** merging a pair makes a hull which may touch a box earlier in the list.
* **C34** a constant `MultiPower` returns one value for any number of points.
* **C38** for c·x with 0 < c < 2^-51 the measured rho is below 1 and the error negative; a polynomial equal to 1 at all
  sampled points is replaced by 1 with error 0. `getApproxError` counts discarded coefficients once although each is
  aliased onto a kept one (factor 2).
* **C40** `startedConverging` compares strictly with a tolerance which is 0 for the zero function: the loop never ends.
* **C41** integer coefficient arrays raise `UFuncTypeError` at `A[i] /= s` (line 673).
* **C42** `np.allclose(a, b)` is not symmetric.
* **C43** the docstring of `Split` says `a = x` in floating point; refuted by `C43_split_not_equal`.
* Without a property: `evaluate_grid` and `grad` use names removed from numpy (`np.product`, dtype `"complex_"`);
  `interval_approximate_nd` changes the caller's `degs` (line 57), and `chebApproximate` afterwards reads the changed array;
  `BoundingIntervalLinearSystem` reads and rewrites the file `num_of_times`.
* **C49** (`OneDimension.py`) `divCheb` raises `IndexError` for a constant, and loses every nonzero root of a
  polynomial that vanishes at 0; a `MultiPower` built with `clean_zeros=False` and a zero leading coefficient gets a
  spurious root 0.
* **C50** (`IntervalChecks.py`) when an interval shrinks to a point, `widthAndBoundCheck` replaces it by `[0,0]` and
  `get_subintervals` discards the whole box, although the point is the root (exact linear systems with zero error).  In
  dimensions other than two, a singular linear part makes `la.solve` raise `LinAlgError` and stops the solve.
* **C52** (`IntervalChecks.py`, lines 1353-1354) `X0 = [interval[j][i] for i,j in enumerate(side)]` uses the position `i`
  instead of the variable `fixed[i]`: in four or more variables a subinterval containing a root can be thrown out.
* **C53** (`IntervalChecks.py`) inherits C50 and C52; `C53_cover_false`: in four variables a common zero lies in none of the boxes returned when the checks are run.  `np.product` (removed in numpy 2.0) is used for the areas.
* **C54** (`subdivision.py`, line 868) `deg = np.sum(coeff.shape) - dim - 1` is one less than the degree of the corner of the
  array, and the range stops there: the corner coefficient is neither counted in the error nor set to zero, but may be cut off
  by the slices in lines 891 and 899.  For one-dimensional arrays and shapes like (k,2) the list of monomials is empty and
  `coeff[()]` is the whole array: the series is either declared bad or replaced by zero (with the right error).
* **C57** (`utils.py`, line 1028) the cache of `memoize_permutaions` ignores the arguments `permutations` and
  `current_degree`.  (The package never calls the decorated function.)
* **C58** (`RootTracker.py`, lines 83-96) a zero found from a box it is not inside is dropped as soon as it is strictly inside
  any searched box, whether or not it was found there.  Lines 173-174: one potential root in `n` dimensions extends `intervals` and
  `methods` by `n` entries, so later roots are paired with wrong intervals.  A zero on the common boundary of two boxes is
  reported twice.
* **C59** (`utils.py`, lines 118-119) comparing terms with different numbers of variables gives contradictory answers: each of
  `Term((1,))` and `Term((0,1))` is `>` the other.
* **C60** (`Combined_Solver.py`, lines 94-104) the number of bounds is not compared with the number of functions: two functions
  with three lower and three upper bounds pass the validation.
* **C61** (`utils.py`, lines 430-438) for `y = 1`, `y = 2` (inconsistent) the function raises `TooManyRoots`: the factor `U` of an LU
  factorisation is not an echelon form, so the last column is not recognised as a pivot column.  Line 417: an array with one entry
  along the first axis is read as a constant, and the root of `y = 1/2`, `x = 1/2` is lost.
* **C62** (`utils.py`, lines 391-393) for a square matrix the identity is returned without looking at the matrix.
* **C63** (`ProjectiveSpace.py`, lines 34-37) `np.diag(w[::-1])` puts the reversed coefficients of the leading form on the main diagonal
  instead of the anti-diagonal, so `common_root_at_inf` evaluates `F(1, x)` at the point `(x, 1)`: it does not find the common root
  of `f = g = x`.  Lines 64-66: for a nonzero constant `roots_at_inf` returns `(1, 0)`.
* **C64** (`utils.py`, lines 648-683) the Chebyshev case indexes arrays with lists of slices, which the numpy of `requirements.txt`
  (1.24) rejects: `IndexError` for every monomial except 1.
* **C65** (`M_maker.py`, line 287) `np.column_stack` of the nodes of the axes fails for functions with `evaluate_grid` if the degrees
  differ, which the search for the degrees always makes them (**C66**: already for `x^2 + y^2` with the guess 1).
* **C66** (`M_maker.py`, lines 198-200) a guess above the maximum is cut, but `M` and `M2` are not recomputed: `degs` does not belong to
  `M`.  Line 120: `values_block` is the last but one entry of the memo, which in two variables can be the block of a test (degrees
  `(2, 1)` instead of `(2, 2)` for `x^2 + y^2`).
* **C58** (`RootTracker.py`, lines 177-191) `get_polish_intervals` says that it deletes the rest of the information, but keeps
  `possible_duplicates` and `potential_roots`: a zero of the first search is reported after the second although that did not find it.
* **C67** (`utils.py`, lines 442-536) the coefficient of a repeated monomial and the exponent of a repeated variable are assigned, not
  added: `x0+x0` and `x0*x0` are both read as `x0`.  A negative exponent is not rejected: `3x0^2+-2x0^-1` is read as `-2x0^2`.
* **C68** (`utils.py`, lines 1373-1459) the lists are stored as attributes with the name of the tolerance and an `s`: `t` and `ts`
  overwrite each other, and `nextTol` hides the method `nextTols` (`TypeError`).
* **C70** (`LinearProjection.py`, lines 228-277) `nullspace` drops rows of zeros without looking at the constants: `x = 0, x + 1 = 0`
  becomes `x = 0`; with more polynomials than variables it can raise `ValueError`; `np.float` was removed in numpy 1.24.
* **C71** (`LinearProjection.py`, lines 153-226) a coefficient below `1e-8` is taken for zero: for `1e-9 x` no intersection with the cube is
  found and the edge returned covers half of the line.
* **C72** (`LinearProjection.py`, line 91) the centre is `p0` plus the mean of the edges, which is half their sum only in three variables.
* `LinearProjection.py`: `proj_approximate_nd` reads `f.degree`, which `Polynomial` does not have, `project_down` calls `trim_coeffs` with two
  of its five arguments, and `remove_linear` returns two values for one polynomial where its own recursive call unpacks three.  Besides,
  `Multiplication.py` and `polyroots.py` import `is_power` from `polynomial.py`, which does not define it, so they (and `subdivision.py`,
  which imports them) cannot be imported; their functions are modelled one by one as written.
* **C73, C74** (`subdivision.py`, lines 155-156, 264-320) the array shared by all approximations has `2 (deg + 3)` entries per axis.  The
  approximation of degree `2 deg` needs `4 deg`; when the second block does not fit, the array is replaced by a new one from `np.empty` after the
  first block was copied into the old one.  For `deg > 3` the first such approximation of a solve therefore uses uninitialised values.
* **C75** (`subdivision.py`, lines 1059-1068) the coefficients are trimmed down to a constant if they are below the absolute tolerance, so the
  root of `1e-13 x` is not found.  `trust_small_evals` is not passed on to the subintervals.
* **C77, C81** (`Multiplication.py`, `MacaulayReduce.py`) the module imports `is_power` from `polynomial.py`, which does not define it, and uses
  `poly.degree` and `poly.mon_mult`, which do not exist; so neither `Multiplication.py` nor `polyroots.py` nor `subdivision.py` can be imported.  `reduce_macaulay_p`
  uses `bezout_bound` without defining it, `MSMultMatrix` uses `MacaulayReduction` and `ConditioningError`, `multiplication` with one polynomial uses
  `transform` (`C81_single_false`).  The error message of `reduce_macaulay_tvb` for the second condition number reports the first one.
* **C82** (`polyroots.py`, lines 57-66) a root of the last polynomial is returned if it is within 1e-10 of a root of the one before; for `x` and
  `x - 1e-11` a value is returned although there is no common root.
* **C83** (`subdivision.py`, lines 734-738, 792, 798, 822) `get_subintervals` is called with the box without buffer, but the approximations were made on the box
  with buffer.  A bounding interval is therefore placed wrongly by up to 5e-10 of the width, more than the rounding of 1e-9 allows for wide boxes: on `[-10, 10]^2` a zero
  is lost (`C83_cover_false`).
* **C84** (`subdivision.py`, lines 866-871) because `trim_coeffs` does not look at the coefficient of highest total degree, a function with no other coefficient
  of degree above one is taken for its linear part and a point that is no zero is returned (`C84_residual_false`).
* **C85** (`subdivision.py`, lines 734-738; `RootTracker.py`, lines 76-87) boxes that share a side overlap by their buffers.  A root in the overlap is inside of both
  boxes, `add_roots` stores it without a look at the roots it has, and it is returned twice (`C85_once_false`).
* **C85** (`subdivision.py`, line 185) `trust_small_evals` is not passed on to the calls that polish.  With targets below `macheps`, for which it is meant, a second round
  finds no root and the roots of the first one are gone (`C85_trust_false`).
* **C85** (`RootTracker.py`, lines 177-191) polishing clears the roots but not the potential roots: those of the first round are returned even if later rounds
  resolve them (`C85_potential`).
* `deg_d_polys` (`utils.py` 874-906): the documentation claims a full rank matrix; for the polynomials `y, x, z^2` two of the rows in degree 2 are equal and the multiple `x^2` is not in the span of the rows (`C88_rank_false`).  The function is not called anywhere, and the polynomial classes of the pinned commit have no `degree` and no `mon_mult`; both are parameters of the model.
* `match_poly_dimensions` (utils.py 572-594) promises "the same polynomials but of the same dimensions".  It puts the new axes in front, so a polynomial in `x` alone becomes the polynomial in the last variable (`C91_first_variables_false`).
* `clean_zeros_from_matrix` (utils.py 131-146) promises to set values less than the accuracy to zero.  For complex arrays numpy compares lexicographically, so `5i` is set to zero (`C91_clean_complex_false`).
* `solve` on the callables `x + 1e-13 y` and `y - 1/2` on [-1,1]^2 (relApproxTol at its default 1e-10) returns the root (0, 1/2) with a bounding box of half-widths below 5e-15 that does not contain the zero (-5e-14, 1/2): `checkConstantInDimension` takes `y` for absent from the first function, and the error bound of `chebApproximate` is computed as if that were exact (`C95_small_slope_false`). So the promise of the docstring of `solve` (lines 85-86: 'The exact intervals (boxes) in which each root is bound to lie') does not hold for callables, even for well-conditioned linear systems.
* `row_linear_dependencies` compares the diagonal of R with the absolute accuracy 1e-10, so for the matrix (1e-11) its docstring ('rows that can be removed without affecting the rank') is violated (`C96_small_false`).
* `remove_linear` (`LinearProjection.py`, lines 9-54) raises for every system of two or more polynomials that contains one of degree at most one in each variable (`C97_raises_false`, `C97_attribute_false`): `f.degree` (line 123) does not exist, `trim_coeffs(proj_poly_coeff, approx_tol)` (line 100) lacks three arguments, and the branch for one polynomial (lines 38-42) returns two values where line 51 unpacks three. By the same test bilinear polynomials such as `xy` count as linear.
* `get_abs_approx_tol` (`subdivision.py`, lines 612-616): by the comment the sum is divided 'by the number of spots that were summed up', but the divisor is `(2*deg)**dim - deg**dim` and the number is `(2*deg+1)**dim - deg**dim` (`C98_mean_false`); the docstring of `deg_slices` speaks of the total degree, but the slice is per variable (`C98_total_false`).
* `BoundingIntervalLinearSystem` (lines 693-696): the width added 'to avoid rounding error throwing out roots' is `max(condNum,2)*macheps` with `condNum = S[-1]/S[0] <= 1`, so always `2^-51`, while the bounds of `linearCheck1` carry rounding errors proportional to `totalErrs/|A|`. For `1024 + 2^-42 + 1024 x + 2^-21 y` and `2^-21 + y` the zero `(-1, -2^-21)` is thrown out in the first step (`C99_false`).
* `getTransformationError` (lines 807-827) does not bound the rounding errors of the transformation: for `T_5` on `[1 - 2a, 1]`, `a = 25020575/2^27`, the array computed in binary64 is off at the right end by more than the reported `6*2^-52` (`C100_false`). A true bound is `22 N^2` times the reported one (`C100_bound_partial`).
* The constant check (lines 1213-1217) has no allowance for rounding: for `-(1024 + 2^-42) + 1024 T_1 + 2^-42 T_2` with the error `2^-52` the computed sum of the other coefficients is below the constant term and the box with the zero `1` is discarded (`C101_false`).
* `trimMs` (lines 1164-1165) adds the removed coefficients to the error with rounding to nearest, so the error can stay the same although something was removed (`C102_false`).
* `addTransform` (lines 438-454) does not keep intervals ordered in floating-point arithmetic: from `[-1,1]` the sub-interval `[-5310211665428477/2^53, -1866296/2^22]` and then `[1 - 2^-53, 1]` give a lower bound above the upper bound, and `[-1, 1 - 2^-53]` an interval that is not inside the one before (`C103_nested_false`).
* `getFinalInterval` (lines 473-484) rounds alpha and beta before the double-double loop, so the reported interval can leave `[-1,1]`: with the sub-interval `[-6755399441055747/2^53, 1]` three times the reported upper bound is `1 + 2^-52` though the tracked one is 1 (`C104_final_within_false`).
* The reported interval can have its lower bound above its upper bound, by rounding in the error term of the double-double loop (lines 476-484); witness with five sub-intervals in `C104_final_ordered_false`.
* `transform` (ChebyshevApproximator.py line 26) does not take -1 and 1 to `a` and `b` in floating-point arithmetic: for `[0.1, 0.7]` a root at the lower end is reported below 0.1; for `[0.1, 0.3]` the box `[-1,1]` solved again no longer contains 0.1 (`C105_ends_false`).
* `quadratic_check_2D` (QuadraticCheck.py lines 94-100) computes the interior critical point by Cramer's rule; for a nearly singular quadratic form the computed minimum is too large by up to 3.5e-11 of the coefficients, far above the tolerance 2^-52 of polynomials, and boxes with roots are discarded (`C106_false`, `C106_system_false`).
* `quadratic_check_3D` (QuadraticCheck.py lines 251-268, 436-508) computes critical points by Cramer's rule; for a quadratic form that is nearly of rank one the computed minimum is too large by up to 3.9e-7 of the coefficients (in two variables 3.5e-11), nine orders of magnitude above the tolerance 2^-52 of polynomials, and boxes with roots are discarded (`C107_false`, `C107_system_false`).
* C110: the errors after a zoom are not valid in floating point: for T_5, error 0, on [1 - 2a, 1] with a = 25020575/2^27 the returned error is exceeded at x = 1.
* C111: in floating point the zoom loop can lose a root: two affine polynomials, errors 2^-52 (the witness of C99).
* C112: in floating point the search can lose a root: two affine polynomials, errors 2^-52 (the witness of C99); no box is returned.
* C113: in floating point the sub-box for the polynomials of two combined boxes can be a single point although the boxes have length 2^-60 each: line 1347 adds numbers of the size of the parent's bounds to the bounds of the boxes. The tracked interval is right. A root is not lost by this alone, since the error added by line 1376 is larger than the change of the polynomials over such a box.
* C02, C03, C14: by default (exact=False) `solve` loses a root even in exact arithmetic. The system T_100(x) - 1 + 2^-52 T_3(y), s(x - 1), s = 2^-52/(2e-10 - 2^-51) (two Chebyshev polynomial objects with 101x4 and 2x1 coefficients) has the simple root (1, 0) in [-1,1]^2, and no root and no box is returned. The first zoom goes to x in [1 - 2e-10, 1]; the transformation drops every row whose entries are below 1e-16 in size, together these rows amount to more than 300 machine epsilons, while the error is only raised to 216 machine epsilons, and the next bounding step discards the box (`C02_no_lost_root_default_false`, `C03_solve_default_false`, `C14_zoom_default_false`).
* C22: by default (exact=False) cutting an axis of 130 coefficients in the middle changes the polynomial by more than the error added: for T_129 with error 0 the value of the right half at its right end differs from 1 by more than 130 machine epsilons, in exact arithmetic (`C22_subdivision_default_false`). As in C09 the cause is the dropping of the rows below 1e-16.
* C114: `slice_bottom` of an array with an empty axis selects the whole axis (`slice(-0, None)`), and the assignment raises ValueError (`C114_bottom_empty_false`). The code does not make such arrays by itself.
* C115: `coeff[tuple(get_var_list(dim))]` (IntervalChecks.py line 633, LinearProjection.py line 246) raises IndexError for a polynomial that does not contain some variable, if that axis has one entry (`C115_linear_short_false`).

## Mutation tests

Each attempt edits one definition of the model in a scratch copy and rebuilds. `seeded/LOG.jsonl` has the edit, the claim
broken by it, the theorems that failed, and what was tightened. Survivors so far and what was done:

* `linBounds`, `linearCheck1` (bounds too wide): `C11_linearCheck1_iff` added.
* sign of the error term of `twoSum` in the exact model: `C43_value_model` added.
* `isExteriorInterval` with `and` instead of `or`: C46 added.
* removal of duplicates, recorded duplicate roots, the flag for extra roots, split points kept by copies and reset by cuts:
  only helper lemmas failed; C47 and C48 added so that a claim fails.
* boxes merged without touching: `C26_grown` added.
* Left: `TrackedInterval.__contains__` (not called), the second pass of `BoundingIntervalLinearSystem` (decides when zooming
  stops, which no property is about).
* choice of approximator results, acceptance (`C39_accepted` added), hypothesis of `C07_box_partial` restated without the model's
  own test.
* `get_polish_intervals` keeping the roots: `C58_polish_partial` added.
* `solve` reporting the index of the first function that cannot be called: `C60_reports` added.
* negative exponents in `makePolyCoeffMatrix`: `C67_negative_false` added.
* `good_zeros_nd` accepting large imaginary parts: `C84_roots` now bounds the imaginary part of the answer of `multiplication` a root comes from.
* `getTolDict` found although an attribute hides it: `C68_getTolDict_false` added.
