{
 "claims": [
  {
   "property": "C01",
   "status": "partial",
   "theorems": [
    "YRoots.C01_no_lost_root_partial"
   ],
   "note": "exact=True, all dimensions, all functions within the errors, every run that returns; axes of at most 10^16 entries; exact arithmetic"
  },
  {
   "property": "C02",
   "status": "partial",
   "theorems": [
    "YRoots.C02_no_lost_root_default_partial",
    "YRoots.C02_no_lost_root_default_false"
   ],
   "note": "default transformation; proved for axes of at most 7 entries; false for axes of 101 entries: two polynomials with a simple common root in the cube for which the solver returns no box, for every valid singular value decomposition and all flags"
  },
  {
   "property": "C03",
   "status": "partial",
   "theorems": [
    "YRoots.C03_solve_exact_partial",
    "YRoots.C03_solve_default_partial",
    "YRoots.C03_solve_default_false",
    "YRoots.C03_polynomial_box",
    "YRoots.C03_polynomial_partial"
   ],
   "note": "all dimensions, functions and recursion histories that return, for strict approximations on the visited boxes; axes of at most 10^16 entries (exact=True) or 7 entries (default), as in C01/C02; false by default for long axes (solve on two polynomial objects of 101x4 and 2x1 coefficients returns nothing although they have a common root). With the library's own approximator and polynomials the approximation hypothesis is replaced by one on what the approximator returned (degrees at least those of the polynomial, positive error)."
  },
  {
   "property": "C04",
   "status": "proved",
   "theorems": [
    "YRoots.C04_inside"
   ],
   "note": "for every approximator and every environment"
  },
  {
   "property": "C05",
   "status": "partial",
   "theorems": [
    "YRoots.C05_valid_box_false",
    "YRoots.C05_split_valid_iff",
    "YRoots.C05_raises",
    "YRoots.C05_origin_partial"
   ],
   "note": "false: on [100,101] the split point 102.98 lies outside the box and the recursive call raises ValueError; valid exactly if the split point lies in the box, e.g. for boxes containing the origin"
  },
  {
   "property": "C06",
   "status": "proved",
   "theorems": [
    "YRoots.C06_cover"
   ],
   "note": ""
  },
  {
   "property": "C07",
   "status": "partial",
   "theorems": [
    "YRoots.C07_near_unit_false",
    "YRoots.C07_box_partial"
   ],
   "note": "false: on [-1.000005,1] the coefficients of the unit box are used and the only root lies outside the only returned box; true on the unit box and on boxes not near it"
  },
  {
   "property": "C08",
   "status": "proved",
   "theorems": [
    "YRoots.C08_reexpansion_exact",
    "YRoots.C08_reexpansion_exact_of_length"
   ],
   "note": "both exact settings and the Split variant; exact arithmetic"
  },
  {
   "property": "C09",
   "status": "partial",
   "theorems": [
    "YRoots.C09_transformError_exact_partial",
    "YRoots.C09_transformError_default_partial",
    "YRoots.C09_transformCheb_partial",
    "YRoots.C09_transformError_default_false"
   ],
   "note": "false for the default setting at degree 40 (negation proved); holds for axes of length <= 7 (default) and <= 10^16 (exact=True); rounding in the default setting: C100"
  },
  {
   "property": "C10",
   "status": "proved",
   "theorems": [
    "YRoots.C10_transformND_fibrewise",
    "YRoots.C10_transformND_eval",
    "YRoots.C10_transformCheb_eval"
   ],
   "note": ""
  },
  {
   "property": "C100",
   "status": "partial",
   "theorems": [
    "YRoots.C100_two_partial",
    "YRoots.C100_bound_partial",
    "YRoots.C100_sharp_partial",
    "YRoots.C100_false"
   ],
   "note": "False: for T_5 on [1 - 2a, 1] with a = 25020575/2^27 the binary64 computation (ties to even, no row dropped) is off at x = 1 by more than 6 * 2^-52. Proved: the claim for axes with at most two entries; for N <= 2^15 entries the error is at most 22 N^2 times the reported one, dropped rows included, and for N <= 2^19 at most 21 N^(3/2) times (C100_sharp_partial). The variant exact=True: C109."
  },
  {
   "property": "C101",
   "status": "partial",
   "theorems": [
    "YRoots.C101_slack_partial",
    "YRoots.C101_false"
   ],
   "note": "False: -(1024 + 2^-42) + 1024 T_1 + 2^-42 T_2 vanishes at 1, but with the error 2^-52 of solve the sum loses its last term and the check discards the box. Proved: what is discarded has no zero for functions within the error less ((m+2) absSum + 2 error)/2^53."
  },
  {
   "property": "C102",
   "status": "partial",
   "theorems": [
    "YRoots.C102_trim_partial",
    "YRoots.C102_false"
   ],
   "note": "False: 1 + 2^-54 T_4 with error 1 loses T_4 and the error stays 1. Proved: the new error raised by a relative 2^-53 per coefficient and per row of the array is valid, and it is at most the old one times 1.001 and the rounding errors."
  },
  {
   "property": "C103",
   "status": "partial",
   "theorems": [
    "YRoots.C103_tracking_float_partial",
    "YRoots.C103_tracking_units_partial",
    "YRoots.C103_split_cover",
    "YRoots.C103_nested_false"
   ],
   "note": "False: two calls with representable ordered sub-intervals give an interval with the lower bound above the upper one, another pair one that sticks out of its parent. Proved: after k calls every bound is within (1 + 4/2^53)^k - 1 (so 8k/2^53) of the exact one, with the same decisions; the intervals of a subdivision cover their parent whatever the rounding."
  },
  {
   "property": "C104",
   "status": "partial",
   "theorems": [
    "YRoots.C104_replay",
    "YRoots.C104_final_interval_partial",
    "YRoots.C104_final_point_partial",
    "YRoots.C104_final_within_false",
    "YRoots.C104_final_ordered_false"
   ],
   "note": "False: three times the same sub-interval [a,1] from [-1,1]; all upper bounds are exactly 1, the reported one is 1 + 2^-52. Five sub-intervals whose reported lower bound is above the upper one. Proved: the loop returns the exact value of the recorded transforms up to one rounding and 100 k^2/2^106, the reported bounds are within (2k+2)/2^53 of the exact run and the reported point within (2k+4)/2^53 of its midpoint."
  },
  {
   "property": "C105",
   "status": "partial",
   "theorems": [
    "YRoots.C105_monotone",
    "YRoots.C105_reported_partial",
    "YRoots.C105_ends_false"
   ],
   "note": "False: for [0.1,0.7] the lower end is taken to a number below 0.1, so a root there is reported outside; for [0.1,0.3] to a number above 0.1, so a box that is solved again loses it. Proved: root and box bounds are within (2k+9) M/2^53 of the exact ones, M = max(|a|,|b|), and the rounded map is monotone."
  },
  {
   "property": "C106",
   "status": "partial",
   "theorems": [
    "YRoots.C106_crossing_partial",
    "YRoots.C106_slack_partial",
    "YRoots.C106_fires",
    "YRoots.C106_false",
    "YRoots.C106_system_false"
   ],
   "note": "False: Cramer's rule gives the interior minimum only up to about 2^-53 / determinant, so a polynomial with coefficients of size 1 to 4 that goes down to -3.5e-11 on a thin ellipse is discarded with tolerance 2^-52; the system with T_1(x) - 3/8 has a common zero and the solver returns no interval. Proved: functions closer than tol - 2^-27 (absSum + tol) have no zero, and the check returns True when the quadratic part is away by 2^-30 (absSum + tol) more than needed."
  },
  {
   "property": "C107",
   "status": "partial",
   "theorems": [
    "YRoots.C107_crossing_partial",
    "YRoots.C107_slack_partial",
    "YRoots.C107_fires",
    "YRoots.C107_false",
    "YRoots.C107_system_false"
   ],
   "note": "False: for a nearly singular form Cramer's rule loses so many digits that a polynomial with coefficients of size 1 to 4 that goes down to -3.9e-7 on the cube is discarded with tolerance 2^-52; the system with T_1(x) - 1/8 and T_1(y) has a common zero, robust against changes of 3.9e-7, and the solver returns no interval. Proved: the claim for functions closer than the tolerance less 2^-13 (absSum + tol), and the check returns True when the quadratic part is away by 2^-30 (absSum + tol) more than needed."
  },
  {
   "property": "C108",
   "status": "partial",
   "theorems": [
    "YRoots.C108_bounding_partial",
    "YRoots.C108_kept_partial",
    "YRoots.C108_two_partial",
    "YRoots.C108_three_partial",
    "YRoots.C108_false"
   ],
   "note": "False when the errors are just upper bounds (the witness of C99 with all checks of the code). Proved when they exceed the true errors by tau (absSum + errors) with tau = 2^-26 + 5 rho + 4 gamma, where rho bounds the rows of Ainv A - I and gamma the relative errors of the products with Ainv; in three variables also tau >= 2^-13, for the quadratic check. The contract on the linear algebra is an assumption (Spec/FloatSvd.lean). Missing: the later zooms and the final step."
  },
  {
   "property": "C109",
   "status": "partial",
   "theorems": [
    "YRoots.C109_bound_partial",
    "YRoots.C109_halves_partial",
    "YRoots.C109_two_partial"
   ],
   "note": "Proved: the claim for axes with at most two entries; for N <= 2048 entries and no dropped row the error is at most sqrt(N) times the reported one (with exact=False only 22 N^2 is proved and the claim is false, C100); for the halves of an interval and N <= 100 no row is dropped. Missing: dropped rows, and whether the factor sqrt(N), which comes from the additions to transformedCoeffs, is needed."
  },
  {
   "property": "C11",
   "status": "proved",
   "theorems": [
    "YRoots.C11_linearCheck1_sound",
    "YRoots.C11_linearCheck1_sound_cheb",
    "YRoots.C11_linearCheck1_iff"
   ],
   "note": "exact arithmetic; infinities as bottom/top"
  },
  {
   "property": "C110",
   "status": "partial",
   "theorems": [
    "YRoots.C110_bound_partial",
    "YRoots.C110_factor_partial",
    "YRoots.C110_false"
   ],
   "note": "False: for T_5 with error 0 on [1 - 2a, 1], a = 25020575/2^27, the returned error 6 * 2^-52 is below the error at x = 1 (the witness of C100). Proved: the returned error is up to 2^-29 relative the old one plus an allowance G, and the distance is at most the old error plus 21 N^(3/2) G; so 22 N^(3/2) times the returned error is valid, N the greatest length of an axis, at most 2^19 entries in all."
  },
  {
   "property": "C111",
   "status": "partial",
   "theorems": [
    "YRoots.C111_kept_partial",
    "YRoots.C111_false"
   ],
   "note": "False: for two affine polynomials with errors 2^-52 and a root in the cube the first zoom marks the interval as empty (the witness of C99). Proved: with errors that exceed the true ones by a multiple tau of the sums of the absolute values of the coefficients the root is kept through any number K of zooms up to 2^20; tau is 4 (2^-28 + 4 rho + 3 gamma) C + 2 n K 21 N^(5/2) 2^-52 C + K 2^-29, C^2 = 2^n times the number of coefficients, N the greatest length of an axis, rho and gamma the accuracy of the linear algebra."
  },
  {
   "property": "C112",
   "status": "partial",
   "theorems": [
    "YRoots.C112_kept_partial",
    "YRoots.C112_two_partial",
    "YRoots.C112_three_partial",
    "YRoots.C112_false"
   ],
   "note": "False: for two affine polynomials with errors 2^-52 and a root in the cube the search returns no box (the witness of C99). Proved: with errors that exceed the true ones by tau times the sums of the absolute values of the coefficients plus the errors, a box with the root is returned, unless there is an exception or a bound on the depth (60) or on the number of zooms per call (Z) is exceeded; tau is 12 (kappa C + K eta + 60/2^27), K = 60 (Z + n) steps, eta the relative growth of the error per step, kappa the slack of the checks (2^-27 in two variables, 2^-13 in three, plus the error of the linear algebra). Not covered: the final step and the boxes that are combined and searched again."
  },
  {
   "property": "C113",
   "status": "partial",
   "theorems": [
    "YRoots.C113_tracked",
    "YRoots.C113_sub_partial",
    "YRoots.C113_ordered",
    "YRoots.C113_false"
   ],
   "note": "False for the sub-box: two boxes of length 2^-60 on both sides of zero are combined to a tracked box of length 2^-59, while the recorded transform takes the cube to the single point zero. Proved: the tracked boxes are exact (any rounding); the sub-box contains every local coordinate up to (max(|a|,|b|)/(b-a) + 1)/2^50, where [a,b] is the final box of the parent with max(|a|,|b|) at most 2^40 (b-a); its bounds are in order where both are computed."
  },
  {
   "property": "C114",
   "status": "partial",
   "theorems": [
    "YRoots.Legacy.C114_top",
    "YRoots.Legacy.C114_top_error",
    "YRoots.Legacy.C114_bottom_partial",
    "YRoots.Legacy.C114_bottom_empty_false"
   ],
   "note": "Slices with Python's clipping and numpy's broadcasting. False for slice_bottom of an array with an empty axis: slice(-0, None) is the whole axis and the assignment raises ValueError."
  },
  {
   "property": "C115",
   "status": "partial",
   "theorems": [
    "YRoots.Legacy.C115_varList",
    "YRoots.Legacy.C115_linear",
    "YRoots.Legacy.C115_linear_short_false"
   ],
   "note": "Proved for arrays with at least two entries on every axis; otherwise numpy raises IndexError (false for polynomials that do not contain some variable)."
  },
  {
   "property": "C12",
   "status": "proved",
   "theorems": [
    "YRoots.C12_bounding_sound",
    "YRoots.C12_bounding_sound_final",
    "YRoots.C12_bounding_within"
   ],
   "note": "np.linalg.svd is a parameter with a contract (orthogonal factors, descending singular values), shown satisfiable by SVD.exists_valid; exact arithmetic"
  },
  {
   "property": "C13",
   "status": "proved",
   "theorems": [
    "YRoots.C13_getLinearTerms"
   ],
   "note": "all ranks and shapes"
  },
  {
   "property": "C14",
   "status": "partial",
   "theorems": [
    "YRoots.C14_zoom_of_transformOK",
    "YRoots.C14_zoom_exact_partial",
    "YRoots.C14_zoom_default_partial",
    "YRoots.C14_zoom_keeps_roots",
    "YRoots.C14_zoom_default_false"
   ],
   "note": "Roots are kept for all inputs; validity of the new errors rests on C09, hence axes <= 10^16 entries with exact=True and <= 7 entries by default; for the default setting and axes of 101 entries the new errors are proved wrong (C14_zoom_default_false). Exact arithmetic."
  },
  {
   "property": "C15",
   "status": "partial",
   "theorems": [
    "YRoots.C15_tracking",
    "YRoots.C15_nested",
    "YRoots.C15_final_interval_partial",
    "YRoots.C15_final_interval_false"
   ],
   "note": "Tracking and nesting hold for every operation sequence. The replay in getFinalInterval starts from [-1,1], so the final-interval clause holds for topInterval = [-1,1]; for other top intervals it is false (witness)."
  },
  {
   "property": "C16",
   "status": "partial",
   "theorems": [
    "YRoots.C16_copy_partial",
    "YRoots.C16_copy_equal",
    "YRoots.C16_top_partial",
    "YRoots.C16_false_constructor",
    "YRoots.C16_false_shared"
   ],
   "note": "The first half holds for objects made by copy() in every program of constructor/copy/addTransform/startFinalStep calls. The second half is false for uncopied objects (the constructor stores its argument array twice and copy() shares it): C16_false_constructor, C16_false_shared; it holds for programs that transform only copies, as the solver does."
  },
  {
   "property": "C17",
   "status": "proved",
   "theorems": [
    "YRoots.C17_constantCheck_sound",
    "YRoots.C17_constantCheck_iff"
   ],
   "note": ""
  },
  {
   "property": "C18",
   "status": "partial",
   "theorems": [
    "YRoots.C18_quad2D_partial",
    "YRoots.C18_quad2D_false"
   ],
   "note": "proved for functions strictly within tol; false if the distance may equal tol (witness)"
  },
  {
   "property": "C19",
   "status": "partial",
   "theorems": [
    "YRoots.C19_quad3D_partial",
    "YRoots.C19_quad3D_false"
   ],
   "note": "proved for functions strictly within tol; at distance exactly tol it is false (9/8 + x with tol 1/8 in three variables)"
  },
  {
   "property": "C20",
   "status": "partial",
   "theorems": [
    "YRoots.C20_quadND_partial",
    "YRoots.C20_quadND_false"
   ],
   "note": "proved for an exact rank test; false with numpy's relative rank tolerance (witness in dimension 4)"
  },
  {
   "property": "C21",
   "status": "proved",
   "theorems": [
    "YRoots.C21_trimMs",
    "YRoots.C21_trimAxis_maximal"
   ],
   "note": ""
  },
  {
   "property": "C22",
   "status": "partial",
   "theorems": [
    "YRoots.C22_subdivision_of_transformOK",
    "YRoots.C22_subdivision_exact_partial",
    "YRoots.C22_subdivision_default_partial",
    "YRoots.C22_subdivision_default_false"
   ],
   "note": "Cover, alignment, disjointness and error accounting for all shapes, orders, split points, dimensions, given ascending set iteration (C23) and the single-axis error claim C09 (axes up to 10^16 in the high-precision variant, up to 7 in the default one). False of the default variant for longer axes: T_129 (130 entries) cut in the middle, in any interval, with any order of ties and sets."
  },
  {
   "property": "C23",
   "status": "partial",
   "theorems": [
    "YRoots.C23_alignment_false",
    "YRoots.C23_alignment_partial",
    "YRoots.C23_cpython_ascending",
    "YRoots.C23_cpython_partial",
    "YRoots.C23_cpython_nine_false"
   ],
   "note": "False: witness in dimension 9 with CPython's iteration order 8,0; proved for every order ascending on the set actually split. With a model of CPython's hash table the order is ascending in at most 8 dimensions, whatever the insertion history, so there the claim holds (relative to C09)."
  },
  {
   "property": "C24",
   "status": "proved",
   "theorems": [
    "YRoots.C24_inverseOrder"
   ],
   "note": "All lengths and all orders, for any splitting function commuting across dimensions."
  },
  {
   "property": "C25",
   "status": "proved",
   "theorems": [
    "YRoots.C25_dims",
    "YRoots.C25_no_valueError",
    "YRoots.C25_no_dims_false"
   ],
   "note": "Permutation of a common set and non-emptiness; limit case with no dimension (IndexError) exhibited."
  },
  {
   "property": "C26",
   "status": "proved",
   "theorems": [
    "YRoots.C26_combine",
    "YRoots.C26_grown"
   ],
   "note": "the loop returns for every list, covers all inputs, leaves unmerged boxes as they are and marks merged ones, and every box has grown from given ones by merging boxes that touch"
  },
  {
   "property": "C27",
   "status": "partial",
   "theorems": [
    "YRoots.C27_disjoint_false",
    "YRoots.C27_disjoint_partial"
   ],
   "note": "false in two dimensions (L-shape and corner box); proved in one dimension"
  },
  {
   "property": "C28",
   "status": "proved",
   "theorems": [
    "YRoots.C28_final_step"
   ],
   "note": "for every environment (no contract on external functions)"
  },
  {
   "property": "C29",
   "status": "proved",
   "theorems": [
    "YRoots.C29_roots_in_boxes"
   ],
   "note": "for every environment (no contract on external functions)"
  },
  {
   "property": "C30",
   "status": "proved",
   "theorems": [
    "YRoots.C30_to_cheb"
   ],
   "note": "all dimensions and shapes; exact arithmetic"
  },
  {
   "property": "C31",
   "status": "proved",
   "theorems": [
    "YRoots.C31_cheb_arith",
    "YRoots.C31_pow_arith"
   ],
   "note": "scipy convolution is modelled by its defining sum"
  },
  {
   "property": "C32",
   "status": "proved",
   "theorems": [
    "YRoots.C32_clean"
   ],
   "note": ""
  },
  {
   "property": "C33",
   "status": "proved",
   "theorems": [
    "YRoots.C33_call",
    "YRoots.C33_call_vec",
    "YRoots.C33_call_1d",
    "YRoots.C33_wrong_dim",
    "YRoots.C33_grid"
   ],
   "note": "values after numpy broadcasting of axes of length 1"
  },
  {
   "property": "C34",
   "status": "partial",
   "theorems": [
    "YRoots.C34_count_cheb",
    "YRoots.C34_count_pow_partial",
    "YRoots.C34_count_false"
   ],
   "note": "false for constant MultiPower objects, which return one value for any number of points; proved in all other cases"
  },
  {
   "property": "C35",
   "status": "proved",
   "theorems": [
    "YRoots.C35_grad"
   ],
   "note": "over the reals; numpy's derivative functions are modelled by their recurrences; any sequence of earlier calls"
  },
  {
   "property": "C36",
   "status": "proved",
   "theorems": [
    "YRoots.C36_interpolates",
    "YRoots.C36_exact"
   ],
   "note": "over the reals; dctn by its defining sum; the exactness part also allows degree 0"
  },
  {
   "property": "C37",
   "status": "proved",
   "theorems": [
    "YRoots.C37_tail",
    "YRoots.C37_tail_sum"
   ],
   "note": "finite sums in every ordered field, and the infinite sum over the reals"
  },
  {
   "property": "C38",
   "status": "partial",
   "theorems": [
    "YRoots.C38_false_negative",
    "YRoots.C38_false_constant",
    "YRoots.C38_bound_partial",
    "YRoots.C38_exact_partial"
   ],
   "note": "false: negative error for c x with 0 < c < 2^-51; a polynomial equal to 1 at all sampled points is replaced by 1 with error 0. Under the decay assumption of C37 twice the error is a bound; exact when the degrees found suffice"
  },
  {
   "property": "C39",
   "status": "proved",
   "theorems": [
    "YRoots.C39_final_degree",
    "YRoots.C39_accepted"
   ],
   "note": "also characterises when degree 0 is chosen, and which interpolants are accepted"
  },
  {
   "property": "C40",
   "status": "partial",
   "theorems": [
    "YRoots.C40_false_zero",
    "YRoots.C40_false_nonzero",
    "YRoots.C40_corner_partial",
    "YRoots.C40_one_variable_partial"
   ],
   "note": "false: no end on the zero polynomial and on x prod(y - cos(j pi/5)); ends for polynomials nonzero at some corner of the box, and for all nonzero polynomials in one variable"
  },
  {
   "property": "C41",
   "status": "partial",
   "theorems": [
    "YRoots.C41_int_raises",
    "YRoots.C41_int_false"
   ],
   "note": "false: in-place division of an integer array raises UFuncTypeError in the first bounding step; nothing true of the claim remains beyond float arrays"
  },
  {
   "property": "C42",
   "status": "partial",
   "theorems": [
    "YRoots.C42_eq_symm_false",
    "YRoots.C42_eq_symm_partial"
   ],
   "note": "allclose is relative to its right operand; symmetric up to a factor 1+2e-5 of the tolerance"
  },
  {
   "property": "C43",
   "status": "proved",
   "theorems": [
    "YRoots.C43_twoSum",
    "YRoots.C43_split",
    "YRoots.C43_twoProd",
    "YRoots.C43_twoProdWithSplit",
    "YRoots.C43_ieee",
    "YRoots.C43_split_not_equal",
    "YRoots.C43_value_model"
   ],
   "note": "Proved for every rounding to a nearest 53-digit binary number (any tie rule) with unbounded exponents, i.e. barring overflow and underflow; for Split 'the rounded result' is the nearest 26-digit number, and the docstring's 'a = x in floating point' is refuted (C43_split_not_equal)."
  },
  {
   "property": "C44",
   "status": "proved",
   "theorems": [
    "YRoots.C44_caller_unchanged",
    "YRoots.C44_recursive_unchanged",
    "YRoots.C44_same_outcome"
   ],
   "note": "The solver is modelled once more on a heap of lists, arrays and objects and proved to refine the value model; the heap before the call is arbitrary and every cell in use before the call is unchanged after it, also on exceptions. File writes (num_of_times) and numpy view sharing of slices are outside the model."
  },
  {
   "property": "C45",
   "status": "partial",
   "theorems": [
    "YRoots.C45_quad2D_iff",
    "YRoots.C45_quad3D_iff",
    "YRoots.C45_quadND_iff_partial",
    "YRoots.C45_quadND_false"
   ],
   "note": "2-D and 3-D unconditionally; n-D with an exact rank test; false with the rank tolerance of numpy (witness in dimension 4)"
  },
  {
   "property": "C46",
   "status": "proved",
   "theorems": [
    "YRoots.C46_interior",
    "YRoots.C46_neighbours"
   ],
   "note": "For any environment and options: an interior box touches no face of the box of the call; hence it neither overlaps nor touches a box returned by a call on a box separated from it by a hyperplane."
  },
  {
   "property": "C47",
   "status": "proved",
   "theorems": [
    "YRoots.C47_dedupe",
    "YRoots.C47_reported"
   ],
   "note": "Removal of duplicates keeps a sublist with exactly one result per lower corner; the interval returned by a call in the final step reports its own final point if the zooming stopped or the halves gave nothing (flag possibleExtraRoot), and else the roots of exactly the kept results."
  },
  {
   "property": "C48",
   "status": "proved",
   "theorems": [
    "YRoots.C48_cuts",
    "YRoots.C48_shrink",
    "YRoots.C48_kept"
   ],
   "note": "For every enumeration order of the set of dimensions and every argsort."
  },
  {
   "property": "C49",
   "status": "partial",
   "theorems": [
    "YRoots.OneD.C49_power",
    "YRoots.OneD.C49_cheb",
    "YRoots.OneD.C49_cheb_division_partial",
    "YRoots.OneD.C49_false_constant",
    "YRoots.OneD.C49_false_zero_root",
    "YRoots.OneD.C49_false_uncleaned"
   ],
   "note": "Proved for power-basis polynomials with either matrix and Chebyshev polynomials with the colleague matrix, with multiplicity, by eigenvalues or eigenvectors. For Chebyshev polynomials with the division matrix only if the degree is positive and 0 is no root; false otherwise (IndexError for constants; all nonzero roots lost if 0 is a root), and false for coefficient lists whose leading coefficient is 0."
  },
  {
   "property": "C50",
   "status": "partial",
   "theorems": [
    "YRoots.Legacy.C50_bounding_partial",
    "YRoots.Legacy.C50_bounding_closed_partial",
    "YRoots.Legacy.C50_bounding_false",
    "YRoots.Legacy.C50_singular_raises"
   ],
   "note": "proved for functions strictly within the errors; false when an error is attained (witness: exact linear system, box discarded); a singular linear part raises LinAlgError in n-D"
  },
  {
   "property": "C51",
   "status": "proved",
   "theorems": [
    "YRoots.Legacy.C51_constant_term",
    "YRoots.Legacy.C51_quad2D_iff",
    "YRoots.Legacy.C51_quad3D_iff"
   ],
   "note": "exact characterisation on every subinterval with positive sides"
  },
  {
   "property": "C52",
   "status": "partial",
   "theorems": [
    "YRoots.Legacy.C52_quadND_iff_partial",
    "YRoots.Legacy.C52_quadND_false"
   ],
   "note": "right on boxes with equal sides; false otherwise (witness in four variables: bounds of the wrong variable are used)"
  },
  {
   "property": "C53",
   "status": "partial",
   "theorems": [
    "YRoots.Legacy.C53_cover_partial",
    "YRoots.Legacy.C53_area",
    "YRoots.Legacy.C53_cover_false"
   ],
   "note": "volume accounting unconditional; cover for functions strictly within the errors, at most three variables when checks are run; in four variables the cover is false when checks are run (witness: the zero lies in no returned box)"
  },
  {
   "property": "C54",
   "status": "partial",
   "theorems": [
    "YRoots.Legacy.C54_trim_partial",
    "YRoots.Legacy.C54_trim_false"
   ],
   "note": "Proved if the coefficient at the corner of the array is zero or the initial list of monomials is empty. False otherwise: the coefficient of highest total degree is neither counted nor zeroed, and the final slice drops it (witness T2(x)T2(y), returned as the zero series with error 0)."
  },
  {
   "property": "C55",
   "status": "proved",
   "theorems": [
    "YRoots.Legacy.C55_limited",
    "YRoots.Legacy.C55_limited_empty_axis"
   ],
   "note": ""
  },
  {
   "property": "C56",
   "status": "proved",
   "theorems": [
    "YRoots.Legacy.C56_monomials"
   ],
   "note": ""
  },
  {
   "property": "C57",
   "status": "partial",
   "theorems": [
    "YRoots.Legacy.C57_memoize",
    "YRoots.Legacy.C57_permutations_false"
   ],
   "note": "Proved for functions that depend only on the key, which covers memoize and Memoize. False for memoize_permutaions in general: all_permutations takes five arguments, the key has three."
  },
  {
   "property": "C58",
   "status": "partial",
   "theorems": [
    "YRoots.Legacy.C58_no_loss_partial",
    "YRoots.Legacy.C58_no_loss_false",
    "YRoots.Legacy.C58_aligned",
    "YRoots.Legacy.C58_aligned_false",
    "YRoots.Legacy.C58_once_partial",
    "YRoots.Legacy.C58_once_false",
    "YRoots.Legacy.C58_polish_partial",
    "YRoots.Legacy.C58_polish_false"
   ],
   "note": "Proved: a passed zero is reported unless it is strictly inside a searched box; alignment without potential roots; a zero strictly inside its own box is reported exactly once; get_polish_intervals returns every interval and starts afresh, except for possible duplicates. False in general, with witnesses: a zero from a neighbouring box is dropped even if the box it is inside reports nothing; one potential root adds n intervals and methods; a zero on a common boundary is reported twice; a possible duplicate survives get_polish_intervals."
  },
  {
   "property": "C59",
   "status": "proved",
   "theorems": [
    "YRoots.Legacy.C59_textbook",
    "YRoots.Legacy.C59_monomial_order",
    "YRoots.Legacy.C59_operators",
    "YRoots.Legacy.C59_lengths_false"
   ],
   "note": "For tuples of the same length.  For tuples of different lengths the operators contradict each other (witness)."
  },
  {
   "property": "C60",
   "status": "partial",
   "theorems": [
    "YRoots.C60_accepts",
    "YRoots.C60_validates_partial",
    "YRoots.C60_reports",
    "YRoots.C60_dimension_false"
   ],
   "note": "Proved: valid input is read as meant; accepted input consists of callables and equally many lower and upper bounds, in order; the exception for functions names the first one that cannot be called.  False: the number of bounds is never compared with the number of functions (witness: two functions, three bounds)."
  },
  {
   "property": "C61",
   "status": "partial",
   "theorems": [
    "YRoots.Legacy.C61_solve_linear_partial",
    "YRoots.Legacy.C61_inconsistent_false",
    "YRoots.Legacy.C61_flat_false"
   ],
   "note": "Proved: a root is returned exactly if it is the only one; the empty answer is right; TooManyRoots only if there is none or infinitely many.  False: y = 1, y = 2 raises TooManyRoots (the U of an LU factorisation is not an echelon form); an array of shape (1, 2) is read as a constant."
  },
  {
   "property": "C62",
   "status": "partial",
   "theorems": [
    "YRoots.Legacy.C62_inverse_P",
    "YRoots.Legacy.C62_triangular_partial",
    "YRoots.Legacy.C62_square_false"
   ],
   "note": "Proved for matrices that are not square.  For square ones the identity is returned whatever the matrix (witness with a zero row)."
  },
  {
   "property": "C63",
   "status": "partial",
   "theorems": [
    "YRoots.OneD.C63_roots_at_inf_partial",
    "YRoots.OneD.C63_constant_false",
    "YRoots.OneD.C63_common_partial",
    "YRoots.OneD.C63_common_horizontal",
    "YRoots.OneD.C63_common_false"
   ],
   "note": "roots_at_inf is right for forms of positive degree that are not zero and whose coefficient of x^d is zero or larger than 1e-8; for nonzero constants it returns (1, 0).  common_root_at_inf is right for the point (1, 0) and for symmetric forms only: for f = g = x it answers False."
  },
  {
   "property": "C64",
   "status": "partial",
   "theorems": [
    "YRoots.Legacy.C64_power",
    "YRoots.Legacy.C64_cheb_partial",
    "YRoots.Legacy.C64_cheb_false"
   ],
   "note": "Power basis: proved.  Chebyshev basis: proved for a numpy that accepts a list of slices as an index; with the numpy of requirements.txt the function raises IndexError for every monomial except 1 (proved)."
  },
  {
   "property": "C65",
   "status": "partial",
   "theorems": [
    "YRoots.Legacy.C65_interpolates_partial",
    "YRoots.Legacy.C65_deterministic",
    "YRoots.Legacy.C65_grid_false"
   ],
   "note": "Proved by an invariant over all sequences of calls; the FFT of the mirrored block is shown to be the cosine transform of C36.  Functions with evaluate_grid raise ValueError if the degrees differ (proved)."
  },
  {
   "property": "C66",
   "status": "partial",
   "theorems": [
    "YRoots.Legacy.C66_search_partial",
    "YRoots.Legacy.C66_values_block_partial",
    "YRoots.Legacy.C66_guess_false",
    "YRoots.Legacy.C66_grid_false",
    "YRoots.Legacy.C66_values_block_false"
   ],
   "note": "Proved for guesses not above the maximum and functions without evaluate_grid (or of one variable); values_block for one variable.  False: a guess above the maximum (degs does not belong to M), evaluate_grid in two variables (ValueError), values_block in two variables (x^2 + y^2)."
  },
  {
   "property": "C67",
   "status": "partial",
   "theorems": [
    "YRoots.Legacy.C67_reads_partial",
    "YRoots.Legacy.C67_repeated_false",
    "YRoots.Legacy.C67_square_false",
    "YRoots.Legacy.C67_negative_false"
   ],
   "note": "Proved for strings in which each monomial has each variable at most once and no two monomials have the same exponents: the array evaluates to the polynomial (x0 is the last axis) and each axis is one longer than the degree.  False otherwise: 'x0+x0' and 'x0*x0' are both read as x0, and a negative exponent counts from the end of the axis ('3x0^2+-2x0^-1' is read as -2x0^2)."
  },
  {
   "property": "C68",
   "status": "partial",
   "theorems": [
    "YRoots.Legacy.C68_sequence_partial",
    "YRoots.Legacy.C68_lengths",
    "YRoots.Legacy.C68_plural_false",
    "YRoots.Legacy.C68_method_false",
    "YRoots.Legacy.C68_getTolDict_false"
   ],
   "note": "Proved when no name with an s appended is another name or an attribute of the class.  False otherwise: Tolerances(t=[1,2], ts=[3,4]) keeps t = 1; a tolerance called nextTol hides the method nextTols, one called getTolDict the method getTolDict."
  },
  {
   "property": "C69",
   "status": "proved",
   "theorems": [
    "YRoots.Legacy.C69_householder",
    "YRoots.Legacy.C69_condeig",
    "YRoots.Legacy.C69_defined",
    "YRoots.Legacy.C69_condvec"
   ],
   "note": "Exact arithmetic; the three LAPACK routines are parameters with their specification as hypothesis."
  },
  {
   "property": "C70",
   "status": "partial",
   "theorems": [
    "YRoots.Legacy.C70_nullspace",
    "YRoots.Legacy.C70_solutions_partial",
    "YRoots.Legacy.C70_defined",
    "YRoots.Legacy.C70_polys_partial",
    "YRoots.Legacy.C70_inconsistent_false",
    "YRoots.Legacy.C70_tall_false"
   ],
   "note": "Proved: the reduced matrix is in echelon form (up to a column permutation) and has the same kernel; with rank equal to the number of polynomials the common zeros are kept; ValueError exactly if there are fewer variables than polynomials and the kernel is trivial.  False in general: for x = 0, x + 1 = 0 the contradiction is dropped; x, y, x+y raises ValueError; with numpy 1.24 (requirements.txt) np.float does not exist."
  },
  {
   "property": "C71",
   "status": "partial",
   "theorems": [
    "YRoots.Legacy.C71_covers_partial",
    "YRoots.Legacy.C71_in_plane",
    "YRoots.Legacy.C71_small_false"
   ],
   "note": "C71_in_plane is general.  Covering is proved if every coefficient is 0 or larger than 1e-8 in absolute value; false otherwise (1e-9 x).  QR is a parameter with its specification; the specification is shown to be satisfiable over the reals."
  },
  {
   "property": "C72",
   "status": "partial",
   "theorems": [
    "YRoots.Legacy.C72_image_partial",
    "YRoots.Legacy.C72_line_false"
   ],
   "note": "True in three variables; false in two (and all others): the centre is p0 + mean of the edges instead of p0 + half the sum, so for y = 0 in the square half of the line is missed."
  },
  {
   "property": "C73",
   "status": "partial",
   "theorems": [
    "YRoots.Legacy.C73_copy_partial",
    "YRoots.Legacy.C73_run_partial",
    "YRoots.Legacy.C73_lost_false"
   ],
   "note": "True if the array is large enough (2 deg) or so small that the first assignment fails (at most deg).  False in between: the array is replaced after the first block was written, so that block is lost and the entries are whatever np.empty returned."
  },
  {
   "property": "C74",
   "status": "partial",
   "theorems": [
    "YRoots.Legacy.C74_full_partial",
    "YRoots.Legacy.C74_zero_false"
   ],
   "note": "True if the shared array has size at least 4 deg, exactly 2 deg or at most deg.  A solver sets it to 2(deg+3), so for every deg > 3 the first approximation of degree 2 deg contains uninitialised values: it can reject the function 0."
  },
  {
   "property": "C75",
   "status": "partial",
   "theorems": [
    "YRoots.Legacy.C75_solve",
    "YRoots.Legacy.C75_poly",
    "YRoots.Legacy.C75_raises",
    "YRoots.Legacy.C75_small_false"
   ],
   "note": "Proved in exact arithmetic.  Polynomials whose leading Chebyshev coefficient is not below the tolerance: all roots in the interval are found.  False without that: c x with |c| below the absolute tolerance is taken for a constant and its root is lost.  An exception is possible only if error and tolerance are equal."
  },
  {
   "property": "C76",
   "status": "proved",
   "theorems": [
    "YRoots.Legacy.C76_terms",
    "YRoots.Legacy.C76_degree_zero"
   ],
   "note": "For degree zero (only constants) the list is wrong; this cannot occur with polynomials of degree at least one."
  },
  {
   "property": "C77",
   "status": "partial",
   "theorems": [
    "YRoots.Legacy.C77_create",
    "YRoots.Legacy.C77_long_axis",
    "YRoots.Legacy.C77_mult_power",
    "YRoots.Legacy.C77_mult_cheb",
    "YRoots.Legacy.C77_build",
    "YRoots.Legacy.C77_build_false"
   ],
   "note": "True with a correct multiplication by monomials (C64).  False of the Chebyshev multiplication as written, which raises for numpy from 1.23 on; the method mon_mult and the attribute degree do not exist in polynomial.py, and arrays with superfluous zeros make it raise."
  },
  {
   "property": "C78",
   "status": "proved",
   "theorems": [
    "YRoots.Legacy.C78_cols",
    "YRoots.Legacy.C78_cols_null",
    "YRoots.Legacy.C78_cols_total",
    "YRoots.Legacy.C78_tvb"
   ],
   "note": "Exact arithmetic; the factorisations of numpy and scipy are assumed correct (`MacLib.Correct`, which is shown to be satisfiable)."
  },
  {
   "property": "C79",
   "status": "proved",
   "theorems": [
    "YRoots.Legacy.C79_cols",
    "YRoots.Legacy.C79_tvb"
   ],
   "note": "Exact arithmetic."
  },
  {
   "property": "C80",
   "status": "proved",
   "theorems": [
    "YRoots.Legacy.C80_sort_perm",
    "YRoots.Legacy.C80_sort",
    "YRoots.Legacy.C80_sort_close",
    "YRoots.Legacy.C80_msroots"
   ],
   "note": "Exact arithmetic (C80_sort_close allows perturbed eigenvalues).  schur and eig are assumed correct."
  },
  {
   "property": "C81",
   "status": "partial",
   "theorems": [
    "YRoots.Legacy.C81_roots",
    "YRoots.Legacy.C81_total",
    "YRoots.Legacy.C81_single_false"
   ],
   "note": "In exact arithmetic, for simple zeros that the fixed random combination separates.  A system of one polynomial raises a NameError (C81_single_false: x^2 - 1/4 meets all the other assumptions); degree one is passed to solve_linear (C61).  Multiple zeros are not covered."
  },
  {
   "property": "C82",
   "status": "partial",
   "theorems": [
    "YRoots.Legacy.C82_common",
    "YRoots.Legacy.C82_near_partial",
    "YRoots.Legacy.C82_separated",
    "YRoots.Legacy.C82_false"
   ],
   "note": "Every common root is returned; what is returned is a root of the last polynomial, close to roots of the others.  Exact if different roots are separated; false in general (x and x - 1e-11)."
  },
  {
   "property": "C83",
   "status": "partial",
   "theorems": [
    "YRoots.Legacy.C83_location",
    "YRoots.Legacy.C83_area",
    "YRoots.Legacy.C83_cover_partial",
    "YRoots.Legacy.C83_cover_false"
   ],
   "note": "The cover holds for approximations that are accurate when read in the coordinates of the box without buffer and have no coefficient in the corner.  It is false for approximations that are exact on the box they were made for: get_subintervals is given the box without buffer but approximations made on the box with buffer, so that everything it concludes is off by the buffer."
  },
  {
   "property": "C84",
   "status": "partial",
   "theorems": [
    "YRoots.Legacy.C84_roots",
    "YRoots.Legacy.C84_residual_partial",
    "YRoots.Legacy.C84_residual_false"
   ],
   "note": "For approximations whose coefficient of highest total degree is zero.  False otherwise: trim_coeffs drops that coefficient without counting it (C54), and a point where a function is 5 is stored as a root although the approximations are exact.  Possible duplicates that are kept later lie outside of the boxes of the approximations and are not covered."
  },
  {
   "property": "C85",
   "status": "partial",
   "theorems": [
    "YRoots.Legacy.C85_location",
    "YRoots.Legacy.C85_residual_partial",
    "YRoots.Legacy.C85_potential",
    "YRoots.Legacy.C85_cover_partial",
    "YRoots.Legacy.C85_once_false",
    "YRoots.Legacy.C85_trust_false"
   ],
   "note": "Location and potential roots proved.  The residual is proved for target_deg = 1 and approximations without a coefficient in the corner, as in C84, and the cover as in C83.  False: a root on the line between two boxes is returned twice, because the buffers overlap and add_roots only looks for duplicates among roots outside of their box; trust_small_evals is not passed on to the polishing rounds, so that a second round with the same tolerances loses all roots."
  },
  {
   "property": "C86",
   "status": "proved",
   "theorems": [
    "YRoots.Legacy.C86_columns",
    "YRoots.Legacy.C86_power"
   ],
   "note": "The matrix degree must be at least one: for degree zero the arrays are too long (C86_degree_zero)."
  },
  {
   "property": "C87",
   "status": "proved",
   "theorems": [
    "YRoots.Legacy.C87_cheb"
   ],
   "note": ""
  },
  {
   "property": "C88",
   "status": "partial",
   "theorems": [
    "YRoots.Legacy.C88_selection",
    "YRoots.Legacy.C88_count",
    "YRoots.Legacy.C88_rank_partial",
    "YRoots.Legacy.C88_rank_false"
   ],
   "note": "The rank claim is false without the assumption on the leading monomials: for y, x, z^2 the rows up to degree 2 are dependent and do not span the multiples (C88_rank_false). What is missing is the exact condition on the polynomials."
  },
  {
   "property": "C89",
   "status": "proved",
   "theorems": [
    "YRoots.Legacy.C89_fixed",
    "YRoots.Legacy.C89_affine",
    "YRoots.Legacy.C89_convergence",
    "YRoots.Legacy.C89_singular",
    "YRoots.Legacy.C89_real",
    "YRoots.Legacy.C89_sample"
   ],
   "note": ""
  },
  {
   "property": "C90",
   "status": "proved",
   "theorems": [
    "YRoots.Legacy.C90_polynomials",
    "YRoots.Legacy.C90_rows",
    "YRoots.Legacy.C90_roots",
    "YRoots.Legacy.C90_close"
   ],
   "note": ""
  },
  {
   "property": "C91",
   "status": "proved",
   "theorems": [
    "YRoots.Legacy.C91_dimensions",
    "YRoots.Legacy.C91_first_variables_false",
    "YRoots.Legacy.C91_monomials",
    "YRoots.Legacy.C91_clean",
    "YRoots.Legacy.C91_clean_complex_false"
   ],
   "note": "The two theorems with suffix _false show what the functions do not do: keep the first variables; treat complex entries by their modulus."
  },
  {
   "property": "C92",
   "status": "proved",
   "theorems": [
    "YRoots.Legacy.C92_inside",
    "YRoots.Legacy.C92_outside",
    "YRoots.Legacy.C92_approx"
   ],
   "note": ""
  },
  {
   "property": "C93",
   "status": "proved",
   "theorems": [
    "YRoots.C93_affine_root",
    "YRoots.C93_affine_exact",
    "YRoots.C93_affine_none"
   ],
   "note": ""
  },
  {
   "property": "C94",
   "status": "proved",
   "theorems": [
    "YRoots.C94_solve",
    "YRoots.C94_none",
    "YRoots.C94_callable",
    "YRoots.C94_chebyshev_unit",
    "YRoots.C94_power_unit"
   ],
   "note": ""
  },
  {
   "property": "C95",
   "status": "partial",
   "theorems": [
    "YRoots.C95_affine_partial",
    "YRoots.C95_solve_partial",
    "YRoots.C95_small_slope_false"
   ],
   "note": "False in general: a direction with a slope below about 1e-10 of the function's size is taken for constant by checkConstantInDimension, the error bound does not allow for that, and for x + 1e-13 y, y - 1/2 solve returns the box around (0, 1/2) of half-widths below 5e-15, which does not contain the only zero (-5e-14, 1/2). Proved if S is at least 6^(n-1) 2^-49 and every slope (times half the side of the box) is 0 or at least 6^(n-1) max(S rtol, 2^-49), the scaled matrices being well conditioned."
  },
  {
   "property": "C96",
   "status": "partial",
   "theorems": [
    "YRoots.Legacy.C96_partition",
    "YRoots.Legacy.C96_row_dependencies_partial",
    "YRoots.Legacy.C96_small_false"
   ],
   "note": "False in general since the threshold 1e-10 is absolute: the single row of the matrix (1e-11) is reported as removable. Proved when every diagonal entry of R is 0 or above the accuracy."
  },
  {
   "property": "C97",
   "status": "partial",
   "theorems": [
    "YRoots.Legacy.C97_raises_false",
    "YRoots.Legacy.C97_attribute_false",
    "YRoots.Legacy.C97_unchanged_partial",
    "YRoots.Legacy.C97_three_partial"
   ],
   "note": "False of the code: with two or more polynomials, one of them of degree at most one in each variable, it always raises (AttributeError for the missing attribute degree; with that attribute supplied, TypeError because trim_coeffs is called with two of five arguments, or ValueError because the call for one polynomial returns two values and three are unpacked). Proved: other systems are returned unchanged (a single polynomial without the flag); in three variables, with degree and trim_coeffs supplied, one linear polynomial and at least two others that do not become bilinear, the zeros correspond."
  },
  {
   "property": "C98",
   "status": "partial",
   "theorems": [
    "YRoots.Legacy.C98_noise_partial",
    "YRoots.Legacy.C98_mean_false",
    "YRoots.Legacy.C98_total_false"
   ],
   "note": "False as to the mean (the sum of (2 deg + 1)^n - deg^n coefficients is divided by (2 deg)^n - deg^n) and as to the total degree (coefficients with all indices below deg are left out, so x^2 y^2 gives 0 for deg = 3). Proved: it vanishes exactly if the interpolant has degree less than deg in each variable, in particular for polynomials of such degrees, and times the divisor it bounds ten times each of the other coefficients."
  },
  {
   "property": "C99",
   "status": "partial",
   "theorems": [
    "YRoots.C99_bounds_partial",
    "YRoots.C99_kept_partial",
    "YRoots.C99_width_constant",
    "YRoots.C99_false"
   ],
   "note": "False: 1024 + 2^-42 + 1024 x + 2^-21 y and 2^-21 + y vanish at (-1, -2^-21), but with the errors 2^-52 of solve the first zoom throws the cube out, whatever the singular value decomposition and the quadratic checks give. The width is always 2^-51, since condNum is the reciprocal of the condition number (C99_width_constant). Proved: a bound of linearCheck1 is off by at most (m + n + 10) 2^-52 totalErrs/|A|, so with errors that exceed the true ones by that much, relative to the coefficients, no cube with a zero is thrown out by these bounds (C99_kept_partial). Missing: the bounds from the inverse matrix in floating point."
  }
 ]
}
