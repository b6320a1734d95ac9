{
 "claims": [
  {
   "property": "C01",
   "status": "proved",
   "theorems": [
    "Hcp.C01_differentials_sum_to_genus"
   ],
   "note": ""
  },
  {
   "property": "C02",
   "status": "proved",
   "theorems": [
    "Hcp.C02_enumerates_holomorphic",
    "Hcp.C02_blocks_nonempty"
   ],
   "note": ""
  },
  {
   "property": "C03",
   "status": "partial",
   "theorems": [
    "Hcp.C03_init_outcome_partial",
    "Hcp.C03_constant_polynomial_is_ub",
    "Hcp.C03_overflow_witness",
    "Hcp.C03_enough_edges",
    "Hcp.C03_edge_count",
    "Hcp.C03_tree_size"
   ],
   "note": "outcome table of the constructor under size bounds; the constant polynomial and overflow cases are proved to be undefined behaviour / wrong"
  },
  {
   "property": "C04",
   "status": "proved",
   "theorems": [
    "Hcp.C04_terminates",
    "Hcp.C04_unimodular_congruence"
   ],
   "note": "rank >= 2g; the remaining ranks are C08"
  },
  {
   "property": "C05",
   "status": "proved",
   "theorems": [
    "Hcp.C05_block_form"
   ],
   "note": ""
  },
  {
   "property": "C06",
   "status": "partial",
   "theorems": [
    "Hcp.C06_orientation_partial",
    "Hcp.C06_orientation_fails",
    "Hcp.C06_unimodular_minors",
    "Hcp.C06_nondegenerate"
   ],
   "note": "false in general (concrete antisymmetric matrix, every extended gcd); true when no second pass is needed, and for all matrices with principal minors 0, 1, -1 (C06_unimodular_minors), in particular for every hyperelliptic curve (C49); also for every antisymmetric matrix invertible over the integers (C06_nondegenerate)"
  },
  {
   "property": "C07",
   "status": "proved",
   "theorems": [
    "Hcp.C07_blocks_are_units"
   ],
   "note": ""
  },
  {
   "property": "C08",
   "status": "partial",
   "theorems": [
    "Hcp.C08_outcome_partial",
    "Hcp.C08_out_of_range"
   ],
   "note": "false in general: row index -1 is accessed; full outcome characterised"
  },
  {
   "property": "C09",
   "status": "proved",
   "theorems": [
    "Hcp.C09_grows_as_tree",
    "Hcp.C09_spanning_tree",
    "Hcp.C09_too_many_edges"
   ],
   "note": ""
  },
  {
   "property": "C10",
   "status": "partial",
   "theorems": [
    "Hcp.C10_greedy_choice",
    "Hcp.C10_dominates_every_tree",
    "Hcp.C10_maximum_total",
    "Hcp.C10_bottleneck_partial",
    "Hcp.C10_bottleneck_exact",
    "Hcp.C10_zero_parameter_fails",
    "Hcp.C10_stale_worst_fails"
   ],
   "note": "maximality proved in full; tree->r / tree->min are wrong when a selected parameter is 0 or when the tree is reused (witnesses), right otherwise; with exact parameters of distinct points a fresh tree has no selected parameter 0 (C10_bottleneck_exact)"
  },
  {
   "property": "C11",
   "status": "proved",
   "theorems": [
    "Hcp.C11_edges_enumerate_pairs",
    "Hcp.C11_allocation_is_tight"
   ],
   "note": ""
  },
  {
   "property": "C12",
   "status": "proved",
   "theorems": [
    "Hcp.C12_edges_meet_at_start"
   ],
   "note": ""
  },
  {
   "property": "C13",
   "status": "proved",
   "theorems": [
    "Hcp.C13_intersection_table",
    "Hcp.C13_antisymmetric_small",
    "Hcp.C13_no_other_failure"
   ],
   "note": ""
  },
  {
   "property": "C14",
   "status": "proved",
   "theorems": [
    "Hcp.C14_common_start",
    "Hcp.C14_end_start",
    "Hcp.C14_independent",
    "Hcp.C14_tree",
    "Hcp.C14_from_points"
   ],
   "note": "balls: whenever shift_number returns it is the right integer; exact data: it always returns and intersection_tree gives the local numbers of the sheet gaps; independence of the value chosen for a straight angle"
  },
  {
   "property": "C15",
   "status": "proved",
   "theorems": [
    "Hcp.C15_symplectic_basis"
   ],
   "note": "for every tree, intersection matrix with coefficients fitting a slong, and correct xgcd; abort otherwise; independent Chain semantics (Spec/Homology)"
  },
  {
   "property": "C16",
   "status": "partial",
   "theorems": [
    "Hcp.C16_small_coefficients_partial",
    "Hcp.C16_large_coefficient_fails"
   ],
   "note": "exact for |c| < 2^62; negation proved: every accepted coefficient with |c| >= 2^62 is undefined behaviour in period_matrix"
  },
  {
   "property": "C17",
   "status": "proved",
   "theorems": [
    "Hcp.C17_period_matrix",
    "Hcp.C17_encloses",
    "Hcp.C17_on_symplectic_basis"
   ],
   "note": "exact over C plus enclosure transfer to any inclusion-isotone ball arithmetic; end to end on the loops returned by symplectic_basis"
  },
  {
   "property": "C18",
   "status": "proved",
   "theorems": [
    "Hcp.C18_polynomial_shift",
    "Hcp.C18_shifts_moments",
    "Hcp.C18_encloses"
   ],
   "note": ""
  },
  {
   "property": "C19",
   "status": "proved",
   "theorems": [
    "Hcp.C19_edge_factors",
    "Hcp.C19_change_of_variables",
    "Hcp.C19_encloses",
    "Hcp.C19_gc_variant_fails"
   ],
   "note": "main routine proved; the dead-code hyperelliptic variant integrals_edge_factors_gc is shown wrong"
  },
  {
   "property": "C20",
   "status": "proved",
   "theorems": [
    "Hcp.C20_edge_data",
    "Hcp.C20_exact",
    "Hcp.C20_continuous"
   ],
   "note": "for any inclusion-isotone arithmetic and any answers of the sign tests; independent Spec.EdgeData"
  },
  {
   "property": "C21",
   "status": "proved",
   "theorems": [
    "Hcp.C21_partition",
    "Hcp.C21_degenerate"
   ],
   "note": "any arithmetic, any oracle"
  },
  {
   "property": "C22",
   "status": "proved",
   "theorems": [
    "Hcp.C22_def_power",
    "Hcp.C22_sqrt_power",
    "Hcp.C22_prod_agrees",
    "Hcp.C22_encloses"
   ],
   "note": ""
  },
  {
   "property": "C23",
   "status": "partial",
   "theorems": [
    "Hcp.C23_turn_partial",
    "Hcp.C23_sqrt_turn_partial",
    "Hcp.C23_negative_product_fails",
    "Hcp.C23_no_factor_fails",
    "Hcp.C23_turn_balls_partial",
    "Hcp.C23_sqrt_turn_balls_partial",
    "Hcp.C23_coarse_product_fails"
   ],
   "note": "false as stated: both suspected failures proved; agreement proved for exact data whenever there is one factor or the product is off the negative real axis. On balls: proved when acb_prod_turn gives up or the balls decide the turning number (Spec/TurnBall); C23_coarse_product_fails: enclosure of all operations alone does not imply it."
  },
  {
   "property": "C24",
   "status": "proved",
   "theorems": [
    "Hcp.C24_nodes",
    "Hcp.C24_exact_degree",
    "Hcp.C24_sum_any_root",
    "Hcp.C24_sum",
    "Hcp.C24_sum_turn_partial",
    "Hcp.C24_sum_turn_balls_partial"
   ],
   "note": "nodes on balls, exactness of the rule for complex polynomials of degree < 2n, the code's summation is the full rule for any root routine, with AJ_ROOT_DEF on balls; with turning numbers off the negative axis"
  },
  {
   "property": "C25",
   "status": "proved",
   "theorems": [
    "Hcp.C25_trapezoidal",
    "Hcp.C25_turn_balls_partial"
   ],
   "note": "on balls, trapezoidal sum of the pulled back integrand, for mth_root_pol_def and mth_root_pol_prod (the default below 1000 bits); all options when the turning numbers are decided at the nodes"
  },
  {
   "property": "C26",
   "status": "partial",
   "theorems": [
    "Hcp.C26_enough_points_partial",
    "Hcp.C26_increase_fails"
   ],
   "note": "false as stated: an increase of the requirement keeps the coarser scheme; proved for non-increasing requirements"
  },
  {
   "property": "C27",
   "status": "partial",
   "theorems": [
    "Hcp.C27_enough_points",
    "Hcp.C27_bound_of_other_edge",
    "Hcp.C27_error_bound_fails",
    "Hcp.C27_same_fails"
   ],
   "note": "number of points always sufficient without AJ_DE_SAME thanks to the wrap-around; the error bound of a reused scheme is that of another edge; AJ_DE_SAME never recomputes"
  },
  {
   "property": "C28",
   "status": "proved",
   "theorems": [
    "Hcp.C28_exponents",
    "Hcp.C28_closed_form",
    "Hcp.C28_edge"
   ],
   "note": "Beta integral and duplication formula; on balls"
  },
  {
   "property": "C29",
   "status": "partial",
   "theorems": [
    "Hcp.C29_solve_real",
    "Hcp.C29_tau_partial",
    "Hcp.C29_outcomes",
    "Hcp.C29_exact_elimination",
    "Hcp.C29_wrong_sign_reached"
   ],
   "note": "on balls: whenever one of the first three strategies succeeds the result contains the unique tau with omega0 tau = omega1; the last fallback gives the opposite (C30) and is reached for concrete matrices"
  },
  {
   "property": "C30",
   "status": "partial",
   "theorems": [
    "Hcp.C30_charpoly_sign",
    "Hcp.C30_charpoly_fails"
   ],
   "note": "false as stated: for every invertible A the characteristic polynomial variant encloses -A^(-1) B (on balls), and differs from the solution whenever B is not 0; the other variants agree (C29)"
  },
  {
   "property": "C31",
   "status": "proved",
   "theorems": [
    "Hcp.C31_terms",
    "Hcp.C31_canonical"
   ],
   "note": "any list of plain terms with any spacing, and the canonical notation of any Polynomial Int with word-size coefficients"
  },
  {
   "property": "C32",
   "status": "partial",
   "theorems": [
    "Hcp.C32_total_partial",
    "Hcp.C32_meaning_partial",
    "Hcp.C32_repeated_fails",
    "Hcp.C32_negative_exponent_fails",
    "Hcp.C32_wrong_values",
    "Hcp.C32_other_outcomes"
   ],
   "note": "terminates on every string; undefined behaviour only through negative/huge exponents or negated LONG_MIN; accepted strings are concatenations of terms, and mean their sum when exponents are distinct, numbers in range, one minus sign at most; negations proved for repeated monomials (all of them), negative exponents (all), saturation, double minus, products"
  },
  {
   "property": "C33",
   "status": "partial",
   "theorems": [
    "Hcp.C33_accepted",
    "Hcp.C33_outcomes_partial",
    "Hcp.C33_missing_operand_fails",
    "Hcp.C33_negative_degree_fails",
    "Hcp.C33_usage",
    "Hcp.C33_verbose_fails",
    "Hcp.C33_precision_fails"
   ],
   "note": "accepted vectors characterised; never diverges; undefined behaviour only in four listed cases; false in general: after any valid options a trailing option without operand dereferences NULL, and --xn1 with any negative number writes out of bounds (both proved for all such vectors); prec + n + 40 overflows for every family when the operands are large (C33_precision_fails), as do more than 838860 options -v (C33_verbose_fails)"
  },
  {
   "property": "C34",
   "status": "proved",
   "theorems": [
    "Hcp.C34_flags",
    "Hcp.C34_output",
    "Hcp.C34_flag_fits"
   ],
   "note": "for every accepted argument vector"
  },
  {
   "property": "C35",
   "status": "partial",
   "theorems": [
    "Hcp.C35_one_option_partial",
    "Hcp.C35_default_fails",
    "Hcp.C35_overlay_fails",
    "Hcp.C35_bernrev_fails"
   ],
   "note": "documented polynomial when exactly one curve option other than --bernrev is given, anywhere in the vector; false in general: default is x^5-1, a later --xn1 keeps the earlier coefficients, --bernrev n is wrong for every n >= 1"
  },
  {
   "property": "C36",
   "status": "partial",
   "theorems": [
    "Hcp.C36_history",
    "Hcp.C36_leak_fails"
   ],
   "note": "no double free and no use after free for every history and flags; the part about leaks is false: the exact number of blocks left is proved, zero only when nothing was computed"
  },
  {
   "property": "C37",
   "status": "partial",
   "theorems": [
    "Hcp.C37_reproducible_partial",
    "Hcp.C37_never_equal_fails",
    "Hcp.C37_cycle_fails",
    "Hcp.C37_precision_fails"
   ],
   "note": "reproducible (any algorithm, arithmetic, precision) when every pair is separated; false in general: never returns 0, cyclic on disjoint balls, and the order of the roots of an explicit squarefree polynomial changes with the precision"
  },
  {
   "property": "C38",
   "status": "proved",
   "theorems": [
    "Hcp.C38_sound",
    "Hcp.C38_total",
    "Hcp.C38_mag_sound",
    "Hcp.C38_mag_total"
   ],
   "note": "Ball evaluation of f is assumed sound; the roundings of the subdivisions actually met are assumed covered by the upward rounding of the radius (roundOk_float reduces this to a numeric condition). C38_mag_total: mag_func_arb, which has no depth limit, ends because parts below the threshold abort."
  },
  {
   "property": "C39",
   "status": "proved",
   "theorems": [
    "Hcp.C39_checker_exact",
    "Hcp.C39_accepts_zero"
   ],
   "note": ""
  },
  {
   "property": "C40",
   "status": "proved",
   "theorems": [
    "Hcp.C40_error"
   ],
   "note": "any ordered type of radii, any matrix"
  },
  {
   "property": "C41",
   "status": "proved",
   "theorems": [
    "Hcp.C41_folded_bound",
    "Hcp.foldQ_dist"
   ],
   "note": "The folded points bound both conjugate curves and both signs of t; foldQ_dist is the inequality of the statement. Instance: deConstantM2_exact."
  },
  {
   "property": "C42",
   "status": "proved",
   "theorems": [
    "Hcp.C42_edge_parameter"
   ],
   "note": ""
  },
  {
   "property": "C43",
   "status": "partial",
   "theorems": [
    "Hcp.C43_m1_partial",
    "Hcp.C43_m1_fails"
   ],
   "note": "False: for points beside the path (|Re u|>1) the code uses |u| instead of the distance to the path; C43_m1_fails for all lists of points with Re u > 1. Proved when all real parts are in [-1,1]."
  },
  {
   "property": "C44",
   "status": "partial",
   "theorems": [
    "Hcp.C44_exponent_fails",
    "Hcp.C44_numerator_fails"
   ],
   "note": "False: max_f uses the exponents d and 1/m for all differentials. Both theorems give, for every curve, a neighbourhood of branch points for which the integrand (1,j) exceeds the constant. What holds is C41 (bound of |z|^d/prod^(1/m))."
  },
  {
   "property": "C45",
   "status": "partial",
   "theorems": [
    "Hcp.C45_error_partial",
    "Hcp.C45_precision",
    "Hcp.C45_edge_partial",
    "Hcp.C45_tree_partial",
    "Hcp.C45_choice_partial",
    "Hcp.C45_choice_fails",
    "Hcp.C45_choice_range"
   ],
   "note": "Proved when the ellipse parameter selected is in (1,r0]; the step choosing it is in doubles, C45_choice_partial says when it stays in range and C45_choice_fails that nothing in the code guarantees it. C45_edge/C45_tree: the rows computed contain the true integrals over the edges for y^2=f."
  },
  {
   "property": "C46",
   "status": "proved",
   "theorems": [
    "Hcp.C46_edges_free",
    "Hcp.C46_no_third_point"
   ],
   "note": "C46_edges_free: any parameters for which pairs with a third point on their segment come below the others. C46_no_third_point: both parameters of the code, computed exactly, have this property (ellipse parameter = 1, strip height = 0 exactly on the segment). The code computes them in doubles."
  },
  {
   "property": "C47",
   "status": "partial",
   "theorems": [
    "Hcp.C47_periods_partial"
   ],
   "note": "Hyperelliptic curves, Gauss-Chebyshev rule: entries contain the true integrals over the loops. Hypotheses: ellipse parameter as in C45; with the default option for roots, the balls decide the turning numbers at the nodes (RootsOk)."
  },
  {
   "property": "C48",
   "status": "partial",
   "theorems": [
    "Hcp.C48_rank",
    "Hcp.C48_symplectic_basis",
    "Hcp.C48_oriented",
    "Hcp.C49_fails"
   ],
   "note": "Proved for the numbers computed by the program; when edges of the tree cross these are not the intersection numbers of the paths (C50_fails, C49_fails). In exact arithmetic on exact branch points (the ball version of the shift numbers is C14). C48_oriented: for every m and n all pairings alpha_i.beta_i are +1. The intersection numbers are those determined by the sheet gaps of C14; the identification of these numbers with the topological intersection form of the surface is not formalised, but rank 2g over every field is proved. The number of edges is the one of abel_jacobi_init_poly: n-1, or n-2 when m divides n (EdgeCount, C03_edge_count)."
  },
  {
   "property": "C49",
   "status": "partial",
   "theorems": [
    "Hcp.C49_hyperelliptic_basis",
    "Hcp.C49_closed_partial",
    "Hcp.C49_fails"
   ],
   "note": "C49_hyperelliptic_basis: for the numbers computed by the program, in full. C49_closed_partial: for the intersection numbers of the closed paths when edges cannot cross. C49_fails: a curve of genus 3 for which the loops returned are not a symplectic basis, because two edges of the tree cross. From the branch points, m = 2: the intersection matrix is principally unimodular; the reduction gives J_g + 0 with positive orientation in one pass per block, coefficients are 0, 1, -1, so the basis is always returned. The number of edges is the one of abel_jacobi_init_poly: n-1, or n-2 when m divides n (EdgeCount, C03_edge_count)."
  },
  {
   "property": "C50",
   "status": "partial",
   "theorems": [
    "Hcp.C50_intersection_numbers",
    "Hcp.C50_from_points",
    "Hcp.C50_symplectic_basis",
    "Hcp.C50_hyperelliptic_basis",
    "Hcp.C50_closed_partial",
    "Hcp.C50_closed_from_points_partial",
    "Hcp.C50_fails",
    "Hcp.C50_small_basis"
   ],
   "note": "The matrix holds the crossing numbers at common branch points, always (C50_intersection_numbers, C50_from_points). These are the intersection numbers of the closed paths when edges do not cross (C50_closed_partial; from the points when tree->r is above the bound of C64 or the points are real). C50_fails: a curve of genus 3 whose tree has crossing edges; the matrix has an entry 0 where the intersection number is +-2. Balls: under the hypothesis Resolved (the balls decide the side of edges meeting at a point), needed because is_neg_abad and arb_angle do not check it; exact numbers: no hypothesis. Intersection numbers are sums of crossing numbers of the rays of y at common branch points. The number of edges is the one of abel_jacobi_init_poly: n-1, or n-2 when m divides n (EdgeCount, C03_edge_count)."
  },
  {
   "property": "C51",
   "status": "partial",
   "theorems": [
    "Hcp.C51_periods_partial"
   ],
   "note": "Hypotheses: ellipse parameter in (1, r0]; Resolved; with the default option for roots, the balls decide the turning numbers at the nodes (RootsOk). Gauss-Chebyshev integration only. Instance in Props/CurveInst. The number of edges is the one of abel_jacobi_init_poly: n-1, or n-2 when m divides n (EdgeCount, C03_edge_count). The intersection numbers are those at common branch points; when edges of the tree cross (C64_fails) they are not the intersection numbers of the closed paths."
  },
  {
   "property": "C52",
   "status": "partial",
   "theorems": [
    "Hcp.C52_periods_partial",
    "Hcp.C52_radius"
   ],
   "note": "Missing: that the radius added to the sums covers their error is a hypothesis; it is false of the code in general (C53_fails, C27). It holds for the radii of C53_error_bound (C52_radius). Coefficients of the loops below 2^62 (C16). The number of edges is the one of abel_jacobi_init_poly: n-1, or n-2 when m divides n (EdgeCount, C03_edge_count). The intersection numbers are those at common branch points; when edges of the tree cross (C64_fails) they are not the intersection numbers of the closed paths."
  },
  {
   "property": "C53",
   "status": "partial",
   "theorems": [
    "Hcp.C53_error_bound",
    "Hcp.C53_de_error_partial",
    "Hcp.C53_params_partial",
    "Hcp.C53_fails",
    "Hcp.C53_edges_fail"
   ],
   "note": "False as stated: for every real edge and exponents j1 < j < m the radius is smaller than the error for all large precisions (C53_fails). Proved: a correct a priori bound for all edges and differentials, and 4x the first part + l x the second part at n-1 of the code's formula when its constants are bounds for the differential. Formulas evaluated exactly (no roundings)."
  },
  {
   "property": "C54",
   "status": "proved",
   "theorems": [
    "Hcp.C54_strip",
    "Hcp.C54_returns"
   ],
   "note": "exact evaluation of casinh/catanh; the code uses doubles"
  },
  {
   "property": "C55",
   "status": "proved",
   "theorems": [
    "Hcp.C55_precision"
   ],
   "note": "exact evaluation of the formulas of de_params_d"
  },
  {
   "property": "C56",
   "status": "partial",
   "theorems": [
    "Hcp.C56_compute_partial",
    "Hcp.C56_quadratic",
    "Hcp.C56_fields",
    "Hcp.C56_fails",
    "Hcp.C56_fails_1000",
    "Hcp.C56_real_fails",
    "Hcp.C56_gc_exact",
    "Hcp.C56_default_fails"
   ],
   "note": "The whole program for every option. Missing: for the two integration rules the conditions Resolved, GcGood/DeGood and no branch point on an edge are hypotheses, because the program does not check them and they can fail (C45_choice_fails, C53_fails); for two branch points C56_quadratic has no such condition. C56_fails: for y^5 = x^2 - 1 with AJ_USE_DE, with all library calls exact on sets, the run returns at every large precision a cell that contains the integral for no determination of y (radius of de_params computed with j1 instead of j); C56_fails_1000: at every precision from 1000 bits on, for lambda = pi/2. C56_real_fails: the same for every curve with distinct real branch points, every m and every differential dx/y^j with j > j1, whenever the double-exponential rule is used (default options for m, n > 2), at every large precision. The pairings are +1 for every m and n. The intersection numbers are those at common branch points; when edges of the tree cross (C64_fails) they are not the intersection numbers of the closed paths. C56_default_fails: with the default options (and AJ_NO_TAU) the runs on every y^3 = product of n = 4..7 real factors return, and at every large precision the cell of dx/y^2 on an edge is wrong; same for larger m with AJ_NO_AB."
  },
  {
   "property": "C57",
   "status": "proved",
   "theorems": [
    "Hcp.C57_quadratic_periods"
   ],
   "note": "Spanning tree, edge data, intersections, closed form of the integrals, symplectic basis and both period matrices, with a separate arithmetic for data, shifts and integrals. The abort of constant_cab is one of the outcomes."
  },
  {
   "property": "C58",
   "status": "partial",
   "theorems": [
    "Hcp.C58_coefficients",
    "Hcp.C58_error_partial",
    "Hcp.C58_fails"
   ],
   "note": "The extra precision covers every coefficient; but it can be negative without bound, so that for every requested precision there are curves for which Arb is called with a negative precision (C58_fails)."
  },
  {
   "property": "C59",
   "status": "partial",
   "theorems": [
    "Hcp.C59_roots_partial",
    "Hcp.C59_monic",
    "Hcp.C59_fails"
   ],
   "note": "The code ignores the leading coefficient: for f = a prod(x - x_k) and alpha^m = a the cells of x^i dx/y^j contain alpha^j times the integral on y^m = f(x) (C59_roots_partial); right for monic f (C59_monic), tau right for all f. C59_fails: y^m = a(x^2-1), |a| different from 1, all m > 2: no cell contains the integral for any determination of y."
  },
  {
   "property": "C60",
   "status": "partial",
   "theorems": [
    "Hcp.C60_program_partial",
    "Hcp.C60_two_points",
    "Hcp.C60_usage",
    "Hcp.C60_readme_fails"
   ],
   "note": "periods.c main as one program. Whatever is printed is the object asked for, right up to the factor alpha^j of C59 and under the conditions of C56 on the run (C60_program_partial), unconditionally for degree 2 without --de (C60_two_points). C60_usage: the usage message is printed exactly when the options cannot be read. C60_readme_fails: the command line of README.md prints only the usage message."
  },
  {
   "property": "C61",
   "status": "partial",
   "theorems": [
    "Hcp.C61_riemann_partial",
    "Hcp.C61_quadratic",
    "Hcp.C61_exact",
    "Hcp.C61_relations",
    "Hcp.C61_relations_iff",
    "Hcp.C61_elliptic_real",
    "Hcp.C61_hyperelliptic_real",
    "Hcp.C61_fails",
    "Hcp.C61_fails_reached",
    "Hcp.relations_super_real",
    "Hcp.C61_super_real",
    "Hcp.C61_real_points",
    "Hcp.C61_real_cubic",
    "Hcp.relations_complex",
    "Hcp.C61_complex",
    "Hcp.C61_complex_points",
    "Hcp.C61_complex_cubic",
    "Hcp.C61_run"
   ],
   "note": "Two branch points, all m > 2: the exact matrix of alpha periods of a right output is invertible and tau is symmetric with positive definite imaginary part; for every run C61_quadratic (both aborts happen only because a ball contains zero although the exact value is not zero). All curves: tau is a Riemann matrix if (and, for m coprime to n or dividing n, only if) the integrals over the closed paths of the tree satisfy Riemann's bilinear relations for the intersection numbers (C61_relations, C61_relations_iff): no choice of loops matters. The relations themselves are proved for all curves y^2 = f(x) with real branch points, any degree and genus (C61_hyperelliptic_real, from Cauchy's theorem and Green's theorem on the upper half plane); C61_elliptic_real is the case of three or four points with a shorter proof. The same relations are proved for y^m = f(x) with real branch points, every m >= 2 and every degree (relations_super_real), so that tau is a Riemann matrix for all m and n (C61_super_real, and C61_real_points from the points themselves in exact arithmetic, the only other outcome being the abort for a coefficient which does not fit a word; for m = 2 and m = 3 there is no other outcome, C61_real_cubic). The relations are proved for all complex branch points, every m >= 2 and every degree, whenever different edges of the tree only meet at common ends (relations_complex, from Green's theorem on strips of the plane cut along horizontal half lines); so tau is a Riemann matrix for all m and n (C61_complex; C61_complex_points from the points in exact arithmetic when tree->r is above the bound of C64; C61_complex_cubic for m = 3 without another outcome). C61_run: the same for the balls returned by any run in the situation of C56. The orientation of the loops is the one of C48_oriented. The opposite sign of C30 when all solvers but the last fail is kept in view. The intersection numbers are those at common branch points; when edges of the tree cross (C64_fails) they are not the intersection numbers of the closed paths. The property is then false of the code: for y^2 = (x^2-24^2)(x^2-48^2)(x^2+10^2)(x^2+11^2), genus 3, the tree of Gauss-Chebyshev integration has the edges from -24 to 24 and from -10i to 10i, and no tau with omega0 tau = omega1 is symmetric although everything is computed exactly (C61_fails for every order of ties, C61_fails_reached: the output exists)."
  },
  {
   "property": "C62",
   "status": "partial",
   "theorems": [
    "Hcp.C62_gp_partial",
    "Hcp.C62_nan_fails",
    "Hcp.C62_nan_zero_fails",
    "Hcp.C62_signs"
   ],
   "note": "Proved for all matrices with finite midpoints. False in general: a midpoint which is not a number (indeterminate entry) is printed as 0."
  },
  {
   "property": "C63",
   "status": "proved",
   "theorems": [
    "Hcp.C63_tree",
    "Hcp.C63_tree_iff"
   ],
   "note": "for every tree whose edges are all set (C03_tree_size); the text of the parameter is a parameter of the model"
  },
  {
   "property": "C64",
   "status": "partial",
   "theorems": [
    "Hcp.C64_no_crossing_partial",
    "Hcp.C64_fails",
    "Hcp.C64_fails_plain"
   ],
   "note": "False of the code in general: for the points -24, 24, +-10i, +-11i, -48 the Gauss-Chebyshev tree has two edges which cross at 0 (C64_fails, for every order of ties). Proved when tree->r > sqrt 2 (Gauss-Chebyshev) or > pi/6 (double exponential), and for real points. Exact parameters; the code computes them in doubles. Consequence: C61_fails, a tau which is not symmetric."
  },
  {
   "property": "C65",
   "status": "partial",
   "theorems": [
    "Hcp.C65_stdout_partial",
    "Hcp.C65_bench"
   ],
   "note": "The text of a run with --gp is read back as the object of C60, every number within the radius of its ball and the rounding. Missing: the conditions of C60 (GoodRun), infinite midpoints, the verbose mode and the formats other than --gp."
  },
  {
   "property": "C66",
   "status": "proved",
   "theorems": [
    "Hcp.C66_cubic_basis",
    "Hcp.C50_small_basis"
   ],
   "note": "For the numbers computed by the program (those at common branch points), in exact arithmetic from the branch points (C66_cubic_basis) and on balls under the hypotheses of C50 (C50_small_basis). Same form as C49_hyperelliptic_basis."
  },
  {
   "property": "C67",
   "status": "proved",
   "theorems": [
    "Hcp.C67_golden_search",
    "Hcp.C67_golden_min"
   ],
   "note": "exact real arithmetic instead of double; the function is not called by the library"
  },
  {
   "property": "C68",
   "status": "partial",
   "theorems": [
    "Hcp.C68_fails_value",
    "Hcp.C68_fails_place",
    "Hcp.C68_max_func_partial"
   ],
   "note": "false as stated: the scan never moves its left end, keeps the largest of the returned places (not values), and each search finds a minimum; proved: the result is that of one search on the first of the small intervals"
  },
  {
   "property": "C69",
   "status": "proved",
   "theorems": [
    "Hcp.C69_mag_func",
    "Hcp.C69_parts_evaluated",
    "Hcp.C69_bound_func"
   ],
   "note": "The counter is a natural number (no overflow). Assumed of Arb: arb_set_interval_arf contains the interval, and the inclusion and rounding conditions of C38."
  },
  {
   "property": "C70",
   "status": "proved",
   "theorems": [
    "Hcp.C70_outside",
    "Hcp.C70_returns",
    "Hcp.C70_nonzero",
    "Hcp.C70_empty_diverges"
   ],
   "note": "The generator of FLINT is a parameter. 1 + eps is the sum computed in doubles. C70_empty_diverges is the part of the statement on empty vectors."
  },
  {
   "property": "C71",
   "status": "partial",
   "theorems": [
    "Hcp.C71_direct_partial",
    "Hcp.C71_fails",
    "Hcp.C71_fails_1000"
   ],
   "note": "de_integrals does not add the error bound: each cell contains a number close to the integral (distance K 2^(-prec (m-j)/(m-1))), and for real points the integral itself is not in the cells of the exponents above j1, for all large precisions (from 1000 bits on for y^5 = x^2 - 1)."
  },
  {
   "property": "C72",
   "status": "proved",
   "theorems": [
    "Hcp.C72_params",
    "Hcp.C72_error",
    "Hcp.C72_rate",
    "Hcp.C72_returns",
    "Hcp.C72_order",
    "Hcp.C72_large",
    "Hcp.C72_edges"
   ],
   "note": "For points known exactly and the double-precision functions without rounding (exactPar, exactDbl); the radius 2/prec of the first ball is dropped, so that only the points on the smallest ellipse are counted in the first round. Every list of points off [-1,1], every precision with GcPrec (two explicit inequalities, true from some precision on by C72_large). The number of points is the explicit formula gcN."
  },
  {
   "property": "C73",
   "status": "proved",
   "theorems": [
    "Hcp.C73_returns_right",
    "Hcp.C73_exact_numbers",
    "Hcp.C73_triangle",
    "Hcp.C72_edges"
   ],
   "note": "Exact branch points, functions in double precision without rounding, m = 2, Gauss-Chebyshev rule, options without tau. The precision is large enough in the sense of GcReady (explicit inequalities; they hold from some precision on by C72_edges when edges with the same smallest ellipse have the same ellipses, always so for three points). C73_triangle: all precisions from 3 bits to 2^58 on one curve."
  },
  {
   "property": "C74",
   "status": "proved",
   "theorems": [
    "Hcp.C74_accuracy",
    "Hcp.C74_exact_numbers",
    "Hcp.C74_triangle"
   ],
   "note": "For arithmetic without rounding (SharpGc); rounding errors of Arb are outside the model."
  },
  {
   "property": "C75",
   "status": "proved",
   "theorems": [
    "Hcp.C75_less",
    "Hcp.C75_agree",
    "Hcp.C75_tau"
   ],
   "note": "For every implementation of the arithmetic."
  },
  {
   "property": "C76",
   "status": "proved",
   "theorems": [
    "Hcp.C76_tau",
    "Hcp.C76_ready",
    "Hcp.C76_triangle",
    "Hcp.C76_tau_real"
   ],
   "note": "For arithmetic without rounding (SharpGc) and trees whose edges meet only at their ends, which is the case for all real branch points and for three branch points (C76_tau_real)."
  },
  {
   "property": "C77",
   "status": "partial",
   "theorems": [
    "Hcp.C77_numbers_partial",
    "Hcp.C77_exact",
    "Hcp.C77_garbage_fails",
    "Hcp.C77_bench_partial",
    "Hcp.C77_bench_fails"
   ],
   "note": "Numbers are read exactly; operands which are not numbers are not refused, and the operand of --bench is reduced modulo 2^32 (negations proved)."
  },
  {
   "property": "C78",
   "status": "proved",
   "theorems": [
    "Hcp.C78_homology"
   ],
   "note": "For arithmetic without rounding (idealEnv). The abort for a coefficient outside of slong is part of the statement."
  },
  {
   "property": "C79",
   "status": "proved",
   "theorems": [
    "Hcp.C79_returns"
   ],
   "note": "Exact operations on sets, exact branch points, de_params as modelled (DeParams), roots of y by AJ_ROOT_DEF, AJ_ROOT_PROD or the default with at most 7 branch points. The turning numbers (AJ_ROOT_TURN, and the default above 1000 bits with 8 points or more) are left out because acb_prod_turn can fail there (C23). That the returned integrals are not always right is C56_default_fails."
  },
  {
   "property": "C80",
   "status": "proved",
   "theorems": [
    "Hcp.C80_loop",
    "Hcp.C80_injective"
   ],
   "note": "loop_print, read back by the reader of Spec/PrintLoop.lean; no hypotheses on the loop"
  },
  {
   "property": "C81",
   "status": "partial",
   "theorems": [
    "Hcp.C81_tree_nodes_partial"
   ],
   "note": "exact numbers; condition on the precision machine-free and satisfied from some precision on; missing: edges with the same parameter as tree->min but other ellipses, small precisions"
  },
  {
   "property": "C82",
   "status": "partial",
   "theorems": [
    "Hcp.C82_de",
    "Hcp.C82_gc_partial",
    "Hcp.C82_gc_leak_fails",
    "Hcp.C82_intersection_leak_fails",
    "Hcp.C82_solver_leak_fails"
   ],
   "note": "proved for the double-exponential rule; no invalid free and no release of a block of the caller elsewhere, but blocks are lost (exact numbers): Gauss-Chebyshev schemes, intersection numbers, fallback solvers"
  },
  {
   "property": "C83",
   "status": "proved",
   "theorems": [
    "Hcp.C83_one_scheme"
   ],
   "note": "exact numbers (the roundings of the doubles are not modelled)"
  },
  {
   "property": "C84",
   "status": "proved",
   "theorems": [
    "C84_one_scheme",
    "C84_one_call"
   ],
   "note": "Run of the integrals with AJ_DE_SAME (flag bit 8) in the double-exponential case: one scheme, from the first edge of the order, one call of de_params. That the points of this scheme converge on every edge is C83; that its error bound does not cover the others is C27."
  },
  {
   "property": "C85",
   "status": "proved",
   "theorems": [
    "C85_converges"
   ],
   "note": "On exact numbers with de_params as modelled. The constants K hold for all precisions without an upper bound (integration and period matrices as functions of the precision); every run which returns has these integrals and periods. Y, the tree and the loops are the same at all precisions. K is not made explicit."
  },
  {
   "property": "C86",
   "status": "proved",
   "theorems": [
    "C86_tau_converges",
    "C86_returns"
   ],
   "note": "On exact numbers with de_params as modelled and matrices as sets (solve succeeds when no matrix of the set is singular). P0 and K are not made explicit. For trees with crossing edges nothing is said (see C61)."
  },
  {
   "property": "C87",
   "status": "proved",
   "theorems": [
    "C87_tree",
    "C87_loops",
    "C87_run",
    "C87_tau",
    "C87_same_tau",
    "C87_mirror",
    "C87_periods",
    "C87_mirror_tau"
   ],
   "note": "The tree for every affine map; loops, runs and the computed tau for maps with a > 0, with the arithmetic on sets; the equation of tau for every affine map."
  },
  {
   "property": "C88",
   "status": "partial",
   "theorems": [
    "C88_one_partial",
    "C88_ignores_points",
    "C88_fails",
    "C88_zero"
   ],
   "note": "False of the code for every m >= 2: 1/m is a division of integers, so the points are ignored (C88_ignores_points, C88_fails). Right for m = 1; m = 0 divides by zero."
  },
  {
   "property": "C89",
   "status": "partial",
   "theorems": [
    "C89_least_partial",
    "C89_below_partial",
    "C89_null_fails",
    "C89_radius_fails"
   ],
   "note": "For functions which accept a null pointer: the least lower bound is in the midpoint. False in general: the function of the library reads the null pointer, and the radius of r0 is not reset."
  },
  {
   "property": "C90",
   "status": "partial",
   "theorems": [
    "C90_zero_partial",
    "C90_fails",
    "C90_nodes_fail"
   ],
   "note": "False: the computation which is not compiled gives wrong abscissas and weights at every node but the first. The compiled one is right (C25)."
  }
 ]
}