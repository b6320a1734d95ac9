{"id": "C01", "title": "Number of differentials equals the genus", "statement": "For a superelliptic curve y^m = f(x), deg f = n, with m,n >= 2, the descriptor built by sec_init advertises a list of row lengths ni[0..nj-1] whose sum is exactly the advertised genus g. Hence every g-wide row of integrals/periods that is filled block by block over j is filled exactly, with no hole and no overrun.", "quantifier": "all m >= 2 and n >= 2 (no bound)", "why_tests_cant": "The identity is a number-theoretic statement about sums of floors; a test only checks finitely many (m,n).", "anchors": ["arb/se_curve.c: sec_init (20-52)", "arb/abel_jacobi.h: jmin, imax (125-135)"]}
{"id": "C02", "title": "The list of differentials is the holomorphic basis", "statement": "The pairs (i,j) enumerated by the descriptor (1<=i<=ni[j-j1], j1<=j<m) are exactly the pairs with 1<=i, 1<=j<=m-1 and n*j - m*i >= gcd(m,n): none missing, none extra, and each block is non-empty with at most n-1 entries.", "quantifier": "all m >= 2, n >= 2 and all pairs (i,j)", "why_tests_cant": "Equality of two infinite families of index sets; off-by-one errors in the ceil/floor only show for special residues.", "anchors": ["arb/abel_jacobi.h: jmin, imax", "arb/se_curve.c: sec_init"]}
{"id": "C03", "title": "Outcome of opening a curve, for every m and every polynomial", "statement": "abel_jacobi_init_poly either aborts with a diagnostic or returns a usable object, for every exponent m and polynomial; it is usable exactly when m>=2, n>=2, f squarefree and g>=1; no arithmetic overflow occurs for parameters below 2^31. (Suspected: a non-zero constant polynomial, n=0, divides by zero before any check.)", "quantifier": "all machine integers m, all degrees n, squarefree or not", "why_tests_cant": "Degenerate degrees are outside every shipped example; undefined behaviour is not observable by a passing test.", "anchors": ["arb/se_curve.c: sec_init", "arb/aj_struct.c: abel_jacobi_init_poly"]}
{"id": "C04", "title": "Symplectic reduction terminates and is a unimodular congruence", "statement": "symplectic_reduction(p, m, g), called on any integer antisymmetric matrix of rank at least 2g, terminates, never touches an entry outside the matrices, and leaves p unimodular (det = +-1, with integral inverse) with  m_out = p * m_in * p^T.", "quantifier": "all sizes, all antisymmetric integer matrices, all g with rank >= 2g, any extended-gcd routine meeting its specification", "why_tests_cant": "Termination of the Bezout sweep and unimodularity must hold for arbitrary entries; tests use 0/+-1 random matrices up to g=30.", "anchors": ["arb/symplectic_reduction.c: symplectic_reduction, pivot_line, bezout_step, transvect_step, swap_step, neg_step", "arb/fmpz_mat_extras.c"]}
{"id": "C05", "title": "Symplectic reduction produces the block form", "statement": "After symplectic_reduction(p,m,g) on an antisymmetric matrix of rank at least 2g, rows and columns 2i,2i+1 (i<g) of m are zero except m(2i,2i+1) = -m(2i+1,2i) = d_i != 0; if the rank is exactly 2g everything outside these blocks is zero.", "quantifier": "all sizes, matrices, g", "why_tests_cant": "As above: the shape must hold for all integer matrices, including ones forcing many gcd sweeps.", "anchors": ["arb/symplectic_reduction.c: symplectic_reduction"]}
{"id": "C06", "title": "Orientation of the symplectic basis", "statement": "After symplectic_reduction every block has m(2i,2i+1) > 0 (the basis (a_i,b_i) is positively oriented, as needed for Im tau > 0). (Suspected false when a Bezout step on the second row is needed.)", "quantifier": "all antisymmetric matrices of rank >= 2g", "why_tests_cant": "The sign is normalised once before the sweep; only inputs needing a second-row gcd step break it, and tests check only |entry| = 1.", "anchors": ["arb/symplectic_reduction.c: symplectic_reduction (124-170)"]}
{"id": "C07", "title": "The reduced basis is symplectic when the input comes from homology", "statement": "If the input matrix is unimodularly congruent to J_g + 0 (the case for the intersection form of generators of H_1), then after symplectic_reduction every d_i is +1 or -1, i.e. the rows of p give a canonical basis up to orientation.", "quantifier": "all sizes, all matrices unimodularly congruent to J_g + 0", "why_tests_cant": "Quantifies over all unimodular changes of basis.", "anchors": ["arb/symplectic_reduction.c", "arb/fmpz_mat_extras.c: is_symplectic_j"]}
{"id": "C08", "title": "Behaviour of the reduction when the rank is too small", "statement": "If the matrix has rank smaller than 2g, symplectic_reduction still stays inside its matrices and returns the congruence with as many blocks as possible. (Suspected false: when zero rows are exhausted exactly at the start of a new block the final clean-up swaps out of range.)", "quantifier": "all antisymmetric matrices, all g <= size/2", "why_tests_cant": "Memory-safety of an early-exit path that never triggers on real curves.", "anchors": ["arb/symplectic_reduction.c: symplectic_reduction (106-123)"]}
{"id": "C09", "title": "The spanning tree is a tree, with oriented edges", "statement": "spanning_tree on n branch points selects edges such that the first endpoint of each edge after the first is already in the tree and the second is new; hence k selected edges span exactly k+1 points, no cycles, the selection never fails nor reads out of range when the requested number of edges is at most n-1.", "quantifier": "all numbers of points, all (even arbitrary) edge weights, any sorting routine, all requested sizes <= n-1", "why_tests_cant": "Structural invariant over every weight order produced by every configuration of branch points.", "anchors": ["arb/spanning_tree.c: spanning_tree, edges_init, edge_cmp"]}
{"id": "C10", "title": "The spanning tree is optimal", "statement": "The tree selected maximises the smallest edge parameter: every spanning tree on the branch points has an edge whose parameter r is at most tree->r; every selected edge has maximal r among edges crossing the current cut; tree->r is the minimum over selected edges and tree->min is an index realising it (parameters non-zero).", "quantifier": "all finite weighted complete graphs; all competitor spanning trees", "why_tests_cant": "Optimality quantifies over all competitor trees (n^(n-2) of them).", "anchors": ["arb/spanning_tree.c: spanning_tree (97-121)"]}
{"id": "C11", "title": "Edge list enumerates each pair once", "statement": "The list of candidate edges contains, for d branch points, each unordered pair {i,j}, i != j, exactly once, as (i,j) with i<j, and its length is d(d-1)/2, the size allocated by the caller.", "quantifier": "all d", "why_tests_cant": "Off-by-one in the nested loop vs the allocation formula must be excluded for all d.", "anchors": ["arb/spanning_tree.c: edges_init, spanning_tree (68-96)"]}
{"id": "C12", "title": "Intersection cases are exhaustive", "statement": "For edges ek, el of the tree with k<l, the end point of el is never an end point of ek; so two distinct edges are disjoint, or share start/start, or end/start: the error branch 'invalid tree' of intersection_tree cannot be reached.", "quantifier": "all trees returned by spanning_tree, all pairs k<l", "why_tests_cant": "Reachability over all trees.", "anchors": ["arb/intersections_tree.c: intersection_tree (144-194)", "arb/spanning_tree.c"]}
{"id": "C13", "title": "The intersection matrix is an antisymmetric 0/+-1 matrix with the documented block pattern", "statement": "intersection_tree fills, for every tree and every set of shift numbers, an antisymmetric matrix with entries in {-1,0,1} of size (m-1)*#edges, writes only inside it, and entry ((k,a),(l,b)) depends only on b-a mod m: diagonal blocks: +1 if b=a+1, -1 if a=b+1; same start, negative side: +1 at b-a=-s, -1 at b-a=-1-s; same start, positive side: +1 at b-a=1-s, -1 at b-a=-s; end of the first = start of the second: +1 at b-a=-s, -1 at b-a=1-s (all mod m); zero elsewhere.", "quantifier": "all m >= 2, all trees, all integer shifts", "why_tests_cant": "All m, all shift numbers modulo m; loops with wrap-around bounds.", "anchors": ["arb/intersections_tree.c: fill_block (18-40), intersection_tree"]}
{"id": "C14", "title": "Shift numbers are integers", "statement": "The quantity that intersection_tree rounds to an integer (and aborts on when it is not one) is an integer in exact arithmetic for every pair of adjacent edges with y_k^m, y_l^m equal up to the documented normalisation; so at sufficient precision the program never aborts there, and the block it fills does not depend on which of the two values +-pi is taken for an angle pi.", "quantifier": "all m, all pairs of adjacent edges, all complex data satisfying the local equation", "why_tests_cant": "Quantifies over all complex configurations.", "anchors": ["arb/intersections_tree.c: shift_number (99-129), arb_angle, is_neg_abad"]}
{"id": "C15", "title": "Homology loops represent the rows of the base change", "statement": "symplectic_basis returns loops whose coefficient lists are exactly the non-zero entries of rows 0,2,4.. (alpha) and 1,3,5,.. (beta) of the base change, each labelled with (edge, sheet) = (j div (m-1), j mod (m-1)); with the intersection pairing they satisfy <alpha_i,beta_j> = d_i delta_ij, <alpha,alpha>=<beta,beta>=0.", "quantifier": "all trees, all m, all g with rank = 2g", "why_tests_cant": "Sparse-encoding round trip and bilinear identity for every base change.", "anchors": ["arb/symplectic_basis.c: set_loops, count_coeffs, symplectic_basis", "arb/homol.c"]}
{"id": "C16", "title": "Loop coefficients survive as machine integers", "statement": "Every coefficient accepted by symplectic_basis is later used with its exact value when summing periods. (Suspected: coefficients with |c| >= 2^62 are accepted but are reinterpreted as a big-integer handle.)", "quantifier": "all 64-bit coefficients", "why_tests_cant": "Only astronomically large coefficients are affected.", "anchors": ["arb/symplectic_basis.c: set_loops", "arb/period_matrix.c: periods_loop (9-46)"]}
{"id": "C17", "title": "Period matrix entries are the right linear combinations of elementary integrals", "statement": "period_matrix sets omega[r][k] = sum over terms (c,e,l) of loop k of c * zeta_m^(-l*j_r) * integrals[e][r], where j_r is the exponent of differential r; every read is inside the integrals matrix; on balls, the computed entries contain the exact combination whenever the inputs contain the exact integrals.", "quantifier": "all curves with m,n>=2, all loops, all integral matrices, all sound ball arithmetics", "why_tests_cant": "Linear-algebra identity and enclosure over all inputs.", "anchors": ["arb/period_matrix.c: periods_loop, period_matrix"]}
{"id": "C18", "title": "Polynomial shift is exact", "statement": "acb_vec_polynomial_shift(x, c, len) replaces x_k by sum_l binomial(k,l) c^(k-l) x_l, i.e. integrals of u^k are transformed into integrals of (u+c)^k, for every length.", "quantifier": "all lengths, all values", "why_tests_cant": "Double loop with in-place update, all lengths.", "anchors": ["arb/constants.c: acb_vec_polynomial_shift"]}
{"id": "C19", "title": "Edge factors implement the change of variables", "statement": "integrals_edge_factors (and its hyperelliptic variant) turn the integrals of u^(i-1)/y(u)^j on [-1,1] into those of x^(i-1)/y^j on the edge, x = (b-a)/2 (u + (b+a)/(b-a)), multiplied by the factor (1 - zeta^-j) C_ab^-j of the loop around the edge, block by block and inside the row; exact formula for every entry.", "quantifier": "all curves, all edges (a != b), all rows", "why_tests_cant": "In-place geometric multiplications over blocks of varying length.", "anchors": ["arb/constants.c: integrals_edge_factors, integrals_edge_factors_gc, acb_vec_mul_geom"]}
{"id": "C20", "title": "Local equation of an edge", "statement": "For each edge (a,b) the stored constant and the other branch points u_i satisfy C_ab^m = (-1)^(n1+1) ((b-a)/2)^n type identity, so that (C_ab*y(u))^m * (1-u^2) = f(x(u)) up to the documented unit; the value is a valid determination of y on the edge.", "quantifier": "all n, m, all distinct branch points, all choices of sign sets", "why_tests_cant": "Identity over all complex data and both branches of the sign test.", "anchors": ["arb/ydata.c: constant_cab, ab_points, ydata_init_edge"]}
{"id": "C21", "title": "Partition of branch points by half plane", "statement": "ab_points permutes the n-2 remaining transformed branch points such that the last n-2-n1 are exactly those whose real part is decided non-positive and the first n1 the others, loses none and duplicates none, and terminates, for any answers of the sign test.", "quantifier": "all n, all branch points, all (consistent) oracle answers", "why_tests_cant": "In-place swap-with-end loop; any answer pattern.", "anchors": ["arb/ydata.c: ab_points"]}
{"id": "C22", "title": "m-th root of a product: definition", "statement": "mth_root_pol_def / sqrt_pol_def return a value whose m-th power is prod(x - u_i), with the sign conventions for the two groups; mth_root_pol_prod returns the same value when the argument stays in the principal sheet.", "quantifier": "all m, all numbers of points, all x", "why_tests_cant": "Complex identities for all numbers of factors.", "anchors": ["arb/mth_root_pol.c: mth_root_pol_def, sqrt_pol_def, mth_root_pol_prod"]}
{"id": "C23", "title": "m-th root with turning number agrees with the definition", "statement": "mth_root_pol_turn returns the same value as mth_root_pol_def. (Suspected false: when the last multiplication lands on the negative real axis from the upper half plane the winding counter is advanced once too often; and with no factor it reads a non-existing entry.)", "quantifier": "all factor lists in the half planes guaranteed by the partition", "why_tests_cant": "Exceptional set of measure zero, and empty list.", "anchors": ["arb/mth_root_pol.c: mth_root_pol_turn, acb_prod_turn"]}
{"id": "C24", "title": "Gauss-Chebyshev nodes", "statement": "gc_int_init_length produces n nodes cos((2k+1)pi/2n) (half of them stored, others by symmetry), each stored cell written exactly once and in range; the rule pi/n * sum p(x_k) integrates p(x)/sqrt(1-x^2) exactly for all polynomials of degree < 2n; the code's +-x and middle-point summation computes that rule.", "quantifier": "all n >= 1, all polynomials of degree < 2n", "why_tests_cant": "All n and all polynomials.", "anchors": ["arb/gc_int.c: gc_int_init, _arb_vec_cos_pi", "arb/integrals_gc.c: gc_integrals"]}
{"id": "C25", "title": "Double-exponential summation is the trapezoidal rule", "statement": "The DE integration loop computes for every (i,j) the sum over l=-(n-1)..n-1 of h * dx_l * (ch_l^.. / y(x_l))^j * x_l^(i-1), using the stored half of the nodes with the symmetric points.", "quantifier": "all n, m, i, j; all nodes", "why_tests_cant": "Loop-invariant over number of nodes and block shape.", "anchors": ["arb/integrals_de.c: de_integrals", "arb/de_int.c"]}
{"id": "C26", "title": "Integration scheme in use is at least as fine as required (Gauss)", "statement": "When integrating along the tree with the Gauss-Chebyshev rule, the number of points used for each edge is at least the number of points required for that edge by the error bound. (Suspected false: the reuse test keeps the previous scheme when the new requirement is larger.)", "quantifier": "all sequences of required point counts", "why_tests_cant": "Depends on the sequence of requirements over the edges; only a rare increase violates.", "anchors": ["arb/integrals_gc.c: integrals_tree_gc", "arb/gc_params.c"]}
{"id": "C27", "title": "Integration scheme in use is at least as fine as required (DE)", "statement": "When integrating along the tree with the DE rule, the scheme used for each edge has at least the number of points required for that edge, and a reused scheme's error bound is valid for the edge. (The reuse test is in unsigned arithmetic.)", "quantifier": "all sequences of required (n,h) and both flag values", "why_tests_cant": "As above; wrap-around arithmetic.", "anchors": ["arb/integrals_de.c: integrals_tree_de"]}
{"id": "C28", "title": "Closed form for curves y^m = quadratic", "statement": "When n=2 and m>2, the value used for the only elementary integral is sqrt(pi) Gamma(1-j/m)/Gamma(3/2-j/m) = integral over [-1,1] of (1-u^2)^(-j/m) du.", "quantifier": "all m > 2 and 1<=j<m", "why_tests_cant": "Analytic identity for infinitely many (m,j).", "anchors": ["arb/integrals_de.c: integral_d2"]}
{"id": "C29", "title": "Small period matrix solves the linear system", "statement": "tau_matrix computes tau with Omega_A * tau = Omega_B: the complex system is solved through a real 2g x 2g system (or other solvers) and the result satisfies A X = B exactly in exact arithmetic whenever A is invertible.", "quantifier": "all g, all invertible complex matrices A, all B", "why_tests_cant": "All matrices.", "anchors": ["arb/tau_matrix.c: acb_mat_solve_real, tau_matrix"]}
{"id": "C30", "title": "All solver variants agree", "statement": "acb_mat_solve_charpoly returns the solution X of A X = B. (Suspected false: it returns -A^{-1}B.)", "quantifier": "all invertible matrices", "why_tests_cant": "The variant is reached only when the other solvers fail.", "anchors": ["arb/tau_matrix.c: acb_mat_solve_charpoly, acb_mat_solve_multi"]}
{"id": "C31", "title": "Polynomial parser accepts and inverts the canonical notation", "statement": "fmpz_poly_parse on the canonical printed form of any integer polynomial with |coefficients| <= 2^63-1 returns success and that polynomial.", "quantifier": "all integer polynomials of any degree with word-size coefficients", "why_tests_cant": "Infinite family of strings.", "anchors": ["arb/parse.c: accept_term, fmpz_poly_parse"]}
{"id": "C32", "title": "Polynomial parser is total and means what it accepts", "statement": "fmpz_poly_parse terminates on every string without out-of-range access, and if it accepts, the polynomial is the mathematical value of the expression. (Suspected false: repeated monomials overwrite, large coefficients saturate, a negative exponent indexes a negative coefficient.)", "quantifier": "all strings", "why_tests_cant": "All strings.", "anchors": ["arb/parse.c"]}
{"id": "C33", "title": "Command line never crashes", "statement": "The periods program, for every argument vector, ends with a result, a usage message or a diagnostic; it never reads beyond argv. (Suspected false: a trailing option that needs an operand.)", "quantifier": "all argument vectors", "why_tests_cant": "All argument vectors.", "anchors": ["arb/example/periods.c: main"]}
{"id": "C34", "title": "Command line output shows only what was computed", "statement": "Whatever the combination of options, the program prints the object selected by the flags (tau, else big period matrix, else integrals/tree/…) and that object was computed in this run; verbosity never alters computation flags.", "quantifier": "all combinations of options", "why_tests_cant": "2^k combinations; flag-bit disjointness for any number of -v.", "anchors": ["arb/example/periods.c: main", "arb/aj_struct.c: abel_jacobi_compute", "arb/abel_jacobi.h: flags"]}
{"id": "C35", "title": "Command line polynomial selection", "statement": "Each option selecting the curve leads to the polynomial it documents, last one wins; --bern n and --bernrev n give the n-th Bernoulli polynomial and its reverse. (Suspected: several options overlay on the previous polynomial and bernrev drops the constant/leading term.)", "quantifier": "all option sequences, all n", "why_tests_cant": "All n and histories of options.", "anchors": ["arb/example/periods.c: main"]}
{"id": "C36", "title": "Resource life cycle", "statement": "For every history init; compute(flags)*; clear, no block is freed twice or used after free, and after clear nothing allocated remains. (Suspected false: integrals and edge data are re-initialised without clearing.)", "quantifier": "all call histories and all flags, all sizes", "why_tests_cant": "Unbounded histories; leaks are not observable by result-checking tests.", "anchors": ["arb/aj_struct.c: abel_jacobi_init_poly, abel_jacobi_compute, abel_jacobi_clear"]}
{"id": "C37", "title": "Order of branch points is reproducible", "statement": "The sort of the branch points uses a strict weak order, so the order — hence the meaning of the indices of the tree — does not depend on the sorting algorithm nor on the working precision. (Suspected false on overlapping balls.)", "quantifier": "all multisets of balls, all sorting algorithms", "why_tests_cant": "qsort on an inconsistent comparator is undefined behaviour for some inputs only.", "anchors": ["arb/utils.c: acb_cmp_lex", "arb/aj_struct.c: acb_branch_points"]}
{"id": "C38", "title": "Bounds obtained by subdivision are sound", "statement": "arb_bound_func_arb-type bounding by recursive subdivision returns an enclosure of f over the whole input interval whenever f's ball extension is sound, for every subdivision pattern; it terminates within the allotted depth or reports failure.", "quantifier": "all functions, intervals, subdivision parameters", "why_tests_cant": "All functions and subdivision trees.", "anchors": ["arb/mag_func.c"]}
{"id": "C39", "title": "Symplecticity checker decides exactly", "statement": "is_symplectic_j(m, g, g2) answers true exactly when rows/columns of m have the documented block form (all 2i,2i+1 entries +-1 for i<g2... and zeros elsewhere).", "quantifier": "all matrices", "why_tests_cant": "Decision procedure on all matrices.", "anchors": ["arb/fmpz_mat_extras.c: is_symplectic_j (120-140)"]}
{"id": "C40", "title": "Error reporting", "statement": "acb_mat_print_error / the error printed by the command line is the largest radius among all entries (real and imaginary parts).", "quantifier": "all matrices of balls", "why_tests_cant": "All matrices.", "anchors": ["arb/utils.c"]}
{"id": "C41", "title": "Distance bounds survive folding into the first quadrant", "statement": "Replacing points by (|Re|,|Im|) as done in the parameter estimations never increases the distance to the symmetric integration path: |z-u| >= |fold z - fold u|; thus lower bounds computed on folded points are valid.", "quantifier": "all complex z,u", "why_tests_cant": "Real-analytic inequality.", "anchors": ["arb/ydata.c", "arb/mag_func.c"]}
{"id": "C42", "title": "Edge parameter is the minimum over the other points", "statement": "The parameter attached to a candidate edge is the least value of the parameter function over all the other branch points (so the integrand's nearest singularity decides), and the sentinel -1 exactly when there is no other branch point.", "quantifier": "all numbers of points, all non-negative parameter functions, all pairs", "why_tests_cant": "Sentinel-based running minimum; must hold for every order and value pattern.", "anchors": ["arb/spanning_tree.c: param_edge (35-49)"]}
{"id": "C43", "title": "The truncation constant M1 bounds the integrand on the path", "statement": "The constant used for the truncation part of the double-exponential error is an upper bound of 1/(prod |x-u_k|)^(1/m) for every x of the integration path [-1,1], whatever the branch points.", "quantifier": "all lists of branch points, all exponents m, all points of the path", "why_tests_cant": "An inequality for all points of a continuum and all configurations; wrong bounds do not show in results that happen to be accurate.", "anchors": ["arb/de_params.c: de_constant_m1 (155-188)"]}
{"id": "C44", "title": "The discretisation constant M2 bounds all the integrands", "statement": "The constant used for the discretisation part of the double-exponential error bounds |z|^(i-1)/(prod|z-u_k|)^(j/m) on the boundary of the strip for every differential (i,j) to which the resulting error is applied.", "quantifier": "all branch points, all differentials, all points of the curve", "why_tests_cant": "Inequality over a continuum for all curves and differentials.", "anchors": ["arb/de_params.c: max_f, de_constant_m2, de_error (45-153, 251-302)", "arb/integrals_de.c: integrals_edge_de"]}
{"id": "C45", "title": "Error bound of the Gauss-Chebyshev integrals", "statement": "The number of points n and the error e returned by gc_params are such that the n-point Gauss-Chebyshev sum of each integrand x^i/y, 0 <= i <= d, differs from the integral by at most e.", "quantifier": "all branch points off the path, all degrees, all precisions, all roundings", "why_tests_cant": "A bound on the truncation error of a quadrature for all analytic integrands of the family.", "anchors": ["arb/gc_params.c: gc_params, maj_yr, choose_r, arb_func_r_gc", "arb/integrals_gc.c: integrals_edge_gc"]}
{"id": "C46", "title": "No edge of the tree passes through a third branch point", "statement": "When three branch points are aligned the selected tree never contains the edge whose open segment contains another branch point (given that the edge parameter vanishes exactly there).", "quantifier": "all sets of at least two distinct points", "why_tests_cant": "All configurations of points.", "anchors": ["arb/spanning_tree.c: spanning_tree, param_edge"]}
{"id": "C47", "title": "The period matrix of a hyperelliptic curve contains the periods", "statement": "For y^2 = prod (x - x_k), entry (i,k) of the matrix of periods contains the integral of x^i dx/y over loop k of the homology basis, for a determination of y continuous on every edge of the tree.", "quantifier": "all sets of at least three distinct branch points, all trees, all precisions, all roundings, all loops with coefficients below 2^62", "why_tests_cant": "Composition of truncation error, rounding error and change of variables for all inputs; a test compares to finitely many known values.", "anchors": ["arb/integrals_gc.c: integrals_tree_gc", "arb/gc_params.c: gc_params", "arb/period_matrix.c: period_matrix, periods_loop", "arb/aj_struct.c: abel_jacobi_compute"]}
{"id": "C48", "title": "The cycles computed from the branch points form a symplectic basis of the homology", "statement": "For y^m = prod (x - x_k) with n distinct branch points, the intersection matrix computed for the lifts of the tree edges has rank 2g over every field, where g = ((m-1)(n-1) - gcd(m,n) + 1)/2; hence the symplectic reduction asked for g blocks always terminates without out-of-range access, the g loops alpha and g loops beta have intersection numbers 0 except for the dual pairs, where it is +1 or -1, and the remaining combinations are in the radical.", "quantifier": "every m >= 2, every n >= 1, every list of n distinct complex branch points, both integration methods, every sorting of ties, every extended gcd", "why_tests_cant": "tests check a handful of curves; the rank and unimodularity depend on the position of all branch points and on the sheets met along the tree", "anchors": ["arb/symplectic_basis.c:symplectic_basis", "arb/symplectic_reduction.c:symplectic_reduction", "arb/intersections_tree.c:intersection_tree", "arb/spanning_tree.c:spanning_tree"]}
{"id": "C49", "title": "The homology basis of a hyperelliptic curve is always returned, positively oriented and with small coefficients", "statement": "For y^2 = prod (x - x_k) with n distinct branch points, symplectic_basis never aborts and never loops: it needs one pass per pair of cycles, returns g loops alpha and g loops beta with alpha_i . beta_i = +1 and all other intersection numbers 0, all coefficients in the edge loops being +1 or -1.", "quantifier": "every n >= 1, every list of n distinct complex branch points, both integration methods, every sorting of ties, every extended gcd", "why_tests_cant": "the size of the coefficients and the orientation depend on all pivots met for all configurations of branch points; for general antisymmetric matrices both fail", "anchors": ["arb/symplectic_basis.c:symplectic_basis", "arb/symplectic_reduction.c:symplectic_reduction", "arb/intersections_tree.c:intersection_tree"]}
{"id": "C50", "title": "The intersection matrix holds the intersection numbers of paths on the curve", "statement": "For y^m = prod (x - x_k), the entry of the intersection matrix for two lifts of tree edges is the intersection number, on the curve, of the closed path going along the first edge on one sheet and back on the next one with the closed path of the same kind over the second edge; sheets are given by a continuous determination of y on each edge, contained in the stored balls. Consequently the loops returned by symplectic_basis form a symplectic basis for the intersection numbers of the curve.", "quantifier": "every m >= 2, all sets of distinct branch points, all trees of edges free of third points, all precisions and roundings for which the numbers are computed", "why_tests_cant": "the sheets and the order of the edges around each point range over all configurations; a wrong sign or sheet gives a plausible matrix", "anchors": ["arb/intersections_tree.c: intersection_tree, shift_number, is_neg_abad, fill_block", "arb/ydata.c: ydata_init_edge", "arb/symplectic_basis.c: symplectic_basis"]}
{"id": "C51", "title": "The period matrices of a hyperelliptic curve contain the periods over a symplectic basis", "statement": "For y^2 = prod (x - x_k), once the edge data, the Gauss-Chebyshev integrals and the intersection matrix are computed, abel_jacobi_compute gets g loops alpha and g loops beta which are a symplectic basis for the intersection numbers of the curve, alpha_i . beta_i = +1, and the entries (i,k) of the two period matrices contain the integrals of x^i dx/y over alpha_k and beta_k, for the same determinations of y.", "quantifier": "all sets of at least three distinct branch points, all trees, all precisions, all roundings", "why_tests_cant": "the integrals and the homology are computed separately from the same balls; that they speak of the same sheets must hold for every curve", "anchors": ["arb/aj_struct.c: abel_jacobi_compute", "arb/period_matrix.c: period_matrix", "arb/symplectic_basis.c: symplectic_basis", "arb/integrals_gc.c: integrals_tree_gc", "arb/intersections_tree.c: intersection_tree"]}
{"id": "C52", "title": "The period matrices of a superelliptic curve contain the periods", "statement": "For y^m = prod (x - x_k) with the double-exponential rule: when the run returns, the two period matrices contain, for every differential x^i dx / y^j and every loop of the symplectic basis which was returned, the integral of the differential over the loop, and the basis is symplectic for the intersection numbers of the closed paths on the curve.", "quantifier": "all m >= 2, all n >= 2, all sets of distinct branch points, all orders of the edges and histories of the integration schemes, all options for roots", "why_tests_cant": "the true periods are only known for a few curves, and a consistent error of sheet, of edge or of scheme gives plausible matrices", "anchors": ["arb/integrals_de.c: integrals_edge_de, integrals_tree_de", "arb/period_matrix.c: period_matrix", "arb/aj_struct.c: abel_jacobi_compute", "arb/symplectic_basis.c: symplectic_basis"]}
{"id": "C53", "title": "The radius added to the double-exponential integrals covers their error", "statement": "The radius returned by de_params and added to every cell of the row of an edge is at least the distance between the trapezoidal sum computed with the returned step and number of points and the integral of x^i dx / y^j over the edge, for every differential.", "quantifier": "all curves, all edges, all differentials, all precisions", "why_tests_cant": "the error depends on all the branch points, the exponent and the precision; a radius which is too small still gives plausible balls", "anchors": ["arb/de_params.c: de_constant_b, de_error, de_params", "arb/de_params_d.c: de_params_d", "arb/integrals_de.c: integrals_edge_de"]}
{"id": "C54", "title": "The strip used by the double-exponential rule contains no branch point", "statement": "de_params returns exactly when no branch point lies on the edge; then the half width r it uses satisfies 0 < r <= 1.26 and a strictly wider strip contains no preimage, under any branch, of a branch point by t -> tanh(lambda sinh t).", "quantifier": "all finite sets of points, all lambda in (0, pi/2]", "why_tests_cant": "the preimages are infinitely many, the code computes one of each; that it is the lowest one must hold for every complex point", "anchors": ["arb/de_params_d.c: de_params_d", "arb/de_params.c: de_params"]}
{"id": "C55", "title": "The step and number of points of the double-exponential rule reach the precision", "statement": "For each edge and differential of exponent j there is a constant K such that at every precision the trapezoidal sum with the parameters returned by de_params is at distance at most K 2^(-prec (m-j)/(m-1)) of the integral: the requested precision for j = 1.", "quantifier": "all edges, all differentials, all precisions", "why_tests_cant": "a statement on all precisions", "anchors": ["arb/de_params_d.c: de_params_d", "arb/integrals_de.c: de_integrals_precomp"]}
{"id": "C56", "title": "abel_jacobi_compute returns the periods of the curve", "statement": "Whenever abel_jacobi_compute returns, with any options, its tree, loops, integrals, period matrices and tau are those of one homology basis of the curve y^m = prod (x - x_k): the loops form a symplectic basis for the intersection numbers of the closed paths, each cell contains the integral of its differential over its closed path or loop, tau contains the solution of omega0 tau = omega1; which fields are written depends only on the options. For two branch points nothing else can happen than this or the two documented aborts.", "quantifier": "all m and n, all sets of distinct branch points, all options and precisions, all objects in which an earlier computation left a tree", "why_tests_cant": "the parts use four working precisions and two orders of the roots; a mismatch between two parts shows only on particular curves, as a wrong but plausible matrix", "anchors": ["arb/aj_struct.c: abel_jacobi_compute", "arb/integrals_gc.c: integrals_tree_gc", "arb/integrals_de.c: integrals_tree_de", "arb/period_matrix.c: period_matrix", "arb/tau_matrix.c: tau_matrix"]}
{"id": "C57", "title": "Periods of the curves y^m = (x - x_0)(x - x_1)", "statement": "For y^m = (x - x_0)(x - x_1) with m > 2 and two distinct branch points the computation either aborts because the ball of the constant of the edge contains zero, or it succeeds: the loops form a symplectic basis with alpha_i . beta_i = +1 for the intersection numbers of the closed paths on the curve, and each cell of the two period matrices contains the integral of its differential over its loop.", "quantifier": "all m > 2, all pairs of distinct branch points, all precisions of the three stages, all estimates used to choose the tree", "why_tests_cant": "the periods depend on two complex numbers and on m; a wrong sheet gives plausible matrices", "anchors": ["arb/integrals_de.c: integral_d2", "arb/aj_struct.c: abel_jacobi_compute", "arb/symplectic_basis.c: symplectic_basis", "arb/period_matrix.c: period_matrix", "arb/spanning_tree.c: spanning_tree"]}
{"id": "C58", "title": "Working precision of the integrals", "statement": "For every curve and every requested precision the integrals are computed with a working precision that Arb accepts and that is sufficient: if the elementary integrals over [-1,1] are known up to 2^-(working precision), then the integral of x^i dx/y^j over each edge is known up to 2 (i+1) 2^-prec.", "quantifier": "all m and n, all sets of distinct branch points of any size, all trees, all requested precisions", "why_tests_cant": "the extra precision depends on the size and the position of the branch points; it becomes negative only for branch points far apart, and then the working precision can be negative for small requested precisions", "anchors": ["arb/ydata.c: extraprec_tree, mag_constants_tree, mag_constants_edge", "arb/aj_struct.c: abel_jacobi_compute", "arb/constants.c: integrals_edge_factors"]}
{"id": "C59", "title": "Periods of the curve of the given polynomial", "statement": "For a polynomial f given to abel_jacobi_init_poly the matrices of integrals and of periods contain the integrals of the differentials x^i dx/y^j on the curve y^m = f(x), and tau is the small period matrix of that curve.", "quantifier": "all m, all squarefree polynomials f with any leading coefficient, all options", "why_tests_cant": "tests use monic polynomials or only compare tau; a missing factor depending on the leading coefficient and on j is invisible on them", "anchors": ["arb/aj_struct.c: abel_jacobi_init_poly, abel_jacobi_compute", "arb/abel_jacobi.h: abel_jacobi_t", "arb/example/periods.c: main"]}
{"id": "C60", "title": "The program periods: what it prints is what was asked, for the curve asked", "statement": "Run on a command line which selects a curve y^m = f(x) and an object (tree, integrals, big period matrix, else tau), the program periods either prints its usage message, fails visibly, or prints that object, right for the curve selected (up to the factor of C59), whatever the order of the options and however often the computation is repeated.", "quantifier": "all argument lists made of the options in any order with one option selecting the curve, all m, all polynomials, all precisions and repetitions", "why_tests_cant": "the tests never run the program; the claim ranges over all orders of options, all curves and all precisions", "anchors": ["arb/example/periods.c: main", "arb/aj_struct.c: abel_jacobi_init_poly, abel_jacobi_compute", "README.md"]}
{"id": "C61", "title": "tau is a Riemann matrix", "statement": "The matrix tau delivered by abel_jacobi_compute encloses a symmetric matrix with positive definite imaginary part, and the matrix of the periods over the alpha loops it was computed from encloses an invertible matrix: the orientation of the loops, the numbering of the sheets and the sign of the intersection numbers agree.", "quantifier": "all m >= 2, all sets of distinct branch points, all precisions for which the run returns", "why_tests_cant": "the tests check the symmetry and the sign on a few curves at one precision; the claim ranges over all curves and all loops the reduction may return", "anchors": ["arb/aj_struct.c: abel_jacobi_compute", "arb/tau_matrix.c: tau_matrix", "arb/symplectic_basis.c: symplectic_basis", "arb/period_matrix.c: period_matrix"]}
{"id": "C62", "title": "The text of --gp is the matrix", "statement": "The text printed for a matrix by acb_mat_print_gp, read by PARI/GP, is the matrix of the midpoints of the entries rounded to the number of digits asked for: same shape, every entry in its place, with the right signs.", "quantifier": "all matrices of complex balls of any size, all numbers of digits", "why_tests_cant": "the layout depends on the signs and zeros of the real and imaginary parts of every entry; no test reads the text back", "anchors": ["arb/utils.c: acb_mat_print_gp, _acb_vec_arf_printd"]}
{"id": "C63", "title": "The text of --tree is the tree", "statement": "The text printed by --tree, read by PARI/GP, gives the parameter of the tree, the number of its edges and the edges in the order of the tree.", "quantifier": "all trees with all their edges set", "why_tests_cant": "the number of edges is not bounded; no test reads the text back", "anchors": ["arb/spanning_tree.c: tree_print"]}
{"id": "C64", "title": "Different edges of the tree meet only at common branch points", "statement": "Two different edges of the selected tree have no common point besides a common end. The intersection matrix only takes common branch points into account, so this is needed for the loops to be a symplectic basis of the curve.", "quantifier": "all sets of distinct points, both integration methods, every order of ties", "why_tests_cant": "random points almost never give crossing edges; the claim is about all configurations, and it is false for some of them", "anchors": ["arb/spanning_tree.c: spanning_tree, param_gc_r, param_de_tau, param_edge", "arb/intersections_tree.c: intersection_tree"]}
{"id": "C65", "title": "What `periods --gp` writes on the standard output is the object asked for", "statement": "The text printed by `periods` with `--gp` is read by GP as the object asked for (the edges of the tree, the integrals over the edges, the two matrices of periods, or tau), with the right number of rows and columns, each number being within the radius of its ball and one unit of the last printed digit of the exact value; with `--bench` nothing is printed.", "quantifier": "all command lines with one option selecting the curve, all positions of the other options, all digits and precisions, all behaviours of the libraries within their specification", "why_tests_cant": "a test compares the text for a few curves with a known result; the claim is about every curve, every combination of options and every rounding of the libraries", "anchors": ["arb/example/periods.c: main", "arb/utils.c: acb_mat_print_gp, _acb_vec_arf_printd", "arb/spanning_tree.c: tree_print"]}
{"id": "C66", "title": "The homology basis of a curve y^3 = f(x) is always returned, positively oriented and with small coefficients", "statement": "For y^3 = prod (x - x_k) with n distinct branch points, symplectic_basis never aborts and never loops: it needs one pass per pair of cycles, returns g loops alpha and g loops beta with alpha_i . beta_i = +1 and all other computed intersection numbers 0, all coefficients in the edge loops being +1 or -1. In particular the abort 'coefficient too large in basis' cannot happen.", "quantifier": "every n >= 1, every list of n distinct complex branch points, both integration methods, every sorting of ties, every extended gcd", "why_tests_cant": "the size of the coefficients and the orientation depend on all pivots met for all configurations of branch points and sheets; for general antisymmetric matrices both fail", "anchors": ["arb/symplectic_basis.c:symplectic_basis", "arb/symplectic_reduction.c:symplectic_reduction", "arb/intersections_tree.c:intersection_tree"]}
{"id": "C67", "title": "The golden section search ends inside its interval and finds minima", "statement": "golden_search(f, p, a, b) returns for every function f; it calls f only at points between a and b and returns a point between a and b. If f decreases strictly up to a point of [a, b] and increases strictly after it, the returned number is within 2.2e-5 of this point.", "quantifier": "all functions f from the reals to the reals, all a and b in any order", "why_tests_cant": "termination and the place of the calls depend on all values of f; a test runs a few functions", "anchors": ["arb/mag_func_d.c:golden_search"]}
{"id": "C68", "title": "max_func_d_gs finds the maximum of a function on an interval", "statement": "max_func_d_gs(f, p, a, b, steps) returns the maximum of f on [a, b] (or the place where it is attained) for every continuous f, scanning the interval in `steps` parts.", "quantifier": "all continuous functions, all intervals, all positive numbers of steps", "why_tests_cant": "the claim is about all functions; it is false for some of them", "anchors": ["arb/mag_func_d.c:max_func_d_gs"]}
{"id": "C69", "title": "Bounds of a function on an interval and the number of evaluations", "statement": "When mag_func_arf(m, f, params, tmin, tmax, n, prec) returns, m bounds |f| on the whole interval [tmin, tmax], and the number returned is the number of times f was called, at least n. arb_bound_func_arf always returns a valid enclosure on the interval or aborts.", "quantifier": "all functions f, all intervals, numbers of parts, precisions and patterns of refused evaluations", "why_tests_cant": "which parts are refused and refined depends on the function; tests compare the bound with samples of a few functions", "anchors": ["arb/mag_func.c: mag_func_arf", "arb/mag_func.c: mag_func_arb", "arb/mag_func.c: arb_bound_func_arf"]}
{"id": "C70", "title": "Random vectors avoid the segment and zero", "statement": "When acb_vec_set_random_u(u, len, state, prec, mag_bits, eps) returns, no number of any of the len balls lies in the rectangle |Re z| <= 1 + eps, |Im z| <= eps; it returns whenever the generator sooner or later leaves the rectangle. When arb_vec_set_random_nonzero returns, at least one of the len balls does not contain zero; for len = 0 it never returns.", "quantifier": "all generators and states, all lengths, all eps", "why_tests_cant": "the loops depend on the whole random sequence", "anchors": ["arb/utils.c: acb_vec_set_random_u", "arb/utils.c: acb_randtest_exclude", "arb/utils.c: arb_vec_set_random_nonzero"]}
{"id": "C71", "title": "Direct calls of the double-exponential rule", "statement": "de_integrals(res, u, d1, d, c, flag, prec) returns in res balls which contain the integrals over [-1, 1] of the differentials x^i dx / y^j of the curve, y being the determination given by the points u, with an error going to zero with the precision.", "quantifier": "all curves, all points outside [-1, 1], all options and precisions", "why_tests_cant": "a test compares with a tolerance, and cannot see that the error bound is missing from the radii", "anchors": ["arb/integrals_de.c: de_integrals", "arb/integrals_de.c: de_integrals_precomp", "arb/de_int.c: de_int_init"]}
{"id": "C72", "title": "Number of points of the Gauss-Chebyshev rule", "statement": "gc_params(mag, u, r, d, prec) finds, for points u outside [-1,1], an ellipse with no point inside and a number of nodes n such that the Gauss-Chebyshev sums of x^i/y with n nodes or more have an error of at most 2^(1-prec) for all i <= d; n grows like prec * log 2 / (2 arcosh r0), r0 being the parameter of the smallest ellipse through a point, and a list of points with a larger smallest ellipse needs fewer nodes.", "quantifier": "all lists of points outside [-1,1], all degrees, all precisions from some precision on", "why_tests_cant": "a statement about all point configurations and the limit of large precision", "anchors": ["arb/gc_params.c: gc_params", "arb/gc_params.c: choose_r", "arb/gc_params.c: maj_yr", "arb/gc_params.c: arb_vec_r"]}
{"id": "C73", "title": "Total correctness on hyperelliptic curves", "statement": "For a hyperelliptic curve y^2 = f(x) with f separable of degree at least 3 and roots known exactly, abel_jacobi_compute with the Gauss-Chebyshev rule returns at every precision large enough for the tree it chooses (and for which the numbers of nodes fit in machine integers), and what it stores is right: tree, loops, integrals over the edges, matrices of periods.", "quantifier": "all n >= 3, all n-tuples of distinct branch points, all options selecting the rule without tau, all precisions from an explicit bound on up to the size of machine integers", "why_tests_cant": "a statement about all positions of the branch points and all precisions, and about the absence of any abort", "anchors": ["arb/aj_struct.c: abel_jacobi_compute", "arb/integrals_gc.c: integrals_tree_gc", "arb/gc_params.c: gc_params", "arb/spanning_tree.c: spanning_tree", "arb/ydata.c: extraprec_tree"]}
{"id": "C74", "title": "Accuracy of integrals and periods", "statement": "On a hyperelliptic curve with exact branch points, if the arithmetic adds no radius of its own, the extra bits chosen by abel_jacobi_compute are enough: every number in the ball returned for the integral of x^i dx/y over an elementary closed path is within 8(i+1) 2^-prec of the integral, where prec is the precision asked for, and every number in the ball returned for a period of x^i dx/y is within 8(i+1) 2^-prec times the number of edges of the tree.", "quantifier": "all n >= 3, all n-tuples of distinct branch points, all precisions and options of the runs of C56/C73, all entries of the matrices", "why_tests_cant": "a bound for all curves and precisions; tests compare a few digits on a few curves", "anchors": ["arb/ydata.c: extraprec_tree", "arb/ydata.c: mag_constants_edge", "arb/integrals_gc.c: integrals_tree_gc", "arb/constants.c: integrals_edge_factors", "arb/period_matrix.c: period_matrix", "arb/aj_struct.c: abel_jacobi_compute"]}
{"id": "C75", "title": "Options which restrict the results do not change them", "statement": "AJ_NO_TAU, AJ_NO_AB and AJ_NO_INT only leave results out. If abel_jacobi_compute returns with some options, it also returns with the same options and more of these three, with the same tree, the same loops and the same values for all results which are still asked for. Two calls which differ only by these three options and both return agree on every result both of them store; asking for tau in addition to the periods can fail only in tau_matrix.", "quantifier": "all curves, precisions, pairs of options, and all implementations of the arithmetic", "why_tests_cant": "compares pairs of runs for all curves and all combinations of options", "anchors": ["arb/aj_struct.c: abel_jacobi_compute", "arb/abel_jacobi.h: AJ_NO_TAU, AJ_NO_AB, AJ_NO_INT", "arb/tau_matrix.c: tau_matrix"]}
{"id": "C76", "title": "tau on hyperelliptic curves: total correctness and accuracy", "statement": "On a hyperelliptic curve with exact branch points for which the edges of the tree do not cross outside branch points, with arithmetic which adds no radius of its own, abel_jacobi_compute returns tau as soon as the precision is larger than an explicit condition on the curve alone; the matrix returned contains the unique solution of omega0 tau = omega1 for the true periods, this solution is symmetric with positive definite imaginary part, and all matrices in the enclosure are within a radius of it which tends to 0 with the precision.", "quantifier": "all n >= 3, all n-tuples of distinct branch points whose tree has plain edges, all precisions large enough, all options asking for tau", "why_tests_cant": "a limit over all precisions and a claim for all curves", "anchors": ["arb/aj_struct.c: abel_jacobi_compute", "arb/tau_matrix.c: tau_matrix", "arb/period_matrix.c: period_matrix", "arb/ydata.c: extraprec_tree", "arb/integrals_gc.c: integrals_tree_gc"]}
{"id": "C77", "title": "Numbers on the command line", "statement": "The operands of -m, --prec and --bench are the decimal numbers written there: for every accepted command line the exponent m and the precision are the numbers after the last -m and --prec (2 and 128 if the option is absent), every number of a long being read exactly; an operand which is not a number is refused. (False: such an operand counts as 0, characters after the digits are ignored, and the operand of --bench is reduced modulo 2^32.)", "quantifier": "all command lines, all texts of operands", "why_tests_cant": "ranges over all strings and all orders of options", "anchors": ["arb/example/periods.c: main"]}
{"id": "C78", "title": "Homology of every superelliptic curve", "statement": "For every exponent 2 <= m < 2^62 and every list of at least two distinct branch points known exactly, abel_jacobi_compute with AJ_NO_INT, whatever the other options, returns a spanning tree of the branch points of the right size whose edges pass through no third branch point, and loops over it which form a positively oriented symplectic basis for the intersection numbers of the closed paths over the edges; the only other outcome is the abort for a coefficient which does not fit in a slong, which does not happen for m <= 3, where all coefficients are 1 or -1. If the edges meet only at their ends, as they do for real branch points or three branch points, these are the intersection numbers counted over all common points of the paths.", "quantifier": "all m, all numbers and positions of branch points, all options, all precisions", "why_tests_cant": "ranges over all curves; a wrong sign in the homology shows only as a wrong period matrix", "anchors": ["arb/aj_struct.c: abel_jacobi_compute", "arb/spanning_tree.c: spanning_tree", "arb/symplectic_basis.c: symplectic_basis", "arb/intersections_tree.c: intersection_tree", "arb/symplectic_reduction.c: symplectic_reduction"]}
{"id": "C79", "title": "The double-exponential rule returns on every superelliptic curve", "statement": "For every exponent 2 <= m < 2^62 and every list of at least two distinct branch points known exactly, with options which select the double-exponential rule (the default for m > 2 and more than two points) and m-th roots taken by the definition or by the product, abel_jacobi_compute with AJ_NO_AB returns the integrals of all differentials over all edges, and with AJ_NO_TAU, when m <= 3 or the coefficients of the symplectic basis are below 2^62, also the two period matrices: no branch point is ever found on an edge, the number of points of the rule is never zero, a scheme kept from an earlier edge can be used for the next one, and no table is read outside its bounds. The only other outcome is the abort for a coefficient of the symplectic basis which does not fit in a slong, which does not happen for m <= 3.", "quantifier": "all m, all numbers and positions of branch points, all such options, all precisions, all orders of the edges", "why_tests_cant": "ranges over all curves, precisions and sequences of schemes kept or replaced", "anchors": ["arb/aj_struct.c: abel_jacobi_compute", "arb/integrals_de.c: integrals_tree_de, integrals_edge_de, de_integrals_precomp", "arb/de_params.c: de_params", "arb/spanning_tree.c: spanning_tree", "arb/constants.c: integrals_edge_factors"]}
{"id": "C80", "title": "The text of a loop determines the loop", "statement": "The text printed by loop_print for a loop is a sum of terms c*g_i^(s), which read back give the coefficients, edges and sheets of the loop in its order; two different loops never have the same text, and nothing is printed exactly for the empty loop.", "quantifier": "all loops: any number of terms, any coefficients (negative ones too), any edges and sheets", "why_tests_cant": "the number of terms and the numbers are not bounded; no test reads the text back", "anchors": ["arb/homol.c: loop_print", "arb/symplectic_basis.c: symplectic_basis (DEBUG > 1)"]}
{"id": "C81", "title": "The nodes computed for a tree serve all its edges", "statement": "The number of nodes returned by gc_params_tree(e, tree, c, prec), computed for the edge tree->min of smallest parameter, is enough for every edge of the tree: with that many Gauss-Chebyshev nodes the sums of x^i/y, i < n, are within 2^(1-prec) of the integrals over each edge.", "quantifier": "all numbers and positions of branch points, all orders of equal edges, all large precisions", "why_tests_cant": "ranges over all curves and all precisions; the function is not called by the tests", "anchors": ["arb/gc_params.c: gc_params_tree, gc_params", "arb/spanning_tree.c: spanning_tree (tree->min)"]}
{"id": "C82", "title": "The working memory of a computation is returned", "statement": "The integration of a tree (integrals_tree_gc, integrals_tree_de), the intersection numbers (intersection_tree) and the solution of the linear system for tau (tau_matrix) never free a block twice, never read a freed scheme, never release a block of the caller, and when they return the live blocks are those which were live before.", "quantifier": "all trees, all sequences of numbers of nodes, all results of the successive solvers, all heaps", "why_tests_cant": "a lost block has no effect on the results; the number of schemes built depends on the curve and the precision", "anchors": ["arb/gc_int.c: _arb_vec_cos_pi, gc_int_init, gc_int_clear", "arb/de_int.c: de_int_init, de_int_clear", "arb/integrals_gc.c: integrals_edge_gc, integrals_tree_gc", "arb/integrals_de.c: integrals_edge_de, integrals_tree_de", "arb/intersections_tree.c: shift_number, intersection_tree", "arb/tau_matrix.c: acb_mat_solve_real, acb_mat_solve_multi"]}
{"id": "C83", "title": "One double-exponential scheme serves a whole tree", "statement": "de_params_tree returns for every tree, and the step and number of points it computes for the edge tree->min (which are those of the first edge of the loop, kept for all edges with the flag AJ_DE_SAME) serve every edge: no branch point has a preimage in the strip used, and for each edge and each differential of exponent j the distance between sum and integral is at most K 2^(-prec (m-j)/(m-1)). The same holds for an edge which reuses the parameters computed for any edge with a smaller or equal parameter, as the loop over the edges does.", "quantifier": "all sets of distinct branch points, all exponents m, all edges of the tree and all differentials, all precisions", "why_tests_cant": "ranges over all curves and all precisions; the function is not called by the tests", "anchors": ["arb/de_params.c: de_params_tree, de_params", "arb/spanning_tree.c: spanning_tree (tree->min), param_de_tau", "arb/integrals_de.c: integrals_edge_de (AJ_DE_SAME)"]}
{"id": "C84", "title": "AJ_DE_SAME uses one scheme for all edges", "statement": "With the flag AJ_DE_SAME the double-exponential integration computes its parameters once, for the first edge in the order of the loop, and computes the integrals of every edge with the scheme and the error bound made from them; what the parameters of the other edges would be (or whether their computation would fail) has no effect on the result.", "quantifier": "all curves, all sets of flags containing AJ_DE_SAME, all orders of the edges, all precisions, all implementations of the parameters", "why_tests_cant": "ranges over all curves and trees, and compares the run with runs in which the parameters of the other edges differ", "anchors": ["arb/integrals_de.c: integrals_edge_de, integrals_tree_de", "arb/de_int.c: de_int_init", "arb/abel_jacobi.h: AJ_DE_SAME"]}
{"id": "C85", "title": "The double-exponential results converge to the integrals", "statement": "For exact distinct branch points, when abel_jacobi_compute integrates with the double-exponential rule (the default for m, n > 2) and returns, every point of the ball for the integral of x^i dx / y^j over the elementary closed path of an edge is at distance at most K 2^(-intprec (m-j)/(m-1)) of the integral, with a constant K which does not depend on the precision; the loops do not depend on the precision, and the same holds for the entries of the period matrices and the integrals over the loops. The balls are too small in general (C27, C56), but their centres and radii tend to the right numbers, at a rate which is only (m-j)/(m-1) of the working precision.", "quantifier": "all m >= 2, all n >= 3 distinct branch points, all edges of the tree, all differentials, all precisions, with and without AJ_DE_SAME", "why_tests_cant": "ranges over all curves and all precisions, with one constant for all precisions", "anchors": ["arb/aj_struct.c: abel_jacobi_compute", "arb/integrals_de.c: integrals_tree_de, integrals_edge_de", "arb/de_params.c: de_params, de_error", "arb/de_params_d.c: de_params_d", "arb/period_matrix.c: period_matrix"]}
{"id": "C86", "title": "The small period matrix converges with the double-exponential rule", "statement": "For exact distinct branch points whose tree has edges meeting only at common ends, when abel_jacobi_compute integrates with the double-exponential rule (the default for m, n > 2) and the loops are computed, the exact period matrices have a unique quotient tau = omega0^-1 omega1, it is symmetric with positive definite imaginary part, and there are constants K and P0 such that at every working precision from P0 on the solver succeeds at the first attempt and the matrix tau returned is within K 2^(-intprec/(m-1)) of tau. Asking for tau never turns a successful call with intprec >= P0 into a failing one.", "quantifier": "all m >= 2, all n >= 3 distinct branch points whose tree has no crossing edges, all precisions, with and without AJ_DE_SAME and AJ_TRIM", "why_tests_cant": "ranges over all curves and all precisions, with one constant for all precisions; the exact matrix is not computable by a test", "anchors": ["arb/aj_struct.c: abel_jacobi_compute", "arb/tau_matrix.c: tau_matrix, acb_mat_solve_multi", "arb/integrals_de.c: integrals_tree_de", "arb/period_matrix.c: period_matrix"]}
{"id": "C87", "title": "Affine changes of the variable and mirror images", "statement": "Replace every branch point x_k by a x_k + b with a != 0. The spanning tree computed from exact points is the same, with the same edges, order and parameters; so is the tree of the complex conjugates. If a > 0 the homology basis is the same: for branch points given by any balls and their images, the loops are computed in the same cases with the same coefficients, and two calls of abel_jacobi_compute on exact points which both return have the same tree and loops. The periods of x^i dx/y^j over any loop are multiplied by a^(i+1)/rho^j if b = 0, and are the binomial sums of the periods of x^l dx/y^j, l <= i, if a = 1. The equation omega0 tau = omega1 has the same solutions for the two curves, for any loops, if y is continued as rho y with rho^m = a^n; and for a > 0, when the double-exponential rule is used and the edges meet only at common ends, the matrices tau computed for both curves converge to one and the same Riemann matrix. On the curve of the complex conjugates of the points, the periods of the mirrored loops are the complex conjugates, so that tau becomes its conjugate.", "quantifier": "all a != 0 (all a > 0 for the loops and the computed tau), all b, all m >= 2, all n, all branch points, all loops, all precisions", "why_tests_cant": "ranges over all curves, all affine maps and all precisions", "anchors": ["arb/spanning_tree.c: spanning_tree", "arb/ydata.c: ydata_init_edge, tree_ydata_init", "arb/symplectic_basis.c: symplectic_basis", "arb/period_matrix.c: period_matrix", "arb/tau_matrix.c: tau_matrix", "arb/aj_struct.c: abel_jacobi_compute"]}
{"id": "C88", "title": "Rough estimate of the integrand on doubles", "statement": "de_constant_m_d(w, len, r, d, m) returns r^d / (prod d_k)^(1/m), where d_k is the estimated distance of the point w_k to the domain of width r, and r for a point which is too close.", "quantifier": "all arrays of points, all r, d and all m >= 1", "why_tests_cant": "ranges over all points and exponents; the function has no caller in the library, so no run exercises it", "anchors": ["arb/de_params_d.c: de_constant_m_d, de_distance_d"]}
{"id": "C89", "title": "Smallest height of a vector of points", "statement": "acb_vec_r(r0, r, f, u, len, prec) with the function acb_func_r_de, or another one of its type, writes f(u_k) in the cells r_k, k < len, and in r0 the least of the lower bounds of |Im f(u_k)|, a ball of numbers which are at most |Im z| for every number z of every cell. Nothing else is written.", "quantifier": "all functions f, all vectors, all lengths, all previous values of r0", "why_tests_cant": "ranges over all functions and vectors; the function has no caller in the library", "anchors": ["arb/de_params.c: acb_vec_r, acb_func_r_de"]}
{"id": "C90", "title": "The two computations of the double-exponential nodes agree", "statement": "de_int_init contains two computations of the nodes, selected when it is compiled. Both give the abscissas tanh(lambda sinh(k h)) and the weights cosh(k h)/cosh^2(lambda sinh(k h)), so that the choice does not change the integrals.", "quantifier": "all steps h > 0, all lambda > 0, all nodes k", "why_tests_cant": "the second computation is not compiled, and the claim ranges over all steps and nodes", "anchors": ["arb/de_int.c: de_int_init, arb_tanh_cosh2"]}
