# Formal model of hcperiods (arb part) in Lean 4

Only the C library under `/repo/arb` is modelled (plus, where stated, the
equivalent GP/Magma routines).  The model is in `lean/Verif`:

* `Verif/Basic.lean`        outcome monad `Res` (ok / abort / ub / diverge), checked machine arithmetic
* `Verif/Model/*.lean`      function-by-function models, each definition cites file and lines
* `Verif/Spec/*.lean`       small independent specifications (what the English property means)
* `Verif/Proofs/*.lean`     helper lemmas
* `Verif/Props/*.lean`      the property theorems, with non-vacuity examples beside them

## Modelling conventions

* Undefined behaviour (out-of-range access, signed overflow, division by zero,
  misuse of `qsort`, `atol(NULL)`) is a distinct outcome `Res.ub`;
  `abort()` / `flint_abort` is `Res.abort`.  Unbounded loops take fuel and give
  `Res.diverge` when it runs out; theorems say that some fuel is always enough.
* `slong` is `Int` with explicit overflow checks where overflow is part of the
  property (`sec_init`), otherwise `Nat`/`Int` with the range recorded as hypothesis.
* `fmpz` is `Int` (arbitrary precision, as in FLINT).
* `arb`/`acb` computations are modelled over an abstract field (or over `ℝ`, `ℂ`)
  in exact arithmetic.  For the properties that speak of enclosures the same
  code is run over an abstract "ball arithmetic" and related to exact arithmetic
  by an enclosure relation (inclusion property of every primitive is the trusted
  assumption on Arb, stated as a hypothesis-structure, not an axiom).
* Predicates on balls (`arb_is_negative`, `contains_zero`, ...) are
  parameters with the documented soundness.
* FLINT's `fmpz_xgcd` is a parameter with its Bezout specification; libc's
  `qsort` is any function returning a sorted permutation for a valid comparator.

## Trusted base

* Lean 4.33.0 kernel.  Every theorem depends on at most the axioms `propext`, `Classical.choice` and `Quot.sound`; none is added, there is no
  `sorry`, no `native_decide`, no `bv_decide`.  Theorems on integers only (symplectic reduction, trees, parser, command line, heap) use the same three
  because Mathlib's tactics do.
* The transcription of C to Lean.  Each definition of `Verif/Model` cites its source and says what it simplifies.
* What is assumed of code outside the repository.  These are hypotheses of the theorems (structures), never axioms:

| structure | stands for | assumption |
|-----------|------------|------------|
| `Arith A`, `Encloses X exact R` | `acb_add`, `acb_mul`, `acb_root_ui`, `acb_log`, ... at any precision | inclusion: if the arguments contain the exact numbers, so does the result; nothing on the radius |
| `Fns A`, `EnclosesFns` | `arb_sinh_cosh`, `arb_gamma_fmpq`, `arb_const_sqrt_pi` | same |
| `Tests A`, `SoundTests` | `arb_is_negative`, `acb_contains_zero`, `arb_get_unique_fmpz`, ... | a positive answer is true of every number of the ball (where a theorem takes `Tests` without `SoundTests`, any answers) |
| `MatOps`, `MatEncl` | `acb_mat_solve`, `acb_mat_charpoly`, ... | a success encloses the exact solution |
| `ParOps`, `ParSound` | real balls of `gc_params.c` | inclusion, `arb_get_mag` and `arb_get_ubound_arf` are upper bounds |
| `DblOps`, `COps`, `WOps` | functions on `double` | none (arbitrary functions), or exact values where the theorem names `exactCOps` |
| `BoundOps`, `RoundOk` | evaluation of `f` on balls, roundings of `mag_func.c` | a success encloses the values; rounding of a part is covered by the rounding of its radius (`roundOk_float` reduces this to one inequality) |
| `CmpOps`, `CmpSound` | subtraction and sign tests in `acb_cmp_lex` | inclusion, sound signs |
| `xgcd` | `fmpz_xgcd` | Bezout identity |
| `SortsByR`, `sort` | `qsort` | a permutation, sorted for the comparison |
| `strtol`, `FLINT set_coeff` | libc and `fmpz_poly_set_coeff_si` | ISO C behaviour incl. saturation; negative index is undefined |
| `AjEnv`, `AjEnv.Sound` | all of the above at every precision, `acb_add_error_mag`, `acb_trim`, the roots of the polynomial, the sorts by difficulty | inclusion at every precision of at least two bits (below that the outcome is `ub "precision"`), sorts are permutations; two precisions may order the roots differently |
| `MagOps`, `MagSound` | `acb_abs`, `arb_div`, `arb_mul`, `arb_mul_2exp_si`, `arb_pow_ui`, `arb_root`, `arb_inv`, `arb_bin_uiui`, `arb_get_mag`, `mag_get_d_log2_approx` of `extraprec_tree` | inclusion; `arb_get_mag` is an upper bound; the logarithm, truncated by `(long)` and increased by one, is an upper bound, and very large for an infinite magnitude |
| heap | `malloc`/`free` | fresh addresses, freeing a dead block is undefined; allocation never fails |

* `sizeof(slong) = 8`; sizes of arrays are natural numbers unless overflow is the subject (C03, C13, C16, C27, C32).

### Modelled

`se_curve.c`, `fmpz_mat_extras.c` (`is_symplectic_j`), `symplectic_reduction.c`, `symplectic_basis.c`, `homol.c`, `spanning_tree.c`, `intersections_tree.c`, `ydata.c`,
`mth_root_pol.c`, `constants.c`, `period_matrix.c`, `gc_int.c`, `gc_params.c`, `integrals_gc.c`, `de_int.c`, `integrals_de.c`, `tau_matrix.c`, `mag_func.c`, `de_params.c` (constants, error, choice of the parameters), `de_params_d.c`, `mag_func_d.c` (exact reals),
`utils.c`, `parse.c`, `example/periods.c` (argument reading, output selection, the text of `--gp`, `--tree` and of the loops), allocation in `aj_struct.c` and the working memory of the integration (`Model/SchemeMem.lean`), `abel_jacobi_compute` (`aj_struct.c` 72-182) with the calls of the parts above.

### Not modelled

* Arb, FLINT and libc themselves; the values computed in `double` (they are arbitrary, or exact where stated).
* The roundings of the `double` computations of `de_params_d` (exact formulas in C53-C55; elsewhere any values are accepted),
  `acb_branch_points` (roots are given as enclosures), the formats of output other than `--gp`, `--tree` and loops, the verbose messages, timings, the programs in `test`, `profile`, `bench`, and the GP and Magma
  programs outside `arb`.

### Main gaps

* C45, C47, C51 take the ellipse parameter in `(1, r0]` as a hypothesis: it comes from a computation in doubles (C45_choice_fails).
* C50, C51, C52, C56 take as a hypothesis that the balls decide on which side of each other edges with a common point lie (`Resolved`): the code does not check it; on exact numbers it holds (C50_from_points).
  That the crossing numbers at the common points add up to the intersection number of the closed paths on the Riemann surface is the definition used (`closedNumber` in `Spec/Meet.lean`), not a theorem about homology.
* Edges of the tree can cross at an inner point (C64_fails), and the code only counts common branch points: C48, C49, C51, C52, C56, C61 are about the numbers of the code, which are the intersection numbers of the
  paths when no edges cross (C50_closed_partial, C49_closed_partial) and not otherwise (C50_fails, C49_fails: `y^2 = (x^2 - 576)(x^2 + 100)(x^2 + 121)(x + 48)`).
* The radius of the double-exponential integrals is not a bound of their error (C43, C44, C53_fails): statements on these integrals carry a correct bound instead (C53_error_bound, C55).
* With the default option for roots, C24, C25, C45, C47, C51, C52 take as a hypothesis that the balls decide the turning numbers at the nodes (`RootsOk`, `TurnDecided`): the code does not check the last
  product, and C23_coarse_product_fails shows that inclusion alone does not suffice.  They also use that `arb_contains_zero` is exact (`RealPoint`).

## Plan per property

See the table below.  "neg" means that the code violates the property as
stated: a theorem exhibits a concrete violating input and a `_partial` theorem
proves the property on the largest natural domain on which it holds.

| id | model | proof |
|----|-------|-------|
| C01 | `sec_init`, `jmin`, `imax` | symmetry j <-> m-j of the floor sum, count of multiples of m/gcd |
| C02 | same | floor characterisation of `Int.tdiv` |
| C03 | `sec_init`, `abel_jacobi_init_poly` on Int with overflow checks | case analysis; n = 0 is UB (neg) |
| C04 | row/col operations, steps, `pivot_line`, `symplectic_reduction` | loop invariants; lexicographic measure on abs m(i,j) |
| C05 | same | same invariants |
| C06 | same | neg witness, partial when all gcd steps happen in row i (unit pivots); forms invertible over the integers need one pass per block (`Proofs/NonDeg`, `Props/Orient`) |
| C07 | same | rank/torsion argument on the congruence class of J_g + 0 |
| C08 | same | neg witness; rank >= 2g is enough (C04) |
| C09 | `edges_init`, `spanning_tree` | invariant of the selection loop |
| C10 | same | cut property and exchange argument |
| C11 | `edges_init` | induction on the nested loops |
| C12 | `spanning_tree`, `intersection_tree` | from the orientation invariant |
| C13 | `fill_block`, `intersection_tree` | loop characterisation |
| C14 | `shift_number` over the complex numbers | arg of m-th power = m*arg mod 2 pi |
| C15 | `count_coeffs`, `set_loops`, `symplectic_basis` | induction on the row, bilinearity |
| C16 | `set_loops`, `periods_loop` | neg witness with FLINT's small/large fmpz encoding; partial for abs c < 2^62 |
| C17 | `periods_loop`, `period_matrix` | loop invariants, parametric enclosure |
| C18 | `acb_vec_polynomial_shift` | Pascal induction |
| C19 | `acb_vec_mul_geom`, `integrals_edge_factors*` | loop invariants + linear functional change of variables |
| C20 | `constant_cab`, `ydata_init_edge` | algebra over products |
| C21 | `ab_points` | invariant of the partition loop |
| C22 | `mth_root_pol_*`, `sqrt_pol_*` | algebra, `Complex.cpow`/arg |
| C23 | `acb_prod_turn`, `mth_root_pol_turn` | winding invariant; neg witnesses |
| C24 | `gc_int_init_length`, `gc_integrals` | index bijections, Chebyshev orthogonality |
| C25 | `de_integrals_precomp` | loop invariant |
| C26 | `integrals_tree_gc` | neg witness; partial for non-increasing requirements |
| C27 | `integrals_tree_de` | 64-bit unsigned arithmetic; neg for the shared error bound |
| C28 | `integral_d2` | Beta function and duplication formula in Mathlib |
| C29 | `acb_mat_solve_real`, `tau_matrix` | block matrix algebra |
| C30 | `acb_mat_solve_charpoly`, `acb_mat_solve_multi` | neg: sign via Cayley-Hamilton |
| C31 | `fmpz_poly_parse` with `strtol` | induction on printed terms |
| C32 | same | totality; neg witnesses |
| C33 | `main` of example/periods.c | induction on argv; neg witness |
| C34 | same + `abel_jacobi_compute` | bit-vector facts proved by case analysis on bits |
| C35 | same | neg witnesses, partial |
| C36 | heap model of init/compute/clear | exact leak formula by induction on histories |
| C37 | `acb_cmp_lex` on interval data | neg witness; partial when decided |
| C38 | `arb_bound_func_arb` etc. | induction on subdivision |
| C39 | `is_symplectic_j` | loop = forall |
| C40 | `acb_mat_print_error` | fold = max |
| C41 | folding | real inequality |
| C42 | `param_edge` | fold = minimum |
| C43 | `de_constant_m1` | neg for points beside the path; partial |
| C44 | `max_f`, `de_constant_m2` | neg: neighbourhoods of points where the constant is below the integrand |
| C45 | `gc_params` and helpers | Chebyshev expansion of analytic functions on an ellipse; Cauchy bounds of the coefficients; instance in set arithmetic (`Props/HyperInst`) |
| C46 | `param_gc_r`, `param_de_tau`, `spanning_tree` | neighbours on a segment + greedy choice; equality case of the triangle inequality, inverse hyperbolic functions |
| C47 | all of the above for `m = 2` | composition of C17, C19, C20, C24, C26, C45 |
| C48 | `spanning_tree`, `tree_ydata_init`, `intersection_tree`, `symplectic_basis` on exact data | sheets numbered at each point; kernel of the form of a plane tree over the group algebra of the covering group (`Proofs/PlaneTree`, `PlaneForm`, `PlaneRank`); unit blocks from the rank over prime fields; `C48_oriented`: +1 pairings for all m and n. If the form is invertible over the integers the sign comes from one determinant; in general the rows are taken in stages (`Proofs/ChainReduce`, `TreeChain`): the lifts of the first k edges with the classes modulo a divisor of m give prefixes whose forms have the required kernel (`ClassLift`, `FaceStage`, `FaceStageOne`), computed from the faces of the plane tree (`StripLeaf`, `FaceKernel`, `FacePeriod`) |
| C49 | same chain with m = 2 | principal minors of the matrix of a forest are 0, ±1 (rank of a plane tree over every field, splitting into connected parts, `Proofs/PlaneMinor`); invariant of the reduction: minors of the matrix bordered by the base change (`Proofs/PUReduce`) |
| C50 | `intersection_tree`, `shift_number`, `is_neg_abad` on balls | y is a coordinate at each branch point, so paths through it are pairs of rays (`Spec/Crossing`); crossing numbers from the order of the rays; exact data contained in the balls |
| C51 | all of the above for `m = 2` | same exact data for the integrals (C47) and the homology (C50); coefficients ±1 from C49; instance: `Props/CurveInst` |
| C52 | `integrals_edge_de`, `integrals_tree_de`, C17, C19, C25, C50 | every row is computed with the scheme of one of the edges (`integralsTreeDe_rows`); its cell contains `(1 - ζ^-j) ∫ x^i dx / Y^j`, `Y` the stored determination; combined with C17 and C50. That the radius of the scheme covers the error on the edge is a hypothesis (`RadiusCovers`; C53_fails and C27 show it can be false), met by the radii of C53_error_bound (`C52_radius`). Instance: `Props/SuperInst`, a cubic of genus 1 |
| C53 | `de_error`, `de_params`, `de_params_d` with exact formulas | trapezoidal rule for functions holomorphic in a strip (Poisson summation, shifted Fourier integrals, `Proofs/Trapezoid`); continuation of the integrand by holomorphic logarithms (`Proofs/DeIntegrand`); integral of the weight on the lines (`Proofs/DeLine`); truncation (`Proofs/DeTail`). neg: for real edges the first forgotten node for the exponent j > j1 exceeds the radius as the precision grows (`Proofs/DeLower`) |
| C54 | `de_params_d` (loop on the points) | monotonicity of the height of preimages under sinh; principal arguments (`Proofs/DeRadius`) |
| C55 | same | asymptotics of n h in the precision (`Proofs/DeAsym`) |
| C56 | `abel_jacobi_compute` as one program: tree from the roots at 64 bits, data at the last precision, shifts at 64 bits, integrals by the rule chosen, loops, period matrices, `AJ_TRIM`, `tau`, options | decomposition of a returning run (`ajRun_ok`), then C09, C20, C50, C45/C51, C52, C57, C17, C29; for two branch points totality: two aborts or a right output. Partial: `Resolved`, `GcGood`, `DeGood` are not checked by the program, and `C56_fails` is a run of the whole program (`y^5 = x^2 - 1`, `AJ_USE_DE`) with a wrong output at every large precision; `C56_fails_1000`: at every precision from 1000 bits on (explicit constants for the lower bound of the error); `C56_real_fails`: the same for all curves with real branch points and all `dx/y^j` with `j > j1`, whatever tree, order of the edges and basis, as soon as the double-exponential rule is used and the radii are too small on the edges (`EdgeShort`, from some precision on by `C53_edges_fail`). `C56_gc_exact`: on exact branch points, `m = 2` and the Gauss-Chebyshev rule, `Resolved` and `GcGood` are consequences of the precision being large enough for the tree (`GcReady`) |
| C57 | `spanning_tree`, `ydata_init_edge`, `intersection_tree`, `integral_d2`, `symplectic_basis`, `period_matrix` for two branch points | closed form of C28 and the row of C19; the intersection matrix of the lifts of one edge is principally unimodular, so that the reduction meets only pivots ±1 (`basis_of_pu`) and all coefficients are ±1 |
| C58 | `extraprec_tree`, `mag_constants_tree`, `mag_constants_edge` with the three loops; `abel_jacobi_compute` calls them, a precision below two bits is `ub` | every term of the maximum is reached (induction over the loops), `|C|^m = |(b-a)/2|^n` from the equation of the edge (C20), then C19. Partial: `C58_fails`, for every `prec` a curve `y^2 = x^3 - 4^(2k+1) x` whose working precision is negative |
| C59 | the same model of `abel_jacobi_compute` (C56); only the roots of `f` enter it, as in the code (`aj_struct.c` 11-17, 92, 113) | specification `PolyRight` with determinations of `y` on `y^m = f(x)`. If `alpha^m` is the leading coefficient, `alpha Y` is a determination for `f`, all integrals of `x^i dx/y^j` are divided by `alpha^j`, intersection numbers and `tau` do not change. Partial: the factor `alpha^j` is missing in the output; `C59_fails`, `y^m = a (x^2 - 1)` for all `m > 2` and all `a` with `|a| ≠ 1`, no cell of the integrals is right |
| C60 | `main` of `periods.c` as one program `periodsMain`: reading of the options (C35), degree and squarefree tests, the precision given to the root finder, the loop of `--bench`, the choice of the object printed; uses the model of `abel_jacobi_compute` (C56) | composition of C35, C19, C59: whatever is printed is the object asked for and right for the polynomial selected. Partial: the factor of C59, the conditions `GoodRun` of C56; `C60_two_points` without them for degree 2. `C60_readme_fails`: the command line of the README only prints the usage message. Assumed of the libraries (`MainEnv.Sound`): `fmpz_poly_degree`, `fmpz_poly_is_squarefree` are right, `arb_fmpz_poly_complex_roots` returns balls which contain the roots in some order. The textual format of the output is not modelled here |
| C61 | the same model of `abel_jacobi_compute` (C56): loops, matrices of periods, `tau` | specification `IsRiemannMatrix`. `bilinear`: for a unimodular base change taking the intersection form to the standard one, periods given by the form (`Pi = W K`) satisfy `omega0 omega1' - omega1 omega0' = W K W'`; for two branch points `W` is explicit (characters of the group of m-th roots of unity), so the relations of Riemann and the sign come out by finite Fourier sums (`C61_riemann_partial`, all `m > 2`); `C61_quadratic` for every run, `C61_exact` an instance with `tau` exact. `C61_relations(_iff)`: for all curves the result is equivalent to `RiemannRelations` of the integrals over the closed paths of the tree and the intersection numbers, whatever loops the reduction returns; `C61_hyperelliptic_real` proves them for `m = 2` and any number of real branch points: a branch of `√f` on the upper half plane, Cauchy's theorem for one differential and Green's theorem for two of them on rectangles (`Proofs/HalfPlane`, `Green`, `RealLine`, `RealArea`, `RealGaps`, `RealForm`), the chain of gaps between neighbours (`RealChain`) and the tree, which fills an interval of gaps (`RealTree`). `relations_super_real`, `C61_super_real`, `C61_real_points`: the same for `y^m = f(x)`, all `m`, with the branch of `f^(k/m)` on the upper half plane (`PowPlane`, `PowLine`, `PowArea`, `PowGaps`, `PowTotal`) and the chain of gaps on the `m` sheets, summed over the characters of the roots of unity (`SuperChain`, `SuperTotal`, `SuperCurve`). `relations_complex`, `C61_complex(_points, _cubic)`: the same for complex branch points and any tree whose edges only meet at common ends. The plane is cut along horizontal half lines from the branch points to the left (after a rotation the points have different imaginary parts, `CutRotate`); branches of `f^(k/m)` on the cut plane and the jumps of a primitive across the cuts (`CutPlane`, `CutBranch`, `CutJump`, `CutOm`), Green's theorem on the strips between cuts (`StripGreen`), the integral over an edge as a sum of jumps, with the sheet it arrives on (`CutEdge`, `CutRays`, `CutSpan`, `CutAlgebra`), the intersection numbers from the directions at the ends and the order of the edges across the strips (`CutNumbers`, `CutGeometry`, `CutTree`), and the relations by counting (`CutRelations`). `C61_run`: for the balls returned by a run in the situation of C56. The orientation is the one of `C48_oriented`, so there is no condition on `m` and `n`. Negation `C61_fails`: eight points `±24, ±48, ±10i, ±11i`, the tree is determined up to symmetry by levels of the parameters and a finite search (`shape_of`), the integrals over its six edges by Cauchy's theorem on a hyperbola quarter (`EightCauchy`), the six numbers by the rays at the ends (`CrossLines`); the relation between `dx/y` and `x dx/y` has a non-zero real part |
| C62 | `acb_mat_print_gp`, `_acb_vec_arf_printd` on midpoints which may be infinite or NaN; `arf_printd` is a parameter | specification `Spec/PrintGp.lean`: a reader of GP matrices on characters. `C62_gp_partial`: reading back gives the midpoints rounded, for all sizes. Assumed of Arb: `arf_printd` prints a decimal number with a sign only if negative, with relative error at most `10^(1-d)`; `arf_sgn` of NaN is 0. False in general: an indeterminate entry is printed as `0` (`C62_nan_fails`, `C62_nan_zero_fails`) |
| C63 | `tree_print`; `%lf` is a parameter | induction on the edges; the text is read back by `gpTree` (`Spec/PrintGp.lean`), for all trees |
| C64 | `spanning_tree`, `param_gc_r`, `param_de_tau` exact | each end of one edge outside the circle on the other one as diameter, for both: no crossing; this follows from `tree->r` above √2 or π/6. Negation: seven points, the pair strictly heaviest across a cut is in the tree (`cut_edge`) |
| C65 | the text of `main` (`Model/Stdout.lean`): choice of the printing function, digits, matrices and new lines; `arf_printd`, `%lf`, `(slong) (prec * .301)` and the two other formats are parameters; not the verbose mode | C60 for the values, C62 and C63 for the texts, no new line inside a matrix; the radii of the balls and the rounding to `d` digits add up |
| C66 | same chain with m = 3 | principal minors: a vector orthogonal to loops between consecutive strips is, over any field, a function on the faces of a surface made of disks (one for each branch point) and strips (lifts of the edges); the indicator of one of its values gives an integral vector, so a minor which vanishes modulo a prime vanishes (`Proofs/StripMinor`); then the reduction as in C49 |
| C67 | `golden_search` in exact real arithmetic, with the list of the calls of `f` | the interval shrinks by the golden ratio, so the loop ends for every `f`; invariant `a <= x <= b` for a function with one valley at `x` |
| C68 | `max_func_d_gs` over the results of `golden_search` | the loop always gives the search on the first part; negations for both readings, with a constant function and with the identity |
| C69 | `mag_func_arb` with its counter, `mag_func_arf`, `arb_bound_func_arf` | the list of the calls of `f` is kept beside the state of the program; induction on the loop and on the depth, C38 for the bound |
| C70 | the random vectors of `utils.c`, the generator being a parameter | induction on the rounds; `len = 0` never leaves the loop |
| C71 | `de_integrals`, the results of `de_params` being those of C53-C55 | the sums of C25 and the rate of C55 (partial); the bound of the error is stored and never added: from C53 the integral is in no cell of a second exponent, explicitly from 1000 bits on for `y^5 = x^2 - 1` |
| C72 | `gc_params` on exact numbers (`exactPar`, `exactDbl`) | closed form of the two rounds of the loop (`gcN`, an explicit formula without machine integers), under two explicit inequalities on the precision (`GcPrec`), which hold from some precision on (`C72_large`); it returns exactly when twice the number of points fits in a machine integer (`C72_returns`); limits of `A`, `eps`, `log (r0 - r)` against the precision; C45 for the error |
| C73 | the model of `abel_jacobi_compute` (C56) on exact branch points: one-point sets, functions in double precision without rounding, a correct `qsort` (`idealEnv`) | total correctness: the tree has no blocked edge (C46), `gc_params` returns (C72), shifts are decided on exact numbers, the basis exists (C50), then C56. `C73_returns_right` for any sound environment exact on the branch points; `C73_exact_numbers` for all tuples of distinct points; `C73_triangle` an instance with explicit precisions. `tau` is left out (the inversion of the matrix may fail at low precision) |
| C74 | as C73, with sets of numbers for balls; `SharpGc`: the routines on one-point sets return one-point sets, `acb_add_error_mag` adds exactly its radius. The rounding of Arb (about `2^-prec` relative to each intermediate number) is therefore not in the bound | diameters: the sums of `gc_integrals` are exact, the radius `2^(1-intprec)` goes through `integrals_edge_factors` as a triangular matrix whose coefficients are bounded with `extraprec_tree` (C58), then through `period_matrix` (`Proofs/Diam.lean`); the loops have coefficients ±1 and no edge twice. `C74_accuracy` for any such run, `C74_exact_numbers` with C73, `C74_triangle` with explicit precisions |
| C75 | the model of `abel_jacobi_compute` (C56), arithmetic as a parameter | `SameWork`: options equal except bits 1, 2, 3; every function which reads the options gives the same result on both (`SameWork.ajTree`, ...); then the run is followed to the step where it stops | 
| C76 | as C74; `tau_matrix` on sets of matrices | C74 and C56 for the periods and `tau`; the periods are among finitely many matrices (`signPeriods_finite`), so the quotient is uniformly continuous near them (`C76_ready`); `TauReady` is the condition on the precision, explicit for the triangle (`C76_triangle`); `C76_tau_real`: real branch points, or three, need no condition on the edges; symmetry and positivity as in C61 |
| C77 | `atol`/`strtol` on lists of characters (C33, C35), the option loop of `main` | `Literal` is the grammar of integers of the specification; a literal followed by a non digit is read as the nearest `long` (`strtol_literal`), no literal prefix gives 0; then the last occurrence of the option (`runCmds_last`). Negations: `C77_garbage_fails`, `C77_bench_fails` |
| C78 | `ajRun` (C56) with `AJ_NO_INT` in the environment of exact numbers `idealEnv` (C73), any `m` | Tree: C46 and C09; data and matrix: `pt_tree`, `pt_intersection`; numbers: C50; reduction: `basis_of_chain` (C48), its abort branch kept in the statement; `m ≤ 3`: coefficients ±1 (C50), so the abort is impossible; real or three branch points: `plainEdges_real`, `plainEdges_three` |
| C79 | `ajRun` with the double-exponential rule in `idealDe`: `idealEnv` (C73) with `de_params` as modelled (C53, C54), any `m`, any points | Tree and basis from C78 (`AJ_NO_INT` does not change them); `treeDe_total`: induction over the order of the edges, invariant: the scheme at hand is that of some parameters (`SchemeOf`); `de_params` returns by C54 because the edges are free (C46); sums by `de_sums`. Corollary `C56_default_fails` with `C56_real_fails`. |
| C80 | `loop_print` (homol.c 23-29), `%ld` for integers | specification `Spec/PrintLoop.lean`: reader of sums `c*g_i^(s)`; induction on the terms |
| C81 | `gc_params_tree` (gc_params.c 239-243) on exact numbers | `tree->min` is an edge of smallest parameter (invariant `WorstInv`); C72 for the numbers of nodes and their order; C45 for the error. Partial: edges with the same parameter as `tree->min` but other ellipses, small precisions |
| C82 | allocations and deallocations of `gc_int_init`/`gc_int_clear`, `de_int_init`/`de_int_clear`, the loops over the edges, `shift_number`, `acb_mat_solve_real`, `acb_mat_solve_multi` on the heap of C36 | ownership invariant; proved for the double-exponential rule. False elsewhere, with the exact number of lost blocks: one number per Gauss–Chebyshev scheme (`_acb_vec_clear(x, len)` after `_acb_vec_init(len + 1)`), two numbers per pair of meeting edges (`rho`, `psi`), `det` and two matrices per attempt when the first solver fails (`arb_mat_init(x)` in place of `arb_mat_clear(x)`). Not modelled: working numbers of the parameter functions and of the polynomial evaluations |
| C83 | `de_params_tree` (de_params.c 334-338) on exact numbers | `tree->min` is an edge of smallest height (`WorstInv`, C42), the height is symmetric in the two ends; then the strip of C54 and the error of C55 for the other edges with the half width of this one, and more generally of any edge with a smaller or equal parameter (reuse in the loop). The radius `e` of the edge `tree->min` is not claimed for the other edges (it is not even a bound for its own, C53) |
| C84 | `treeDe`, `deParIf` (integrals_de.c 141-200) under flag bit 8 | induction over the loop: a scheme with points is kept, `de_params` is not called again; the first edge makes the scheme (`de->n = 0`) |
| C85 | whole run of `abel_jacobi_compute` on exact numbers with `de_params` as modelled (`idealDe`), double-exponential case | each row is made with the scheme of the edge or of an earlier one in the order, hence of an edge with a smaller parameter; `de_upper` and `deError_upper` bound the sum and the radius by the rate; the factors of the edge and the periods are applied to balls around the exact integrals, which contain the cells, and their diameters are bounded |
| C86 | as C85, with `tau_matrix` on sets of matrices (`setMat`) and the option of C75 | the quotient of two matrices is Lipschitz near an invertible first one (`quot_lip`); the exact matrix of periods is invertible by the bilinear relations (C61, which needs edges meeting only at common ends); C85 bounds the entries; C75 adds `tau` to the run without it |
| C87 | the tree with exact complex arithmetic (`exactCOps`), the data of the edges and the loops on sets (`setArith`), the runs of C78 and C86 | the parameter of an edge is a function of ratios of differences; the data of an edge are unchanged but for `b - a` and the constant, multiplied by `a > 0` and by `a^(n/m)`, so the shifts are equal; the forms `x^i dx/y^j` of the new curve are combinations of those with `l ≤ i`, so both sides of `omega0 tau = omega1` are multiplied by one matrix on the left; C86 for both curves gives the same limit. The mirror image replaces coefficients by their opposites and shifts `s` by `m - 1 - s`, and conjugates every period. For `a` not real positive the principal roots change sheets and only the tree and the equation are covered |
| C88 | `de_constant_m_d` and `de_distance_d` on exact reals, with the division of integers in the exponent | the loop is a product (induction); false for `m ≥ 2`: the exponent `1/m` is 0, so the result is `r^d` whatever the points are (C88_ignores_points, C88_fails); right for `m = 1` |
| C89 | the loop of `acb_vec_r` for any function and any lower bound, `acb_func_r_de` | invariant: after `k` rounds the midpoint is the least of the first `k` bounds; false in general: `acb_vec_r` passes a null pointer, which `acb_func_r_de` reads (C89_null_fails), and the radius of `r0` is not reset (C89_radius_fails) |
| C90 | `arb_tanh_cosh2` and the branch of `de_int_init` which is not compiled, on exact reals (the compiled branch is in C25) | closed forms: the function gives `e^(-2x) tanh x` and `4 cosh² x - 2 e^(-2x)`; false at every node but the first (C90_fails, C90_nodes_fail) |
