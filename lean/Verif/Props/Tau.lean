import Verif.Spec.Tau
import Mathlib.LinearAlgebra.Matrix.Charpoly.Coeff
import Mathlib.LinearAlgebra.Matrix.ToLinearEquiv
import Mathlib.Tactic.LinearCombination
import Mathlib.Analysis.Complex.Basic

/-!
# C29, C30: the small period matrix
-/

namespace Hcp

theorem cmat_re_im {n m : Nat} (A : Matrix (Fin n) (Fin m) ℂ) : cmat (A.map Complex.re) (A.map Complex.im) = A := by
  ext i j
  simp [cmat, Complex.re_add_im]

theorem cmat_mul {n k m : Nat} (a b : Matrix (Fin n) (Fin k) ℝ) (x y : Matrix (Fin k) (Fin m) ℝ) :
    cmat a b * cmat x y = cmat (a * x - b * y) (a * y + b * x) := by
  ext i j
  simp only [cmat, Matrix.mul_apply, Matrix.of_apply, Matrix.sub_apply, Matrix.add_apply, Complex.ofReal_sum,
    Complex.ofReal_sub, Complex.ofReal_add, Complex.ofReal_mul]
  rw [← Finset.sum_sub_distrib, ← Finset.sum_add_distrib, Finset.sum_mul, ← Finset.sum_add_distrib]
  refine Finset.sum_congr rfl fun l _ => ?_
  linear_combination (b i l : ℂ) * (y l j : ℂ) * Complex.I_mul_I

/-- algebra of the elimination -/
theorem elim_solution {n m : Nat} {a b : Matrix (Fin n) (Fin n) ℝ} (c d : Matrix (Fin n) (Fin m) ℝ) (ha : a.det ≠ 0)
    (hs : (a + b * (a⁻¹ * b)).det ≠ 0) :
    let x := (a + b * (a⁻¹ * b))⁻¹ * (c + b * (a⁻¹ * d))
    let y := a⁻¹ * d - a⁻¹ * b * x
    cmat a b * cmat x y = cmat c d := by
  intro x y
  have hau : IsUnit a.det := isUnit_iff_ne_zero.2 ha
  have hsu : IsUnit (a + b * (a⁻¹ * b)).det := isUnit_iff_ne_zero.2 hs
  have h1 : (a + b * (a⁻¹ * b)) * x = c + b * (a⁻¹ * d) := by
    simp only [x]
    rw [← Matrix.mul_assoc, Matrix.mul_nonsing_inv _ hsu, Matrix.one_mul]
  have h2 : a * y = d - b * x := by
    simp only [y]
    rw [Matrix.mul_sub, ← Matrix.mul_assoc, Matrix.mul_nonsing_inv _ hau, Matrix.one_mul, Matrix.mul_assoc a⁻¹,
      ← Matrix.mul_assoc a, Matrix.mul_nonsing_inv _ hau, Matrix.one_mul]
  have h3 : a * x - b * y = c := by
    have : b * y = b * (a⁻¹ * d) - b * (a⁻¹ * b) * x := by
      simp only [y]
      rw [Matrix.mul_sub, ← Matrix.mul_assoc b (a⁻¹ * b) x]
    rw [this]
    rw [Matrix.add_mul] at h1
    rw [sub_sub_eq_add_sub, sub_eq_iff_eq_add, h1]
  rw [cmat_mul, h2, h3, sub_add_cancel]

section
variable {O : MatOps} {RM : {n m : Nat} → O.M n m → Matrix (Fin n) (Fin m) ℝ → Prop}
  {RC : {n m : Nat} → O.C n m → Matrix (Fin n) (Fin m) ℂ → Prop} {RK : O.K → ℂ → Prop}

/-- **C29 (elimination).** For all sizes and all matrices of balls: when `acb_mat_solve_real` succeeds, every matrix `A'` of the ball `A` is
invertible and the result contains the solution `A'⁻¹ B'` of the complex system. -/
theorem C29_solve_real (E : MatEncl O RM RC RK) {n m : Nat} {A : O.C n n} {B X : O.C n m} {A' : Matrix (Fin n) (Fin n) ℂ}
    {B' : Matrix (Fin n) (Fin m) ℂ} (hA : RC A A') (hB : RC B B') (h : solveReal O A B = some X) :
    A'.det ≠ 0 ∧ RC X (A'⁻¹ * B') := by
  unfold solveReal at h
  split at h
  · cases h
  · rename_i LU hLU
    unfold solveRealLu at h
    simp only at h
    split at h
    · cases h
    · rename_i LU1 hLU1
      have ha := E.real hA
      have hb := E.imag hA
      have hc := E.real hB
      have hd := E.imag hB
      obtain ⟨hdet, hsol⟩ := E.lu ha hLU
      have ht := hsol hb
      have hd1 := hsol hd
      have hc1 := E.radd hc (E.rmul hb hd1)
      have ha1 := E.radd ha (E.rmul hb ht)
      obtain ⟨hdet1, hsol1⟩ := E.lu ha1 hLU1
      have hx := hsol1 hc1
      have hX := E.join hx (E.rsub hd1 (E.rmul ht hx))
      cases h
      have hdetA : A'.det ≠ 0 := by
        have := elim_solution (1 : Matrix (Fin n) (Fin n) ℝ) 0 hdet hdet1
        rw [cmat_re_im] at this
        have h1 : cmat (1 : Matrix (Fin n) (Fin n) ℝ) 0 = 1 := by
          ext i j
          by_cases hij : i = j <;> simp [cmat, Matrix.one_apply, hij]
        rw [h1] at this
        have hu := Matrix.isUnit_det_of_right_inverse this
        exact hu.ne_zero
      refine ⟨hdetA, ?_⟩
      have key := elim_solution (B'.map Complex.re) (B'.map Complex.im) hdet hdet1
      rw [cmat_re_im, cmat_re_im] at key
      have hsolu : ∀ Y : Matrix (Fin n) (Fin m) ℂ, A' * Y = B' → A'⁻¹ * B' = Y := by
        intro Y hY
        rw [← hY, ← Matrix.mul_assoc, Matrix.nonsing_inv_mul _ (isUnit_iff_ne_zero.2 hdetA), Matrix.one_mul]
      rw [hsolu _ key]
      exact hX

theorem charpolyLoop_encl (E : MatEncl O RM RC RK) {n m : Nat} {A : O.C n n} {A' : Matrix (Fin n) (Fin n) ℂ} (hA : RC A A')
    {chi : Nat → O.K} {chi' : Nat → ℂ} (hchi : ∀ k, RK (chi k) (chi' k)) {B' : Matrix (Fin n) (Fin m) ℂ} :
    ∀ (cnt k : Nat) (AB X : O.C n m) (X' : Matrix (Fin n) (Fin m) ℂ), RC AB (A' ^ k * B') → RC X X' →
      RC (charpolyLoop O A chi cnt (k + 2) AB X) (X' + ∑ i ∈ Finset.range cnt, chi' (k + 2 + i) • (A' ^ (k + 1 + i) * B'))
  | 0, _, _, _, X', _, hX => by simpa [charpolyLoop] using hX
  | cnt + 1, k, AB, X, X', hAB, hX => by
    have h1 : RC (O.cmul A AB) (A' ^ (k + 1) * B') := by
      have := E.cmul hA hAB
      rwa [← Matrix.mul_assoc, ← pow_succ'] at this
    have h2 := E.saddmul hX h1 (hchi (k + 2))
    have h3 := charpolyLoop_encl E hA hchi cnt (k + 1) _ _ _ h1 h2
    rw [Finset.sum_range_succ', ← add_assoc, add_right_comm]
    simp only [Nat.add_zero]
    have h4 : ∀ i, chi' (k + 2 + (i + 1)) • (A' ^ (k + 1 + (i + 1)) * B') =
        chi' (k + 1 + 2 + i) • (A' ^ (k + 1 + 1 + i) * B') := by
      intro i
      rw [show k + 2 + (i + 1) = k + 1 + 2 + i by omega, show k + 1 + (i + 1) = k + 1 + 1 + i by omega]
    simp only [h4]
    exact h3

theorem charpoly_inverse {n m : Nat} (hn : 0 < n) (A : Matrix (Fin n) (Fin n) ℂ) (B : Matrix (Fin n) (Fin m) ℂ) (hA : A.det ≠ 0) :
    (A.charpoly.coeff 1 / A.charpoly.coeff 0) • B +
      ∑ i ∈ Finset.range (n - 1), (A.charpoly.coeff (0 + 2 + i) / A.charpoly.coeff 0) • (A ^ (0 + 1 + i) * B) =
    -(A⁻¹ * B) := by
  have hAu : IsUnit A.det := isUnit_iff_ne_zero.2 hA
  have hc0 : A.charpoly.coeff 0 ≠ 0 := by
    intro h
    apply hA
    rw [Matrix.det_eq_sign_charpoly_coeff, h, mul_zero]
  have hCH := Matrix.aeval_self_charpoly A
  rw [Polynomial.aeval_eq_sum_range, Matrix.charpoly_natDegree_eq_dim, Fintype.card_fin, Finset.sum_range_succ',
    pow_zero] at hCH
  have h1 : A * ∑ i ∈ Finset.range n, (A.charpoly.coeff (i + 1) / A.charpoly.coeff 0) • A ^ i = -1 := by
    have h2 : A * ∑ i ∈ Finset.range n, (A.charpoly.coeff (i + 1) / A.charpoly.coeff 0) • A ^ i =
        (A.charpoly.coeff 0)⁻¹ • ∑ i ∈ Finset.range n, A.charpoly.coeff (i + 1) • A ^ (i + 1) := by
      rw [Finset.mul_sum, Finset.smul_sum]
      refine Finset.sum_congr rfl fun i _ => ?_
      rw [Matrix.mul_smul, ← pow_succ', smul_smul, div_eq_inv_mul]
    rw [h2, eq_neg_of_add_eq_zero_left hCH, smul_neg, smul_smul, inv_mul_cancel₀ hc0, one_smul]
  have h3 : ∑ i ∈ Finset.range n, (A.charpoly.coeff (i + 1) / A.charpoly.coeff 0) • A ^ i = -A⁻¹ := by
    calc _ = A⁻¹ * (A * ∑ i ∈ Finset.range n, (A.charpoly.coeff (i + 1) / A.charpoly.coeff 0) • A ^ i) := by
          rw [← Matrix.mul_assoc, Matrix.nonsing_inv_mul _ hAu, Matrix.one_mul]
      _ = -A⁻¹ := by rw [h1, Matrix.mul_neg, Matrix.mul_one]
  obtain ⟨k, rfl⟩ : ∃ k, n = k + 1 := ⟨n - 1, by omega⟩
  rw [← Matrix.neg_mul, ← h3, Finset.sum_range_succ', Matrix.add_mul, Matrix.sum_mul]
  simp only [Nat.zero_add, pow_zero, Nat.add_sub_cancel]
  refine (add_comm _ _).trans ?_
  congr 1
  · refine Finset.sum_congr rfl fun i _ => ?_
    rw [Matrix.smul_mul, show 2 + i = i + 1 + 1 by omega, show 1 + i = i + 1 by omega]
  · rw [Matrix.smul_mul, Matrix.one_mul]

/-- **C30 (negation).** For all sizes `n ≥ 1` and every invertible matrix, `acb_mat_solve_charpoly` encloses `-A'⁻¹ B'`, the *opposite* of
the solution. -/
theorem C30_charpoly_sign (E : MatEncl O RM RC RK) {n m : Nat} (hn : 0 < n) {A : O.C n n} {B : O.C n m} {A' : Matrix (Fin n) (Fin n) ℂ}
    {B' : Matrix (Fin n) (Fin m) ℂ} (hA : RC A A') (hB : RC B B') (hdet : A'.det ≠ 0) :
    RC (solveCharpoly O A B) (-(A'⁻¹ * B')) := by
  have hchi : ∀ k, RK (O.kdiv (O.charpoly A k) (O.charpoly A 0)) (A'.charpoly.coeff k / A'.charpoly.coeff 0) :=
    fun k => E.kdiv (E.charpoly k hA) (E.charpoly 0 hA)
  have := charpolyLoop_encl E hA hchi (B' := B') (n - 1) 0 B _ _ (by rwa [pow_zero, Matrix.one_mul])
    (E.smul hB (hchi 1))
  rw [charpoly_inverse hn A' B' hdet] at this
  exact this

/-- **C30 (negation, exact).** On exact matrices the result differs from the solution for every invertible `A` and every `B ≠ 0`. -/
theorem C30_charpoly_fails {n m : Nat} (hn : 0 < n) (A : Matrix (Fin n) (Fin n) ℂ) (B : Matrix (Fin n) (Fin m) ℂ) (hA : A.det ≠ 0)
    (hB : B ≠ 0) : A * (show Matrix (Fin n) (Fin m) ℂ from solveCharpoly exactMat A B) = -B ∧
      (show Matrix (Fin n) (Fin m) ℂ from solveCharpoly exactMat A B) ≠ A⁻¹ * B := by
  have hAu : IsUnit A.det := isUnit_iff_ne_zero.2 hA
  have h : (show Matrix (Fin n) (Fin m) ℂ from solveCharpoly exactMat A B) = -(A⁻¹ * B) :=
    C30_charpoly_sign exactMat_encl hn (A := A) (B := B) rfl rfl hA
  rw [h]
  have h1 : A * (A⁻¹ * B) = B := by rw [← Matrix.mul_assoc, Matrix.mul_nonsing_inv _ hAu, Matrix.one_mul]
  refine ⟨by rw [Matrix.mul_neg, h1], fun heq => hB ?_⟩
  have h2 : A⁻¹ * B = 0 := by
    ext i j
    have := congrFun (congrFun heq i) j
    simp only [Matrix.neg_apply] at this
    have h3 : (2 : ℂ) * (A⁻¹ * B) i j = 0 := by linear_combination -this
    simpa using h3
  rw [← h1, h2, Matrix.mul_zero]

/-- Instance of C30: `A = 1`, `B = 1` of size two. -/
example : (1 : Matrix (Fin 2) (Fin 2) ℂ).det ≠ 0 ∧ (1 : Matrix (Fin 2) (Fin 2) ℂ) ≠ 0 := by simp

/-- **C29.** For all genera `g ≥ 1` and all matrices of balls `omega0`, `omega1`: `tau_matrix` either aborts, because the ball of the
determinant contains zero, or returns.  When one of the first three strategies succeeds, `omega0` is invertible and the
result contains the unique matrix with `omega0 tau = omega1`.  When all fail, it contains the opposite of it. -/
theorem C29_tau_partial (E : MatEncl O RM RC RK) {n m : Nat} (hn : 0 < n) {A : O.C n n} {B X : O.C n m} {A' : Matrix (Fin n) (Fin n) ℂ}
    {B' : Matrix (Fin n) (Fin m) ℂ} (hA : RC A A') (hB : RC B B') (h : tauMatrix O A B = .ok X) :
    (O.solve A B ≠ none ∨ solveReal O A B ≠ none ∨ solveReal O (O.mulI A) (O.mulI B) ≠ none →
      ∃ tau, RC X tau ∧ A' * tau = B' ∧ ∀ tau', A' * tau' = B' → tau' = tau) ∧
    (O.solve A B = none → solveReal O A B = none → solveReal O (O.mulI A) (O.mulI B) = none →
      ∃ tau, RC X tau ∧ A' * tau = -B') := by
  have fin : ∀ Y : Matrix (Fin n) (Fin m) ℂ, A'.det ≠ 0 → Y = A'⁻¹ * B' →
      A' * Y = B' ∧ ∀ tau', A' * tau' = B' → tau' = Y := by
    intro Y hdet hY
    have hu : IsUnit A'.det := isUnit_iff_ne_zero.2 hdet
    refine ⟨by rw [hY, ← Matrix.mul_assoc, Matrix.mul_nonsing_inv _ hu, Matrix.one_mul], fun tau' ht => ?_⟩
    rw [hY, ← ht, ← Matrix.mul_assoc, Matrix.nonsing_inv_mul _ hu, Matrix.one_mul]
  unfold tauMatrix solveMulti at h
  cases h1 : O.solve A B with
  | some Y =>
    rw [h1] at h
    cases h
    obtain ⟨hdet, hX⟩ := E.solve hA hB h1
    exact ⟨fun _ => ⟨_, hX, fin _ hdet rfl⟩, fun h => by cases h⟩
  | none =>
    rw [h1] at h
    simp only at h
    split at h
    · cases h
    · rename_i hz
      have hdet := E.det hA (by simpa using hz)
      cases h2 : solveReal O A B with
      | some Y =>
        rw [h2] at h
        cases h
        exact ⟨fun _ => ⟨_, (C29_solve_real E hA hB h2).2, fin _ hdet rfl⟩, fun _ h => by cases h⟩
      | none =>
        rw [h2] at h
        simp only at h
        cases h3 : solveReal O (O.mulI A) (O.mulI B) with
        | some Y =>
          rw [h3] at h
          cases h
          refine ⟨fun _ => ⟨_, (C29_solve_real E (E.mulI hA) (E.mulI hB) h3).2, fin _ hdet ?_⟩, fun _ _ h => by cases h⟩
          have hI : (Complex.I • A')⁻¹ = (-Complex.I) • A'⁻¹ := by
            apply Matrix.inv_eq_left_inv
            rw [Matrix.smul_mul, Matrix.mul_smul, smul_smul, Matrix.nonsing_inv_mul _ (isUnit_iff_ne_zero.2 hdet)]
            simp
          rw [hI, Matrix.smul_mul, Matrix.mul_smul, smul_smul]
          simp
        | none =>
          rw [h3] at h
          cases h
          refine ⟨fun h => by simp at h, fun _ _ _ => ⟨_, C30_charpoly_sign E hn hA hB hdet, ?_⟩⟩
          rw [Matrix.mul_neg, ← Matrix.mul_assoc, Matrix.mul_nonsing_inv _ (isUnit_iff_ne_zero.2 hdet), Matrix.one_mul]

/-- **C29 (outcomes).** No other outcome: a value, or the documented abort when the determinant may vanish. -/
theorem C29_outcomes (O : MatOps) {n m : Nat} (A : O.C n n) (B : O.C n m) :
    (∃ X, tauMatrix O A B = .ok X) ∨
      tauMatrix O A B = .abort "matrix is not invertible" ∧ O.detHasZero A = true ∧ O.solve A B = none := by
  unfold tauMatrix solveMulti
  split
  · exact Or.inl ⟨_, rfl⟩
  · rename_i h
    split
    · rename_i h1
      exact Or.inr ⟨rfl, h1, h⟩
    · left
      split
      · exact ⟨_, rfl⟩
      · split
        · exact ⟨_, rfl⟩
        · exact ⟨_, rfl⟩

end

/-- **C29 (where the strategies stop).** On exact matrices the first elimination works exactly when the real part of `A` is invertible;
for an invertible `A`, the second factorisation then never fails. -/
theorem C29_exact_elimination {n m : Nat} (A : Matrix (Fin n) (Fin n) ℂ) (B : Matrix (Fin n) (Fin m) ℂ) (hA : A.det ≠ 0)
    (ha : (A.map Complex.re).det ≠ 0) : ∃ X, solveReal exactMat A B = some X := by
  set a := A.map Complex.re with hadef
  set b := A.map Complex.im with hbdef
  have hau : IsUnit a.det := isUnit_iff_ne_zero.2 ha
  have hs : (a + b * (a⁻¹ * b)).det ≠ 0 := by
    intro h0
    obtain ⟨v, hv0, hv⟩ := Matrix.exists_mulVec_eq_zero_iff.2 h0
    -- the vector `v - i a⁻¹ b v` is in the kernel of `A`
    let x : Matrix (Fin n) (Fin 1) ℝ := Matrix.of fun i _ => v i
    have hx : (a + b * (a⁻¹ * b)) * x = 0 := by
      ext i j
      exact congrFun hv i
    have hk : cmat a b * cmat x (-(a⁻¹ * b * x)) = 0 := by
      rw [cmat_mul]
      have h1 : a * x - b * -(a⁻¹ * b * x) = 0 := by
        rw [Matrix.mul_neg, sub_neg_eq_add, ← Matrix.mul_assoc b, ← Matrix.add_mul, hx]
      have h2 : a * -(a⁻¹ * b * x) + b * x = 0 := by
        rw [Matrix.mul_neg, ← Matrix.mul_assoc, ← Matrix.mul_assoc, Matrix.mul_nonsing_inv _ hau, Matrix.one_mul,
          neg_add_cancel]
      rw [h1, h2]
      ext i j
      simp [cmat]
    rw [hadef, hbdef, cmat_re_im] at hk
    have hz : cmat x (-((A.map Complex.re)⁻¹ * A.map Complex.im * x)) = 0 := by
      have := congrArg (fun M => A⁻¹ * M) hk
      simp only [Matrix.mul_zero] at this
      rwa [← Matrix.mul_assoc, Matrix.nonsing_inv_mul _ (isUnit_iff_ne_zero.2 hA), Matrix.one_mul] at this
    apply hv0
    funext i
    have := congrArg Complex.re (congrFun (congrFun hz i) 0)
    simpa [cmat, x] using this
  unfold solveReal
  have h1 : exactMat.lu (exactMat.real A) = some a := if_pos ha
  rw [h1]
  simp only
  unfold solveRealLu
  have h2 : exactMat.lu (exactMat.radd (exactMat.real A) (exactMat.rmul (exactMat.imag A) (exactMat.luSolve a (exactMat.imag A)))) =
      some (a + b * (a⁻¹ * b)) := if_pos hs
  simp only [h2]
  exact ⟨_, rfl⟩

/-- Instance: `A = 1 + i` of size one is invertible with invertible real part. -/
example : ((1 + Complex.I) • (1 : Matrix (Fin 1) (Fin 1) ℂ)).det ≠ 0 ∧
    (((1 + Complex.I) • (1 : Matrix (Fin 1) (Fin 1) ℂ)).map Complex.re).det ≠ 0 := by
  simp only [Matrix.det_fin_one]
  simp
  intro h
  have := congrArg Complex.re h
  simp at this

/-- **C29 (negation).** There are invertible `omega0` (here of genus 2) for which all strategies but the last fail on exact data
when the direct solver gives up, so that the program prints the opposite of `tau`. -/
theorem C29_wrong_sign_reached : ∃ (A B : Matrix (Fin 2) (Fin 2) ℂ), A.det ≠ 0 ∧ B ≠ 0 ∧
    ∃ X : Matrix (Fin 2) (Fin 2) ℂ, tauMatrix exactMat A B = .ok X ∧ A * X = -B := by
  let A : Matrix (Fin 2) (Fin 2) ℂ := !![1, 0; 0, Complex.I]
  have hdet : A.det ≠ 0 := by simp [A, Matrix.det_fin_two]
  have hre : (A.map Complex.re).det = 0 := by simp [A, Matrix.det_fin_two]
  have him : ((Complex.I • A).map Complex.re).det = 0 := by simp [A, Matrix.det_fin_two]
  have h1 : solveReal exactMat A (1 : Matrix (Fin 2) (Fin 2) ℂ) = none := by
    unfold solveReal
    have : exactMat.lu (exactMat.real A) = none := if_neg (not_not.2 hre)
    rw [this]
  have h2 : solveReal exactMat (exactMat.mulI A) (exactMat.mulI (1 : Matrix (Fin 2) (Fin 2) ℂ)) = none := by
    unfold solveReal
    have : exactMat.lu (exactMat.real (exactMat.mulI A)) = none := if_neg (not_not.2 him)
    rw [this]
  refine ⟨A, 1, hdet, one_ne_zero, solveCharpoly exactMat A (1 : Matrix (Fin 2) (Fin 2) ℂ), ?_,
    (C30_charpoly_fails (by norm_num) A 1 hdet one_ne_zero).1⟩
  unfold tauMatrix solveMulti
  have h3 : exactMat.detHasZero A = false := by
    simp only [exactMat, decide_eq_false_iff_not]
    exact hdet
  have h4 : exactMat.solve A (1 : Matrix (Fin 2) (Fin 2) ℂ) = none := rfl
  rw [h4]
  simp only [h3, h1, h2]
  rfl

end Hcp
