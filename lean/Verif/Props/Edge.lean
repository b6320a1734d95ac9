import Verif.Proofs.EdgeFactors
import Verif.Proofs.Shape
import Mathlib.Algebra.Polynomial.Eval.Defs
import Mathlib.MeasureTheory.Integral.IntervalIntegral.Basic
import Mathlib.Tactic.FieldSimp

/-!
# C18, C19: polynomial shift and edge factors
-/

namespace Hcp

/-- **C18.** `acb_vec_polynomial_shift` on the `len` cells from `off`: it never leaves the array,
cell `k` becomes `∑ binomial(k,l) c^(k-l) x_l`, and no other cell changes. -/
theorem C18_polynomial_shift {sz off len : Nat} (h : off + len ≤ sz) (c : ℂ) (x : Nat → ℂ) :
    ∃ y, polyShift exact sz off len c x = .ok y ∧
      (∀ k < len, y (off + k) =
        ∑ l ∈ Finset.range (k + 1), (k.choose l : ℂ) * c ^ (k - l) * x (off + l)) ∧
      ∀ i, (i < off ∨ off + len ≤ i) → y i = x i := by
  obtain ⟨y, e, hF, hy⟩ := polyShift_spec h c x
  refine ⟨y, e, fun k hk => ?_, hF⟩
  rw [hy k hk, bsum, ← Finset.sum_range_reflect]
  apply Finset.sum_congr rfl
  intro l hl
  rw [Finset.mem_range] at hl
  rw [show k + 1 - 1 - l = k - l by omega, Nat.choose_symm (by omega),
    show k - (k - l) = l by omega]

/-- **C18 (meaning).** If the cells hold the moments `L(u^k)` of a linear functional `L`, they hold
`L((u+c)^k)` afterwards. -/
theorem C18_shifts_moments {len : Nat} (c : ℂ) (x : Nat → ℂ) (L : Polynomial ℂ →ₗ[ℂ] ℂ)
    (hx : ∀ k < len, x k = L (Polynomial.X ^ k)) :
    ∃ y, polyShift exact len 0 len c x = .ok y ∧
      ∀ k < len, y k = L ((Polynomial.X + Polynomial.C c) ^ k) := by
  obtain ⟨y, e, hy, -⟩ := C18_polynomial_shift (sz := len) (off := 0) (len := len) (by omega) c x
  refine ⟨y, e, fun k hk => ?_⟩
  have := hy k hk
  rw [Nat.zero_add] at this
  rw [this, add_pow, map_sum]
  apply Finset.sum_congr rfl
  intro l hl
  rw [Finset.mem_range] at hl
  rw [Nat.zero_add, hx l (by omega), ← Polynomial.C_pow, ← Polynomial.C_eq_natCast,
    mul_assoc (Polynomial.X ^ l), ← Polynomial.C_mul,
    mul_comm (Polynomial.X ^ l) _, ← Polynomial.smul_eq_C_mul, map_smul, smul_eq_mul]
  ring

/-- **C18 (enclosure).** Run on balls, each cell encloses the exact result. -/
theorem C18_encloses {A : Type} {X : Arith A} {R : A → ℂ → Prop} (E : Encloses X exact R)
    {sz off len : Nat} (h : off + len ≤ sz) {c : A} {c' : ℂ} {x : Nat → A} {x' : Nat → ℂ} (hc : R c c')
    (hx : ∀ i, R (x i) (x' i)) :
    ∃ y, polyShift X sz off len c x = .ok y ∧
      ∀ k < len, R (y (off + k))
        (∑ l ∈ Finset.range (k + 1), (k.choose l : ℂ) * c' ^ (k - l) * x' (off + l)) := by
  obtain ⟨y', e, hy, -⟩ := C18_polynomial_shift h c' x'
  have hr := polyShift_rel E (sz := sz) (off := off) (len := len) hc hx
  rw [e] at hr
  obtain ⟨y, ey, hyy⟩ := hr.ok_left
  exact ⟨y, ey, fun k hk => by rw [← hy k hk]; exact hyy _⟩

/-- The hypotheses are met: three cells `1, u, u^2` at `u = 5` shifted by `2` become `1, 7, 49`. -/
example : ∃ y, polyShift exact 4 1 3 2 (fun i => (5 : ℂ) ^ (i - 1)) = .ok y ∧ y 3 = 49 ∧ y 0 = 1 := by
  obtain ⟨y, e, hy, hf⟩ := C18_polynomial_shift (sz := 4) (off := 1) (len := 3) (by omega) 2
    (fun i => (5 : ℂ) ^ (i - 1))
  refine ⟨y, e, ?_, ?_⟩
  · have := hy 2 (by omega)
    norm_num [Finset.sum_range_succ, Nat.choose] at this
    exact this
  · have := hf 0 (by omega)
    norm_num at this
    exact this

theorem zeta_pow (m : Nat) (hm : 0 < m) : Spec.zeta m ^ m = 1 := by
  unfold Spec.zeta
  rw [← Complex.exp_nat_mul]
  have : (m : ℂ) ≠ 0 := by exact_mod_cast hm.ne'
  rw [show (m : ℂ) * (2 * Real.pi * Complex.I / m) = 2 * Real.pi * Complex.I by field_simp]
  exact Complex.exp_two_pi_mul_I

theorem zeta_ne_zero (m : Nat) : Spec.zeta m ≠ 0 := Complex.exp_ne_zero _

theorem zeta_pow_sub (m j : Nat) (hm : 0 < m) (hj : j ≤ m) :
    exact.unitRoot m ^ ((m - j) % m) = (Spec.zeta m ^ j)⁻¹ := by
  have h1 : exact.unitRoot m = Spec.zeta m := rfl
  rw [h1, ← pow_eq_pow_mod (m - j) (zeta_pow m hm)]
  apply eq_inv_of_mul_eq_one_left
  rw [← pow_add, show m - j + j = m by omega, zeta_pow m hm]

/-- **C19 (algebra).** On a row of `g` cells, for every curve descriptor returned by `sec_init`, the call
`integrals_edge_factors` stays inside the row and turns cell `r`, holding the differential
`x^i dx/y^j`, into `(1 - ζ^-j) C^-j ba2^(i+1) ∑_l binomial(i,l) ab^(i-l) x_{r-i+l}`. -/
theorem C19_edge_factors {m n : Int} {c : Sec} (hn : 2 ≤ n) (h : secInit m n = .ok c)
    (ba2 ab cab : ℂ) (x : Nat → ℂ) :
    ∃ y, edgeFactors exact c.shape ba2 ab cab x = .ok y ∧
      ∀ r i j, r < c.shape.g → Spec.diffOf c.shape.ni c.shape.j1 r = (i, j) →
        y r = (1 - (Spec.zeta c.shape.m ^ j)⁻¹) / cab ^ j * ba2 ^ (i + 1) *
          ∑ l ∈ Finset.range (i + 1), (i.choose l : ℂ) * ab ^ (i - l) * x (r - i + l) := by
  have hc := shape_good hn h
  obtain ⟨y, e, -, hy⟩ := edgeFactors_spec c.shape ba2 ab cab (by have := hc.m; omega) x hc.pos hc.sum.le
  refine ⟨y, e, ?_⟩
  intro r i j hr hij
  have hlt := diffOf_exp hc hr
  obtain ⟨k, nij, i', h1, h2, h3, h4⟩ := diffOf_spec c.shape.ni c.shape.j1 r (by rw [hc.sum]; exact hr)
  rw [h4] at hij
  simp only [Prod.mk.injEq] at hij
  obtain ⟨rfl, rfl⟩ := hij
  rw [h4] at hlt
  simp only at hlt
  rw [h3, hy k i' nij h1 h2, edgeVal, zeta_pow_sub _ _ (by have := hc.m; omega) (by omega)]
  congr 1
  rw [bsum, ← Finset.sum_range_reflect]
  apply Finset.sum_congr rfl
  intro l hl
  rw [Finset.mem_range] at hl
  rw [show i' + 1 - 1 - l = i' - l by omega, Nat.choose_symm (by omega),
    show i' - (i' - l) = l by omega,
    show (c.shape.ni.take k).sum + i' - i' + l = (c.shape.ni.take k).sum + l by omega]

open MeasureTheory in
/-- **C19 (change of variables).** Suppose cell `r` of the row holds `∫_{-1}^{1} u^i φ_j(u) du` for every
differential `x^i dx/y^j`, where `φ_j` stands for `y(u)^-j`.  Then, with `ba2 = (b-a)/2`,
`ab = (b+a)/(b-a)`, afterwards it holds `(1 - ζ^-j) C^-j ∫_{-1}^{1} x(u)^i φ_j(u) x'(u) du`, with
`x(u)` the point of parameter `u` on the edge from `a` to `b`. -/
theorem C19_change_of_variables {m n : Int} {c : Sec} (hn : 2 ≤ n) (h : secInit m n = .ok c)
    (a b cab : ℂ) (hab : a ≠ b) (φ : Nat → ℝ → ℂ)
    (hφ : ∀ j, IntervalIntegrable (φ j) volume (-1) 1) (x : Nat → ℂ)
    (hx : ∀ r i j, r < c.shape.g → Spec.diffOf c.shape.ni c.shape.j1 r = (i, j) →
      x r = ∫ u in (-1 : ℝ)..1, (u : ℂ) ^ i * φ j u) :
    ∃ y, edgeFactors exact c.shape ((b - a) / 2) ((a + b) / (b - a)) cab x = .ok y ∧
      ∀ r i j, r < c.shape.g → Spec.diffOf c.shape.ni c.shape.j1 r = (i, j) →
        y r = (1 - (Spec.zeta c.shape.m ^ j)⁻¹) / cab ^ j *
          ∫ u in (-1 : ℝ)..1, Spec.edgePt a b u ^ i * φ j u * ((b - a) / 2) := by
  obtain ⟨y, e, hy⟩ := C19_edge_factors hn h ((b - a) / 2) ((a + b) / (b - a)) cab x
  refine ⟨y, e, fun r i j hr hij => ?_⟩
  have hba : b - a ≠ 0 := sub_ne_zero.2 (Ne.symm hab)
  rw [hy r i j hr hij, mul_assoc]
  congr 1
  have hc := shape_good hn h
  obtain ⟨k, nij, i', h1, h2, h3, h4⟩ := diffOf_spec c.shape.ni c.shape.j1 r (by rw [hc.sum]; exact hr)
  rw [h4] at hij
  simp only [Prod.mk.injEq] at hij
  obtain ⟨rfl, rfl⟩ := hij
  have hcell : ∀ l ∈ Finset.range (i' + 1), x (r - i' + l)
      = ∫ u in (-1 : ℝ)..1, (u : ℂ) ^ l * φ (c.shape.j1 + k) u := by
    intro l hl
    rw [Finset.mem_range] at hl
    rw [show r - i' + l = (c.shape.ni.take k).sum + l by omega]
    apply hx
    · have := take_sum_le _ _ _ h1
      have := hc.sum
      omega
    · exact diffOf_block _ _ _ _ _ h1 (by omega)
  have hint : ∀ l, IntervalIntegrable (fun u : ℝ => (u : ℂ) ^ l * φ (c.shape.j1 + k) u) volume (-1) 1 := by
    intro l
    exact (hφ _).continuousOn_mul (by fun_prop)
  have hpt : ∀ u : ℝ, Spec.edgePt a b u ^ i' * φ (c.shape.j1 + k) u * ((b - a) / 2)
      = ∑ l ∈ Finset.range (i' + 1), (((b - a) / 2) ^ (i' + 1) * ((i'.choose l : ℂ) *
          ((a + b) / (b - a)) ^ (i' - l))) * ((u : ℂ) ^ l * φ (c.shape.j1 + k) u) := by
    intro u
    have : Spec.edgePt a b u = ((b - a) / 2) * (u + (a + b) / (b - a)) := by
      unfold Spec.edgePt
      field_simp
      ring
    rw [this, mul_pow, add_pow, Finset.mul_sum, Finset.sum_mul, Finset.sum_mul]
    apply Finset.sum_congr rfl
    intro l _
    rw [pow_succ]; ring
  simp only [hpt]
  rw [intervalIntegral.integral_finsetSum (fun l _ => (hint l).const_mul _)]
  rw [Finset.mul_sum]
  apply Finset.sum_congr rfl
  intro l hl
  rw [intervalIntegral.integral_const_mul, hcell l hl]
  ring

/-- **C19 (enclosure).** On balls the routine returns, and encloses the exact values. -/
theorem C19_encloses {A : Type} {X : Arith A} {R : A → ℂ → Prop} (E : Encloses X exact R)
    {m n : Int} {c : Sec} (hn : 2 ≤ n) (h : secInit m n = .ok c)
    {ba2 ab cab : A} {ba2' ab' cab' : ℂ} (h1 : R ba2 ba2') (h2 : R ab ab') (h3 : R cab cab')
    {x : Nat → A} {x' : Nat → ℂ} (hx : ∀ i, R (x i) (x' i)) :
    ∃ y y', edgeFactors X c.shape ba2 ab cab x = .ok y ∧
      edgeFactors exact c.shape ba2' ab' cab' x' = .ok y' ∧ ∀ r, R (y r) (y' r) := by
  obtain ⟨y', e, -⟩ := C19_edge_factors hn h ba2' ab' cab' x'
  have hr := edgeFactors_rel E c.shape h1 h2 h3 hx
  rw [e] at hr
  obtain ⟨y, ey, hyy⟩ := hr.ok_left
  exact ⟨y, y', ey, e, hyy⟩

/-- The hypotheses are met: the curve `y^3 = f_4(x)` of genus 3 with rows of length 1 and 2. -/
example : ∃ c, secInit 3 4 = .ok c ∧ c.shape.g = 3 ∧ c.shape.ni = [1, 2] ∧
    Spec.diffOf c.shape.ni c.shape.j1 2 = (1, 2) := ⟨_, rfl, by decide, by decide, by decide⟩

/-- **C19 (hyperelliptic variant).** `integrals_edge_factors_gc` (compiled, but whose only call is commented
out) does *not* compute the edge factors: whatever the constant `C`, on the
curve of genus 2 with `m = 2, n = 5` and `a = -1, b = 1` its answer differs from
`(1 - ζ^-1) C^-1 ∫ x(u)^i φ(u) x'(u) du`. -/
theorem C19_gc_variant_fails :
    ∃ (c : Sec) (x : Nat → ℂ), secInit 2 5 = .ok c ∧ ∀ cab : ℂ, ∀ y y',
      edgeFactorsGc exact c.shape 1 0 x = .ok y → edgeFactors exact c.shape 1 0 cab x = .ok y' →
      ¬ (y 0 = y' 0 ∧ y 1 = y' 1) := by
  refine ⟨⟨2, 5, 1, 2, 1, 1, [2]⟩, fun _ => 1, by decide, ?_⟩
  intro cab y y' h1 h2 ⟨h3, h4⟩
  obtain ⟨z, e, -, hz⟩ := edgeFactorsGc_spec
    (Sec.shape ⟨2, 5, 1, 2, 1, 1, [2]⟩) 1 0 (fun _ => 1)
  obtain ⟨z', e', -, hz'⟩ := edgeFactors_spec (Sec.shape ⟨2, 5, 1, 2, 1, 1, [2]⟩) 1 0 cab (by decide)
    (fun _ => 1) (by decide) (by decide)
  have hy : y = z := by rw [h1] at e; exact Res.ok.inj e
  have hy' : y' = z' := by rw [h2] at e'; exact Res.ok.inj e'
  subst hy hy'
  have a0 := hz 0 (by decide)
  have a1 := hz 1 (by decide)
  have b0 := hz' 0 0 2 (by decide) (by decide)
  have b1 := hz' 0 1 2 (by decide) (by decide)
  have hs : List.sum (List.take 0 (Sec.shape ⟨2, 5, 1, 2, 1, 1, [2]⟩).ni) = 0 := rfl
  rw [hs] at b0 b1
  simp [bsum, Finset.sum_range_succ, edgeVal] at a0 a1 b0 b1
  rw [b1, ← b0, ← h3, a0] at h4
  rw [a1] at h4
  have := congrArg Complex.im h4
  simp at this

end Hcp
