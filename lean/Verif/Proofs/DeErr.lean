import Verif.Proofs.DeTail
import Verif.Proofs.DeRadius
import Verif.Spec.DeError

/-!
# Error of the double-exponential sums
-/

namespace Hcp

open MeasureTheory Set Filter Topology Spec

theorem deSize_continuousAt {m d i j : Nat} {u : Nat → ℂ} {z : ℂ} (h : ∀ k < d, z ≠ u k) : ContinuousAt (edgeSize m d i j u) z := by
  unfold edgeSize
  have hp : 0 < ∏ k ∈ Finset.range d, ‖z - u k‖ := Finset.prod_pos fun k hk => norm_pos_iff.2 (sub_ne_zero.2 (h k (Finset.mem_range.1 hk)))
  refine ContinuousAt.div (by fun_prop) (ContinuousAt.rpow_const (by fun_prop) (Or.inl hp.ne')) (Real.rpow_pos_of_pos hp _).ne'

/-- the curve dependent part is bounded on the lines `Im t = ± r` -/
theorem line_bound_exists {m d i j : Nat} {u : Nat → ℂ} {l r ρ : ℝ} (hl : 0 < l) (hl2 : l ≤ Real.pi / 2) (hr : 0 ≤ r) (hrρ : r < ρ) (hρ : ρ ≤ Real.pi / 2)
    (hne : FreeStrip l ρ d u) (hpm : ∀ k < d, u k ≠ 1 ∧ u k ≠ -1) :
    ∃ S : ℝ, 0 ≤ S ∧ ∀ x y : ℝ, |y| = r → edgeSize m d i j u (deZ l (x + y * Complex.I)) ≤ S := by
  obtain ⟨δ, C, hδ, hC0, hC⟩ := deSize_bounded m d i j hpm
  obtain ⟨X1, hX1⟩ := deMap_near hl hr (by linarith : r < Real.pi / 2) hδ
  have hcont : ∀ y : ℝ, |y| = r → ∃ B : ℝ, ∀ x ∈ Icc (-X1) X1, edgeSize m d i j u (deZ l (x + y * Complex.I)) ≤ B := by
    intro y hy
    have hco : Continuous fun x : ℝ => edgeSize m d i j u (deZ l (x + y * Complex.I)) := by
      rw [continuous_iff_continuousAt]
      intro x
      have hin : (x : ℂ) + y * Complex.I ∈ openStrip ρ := mem_openStrip (by rw [hy]; exact hrρ)
      have h1 : ContinuousAt (edgeSize m d i j u) (deZ l (x + y * Complex.I)) := deSize_continuousAt fun k hk => hne k hk _ hin
      have h2 : ContinuousAt (deMap l) (x + y * Complex.I) :=
        ((deMap_differentiable hl hl2 hρ).differentiableAt ((isOpen_openStrip ρ).mem_nhds hin)).continuousAt
      have h3 : ContinuousAt (fun x : ℝ => deZ l (x + y * Complex.I)) x := ContinuousAt.comp (f := fun x : ℝ => (x : ℂ) + y * Complex.I) h2 (by fun_prop)
      exact ContinuousAt.comp (f := fun x : ℝ => deZ l (x + y * Complex.I)) h1 h3
    obtain ⟨B, hB⟩ := (isCompact_Icc (a := -X1) (b := X1)).bddAbove_image hco.continuousOn
    exact ⟨B, fun x hx => hB ⟨x, hx, rfl⟩⟩
  obtain ⟨B1, hB1⟩ := hcont r (abs_of_nonneg hr)
  obtain ⟨B2, hB2⟩ := hcont (-r) (by rw [abs_neg, abs_of_nonneg hr])
  refine ⟨max C (max B1 B2), hC0.trans (le_max_left _ _), fun x y hy => ?_⟩
  rcases le_total X1 |x| with h | h
  · exact (hC _ (hX1 x y h hy.le)).trans (le_max_left _ _)
  · have hx : x ∈ Icc (-X1) X1 := abs_le.1 h
    rcases eq_or_eq_neg_of_abs_eq hy with rfl | rfl
    · exact (hB1 x hx).trans ((le_max_left _ _).trans (le_max_right _ _))
    · exact (hB2 x hx).trans ((le_max_right _ _).trans (le_max_right _ _))

/-- a free strip avoids the open path -/
theorem freeStrip_path {l ρ : ℝ} (hl : 0 < l) (hρ : 0 < ρ) {d : Nat} {u : Nat → ℂ} (hne : FreeStrip l ρ d u) : ∀ k < d, ∀ x : ℝ, x ∈ Ioo (-1 : ℝ) 1 → (x : ℂ) ≠ u k := by
  intro k hk x hx
  rw [← dePhi_image hl.ne'] at hx
  obtain ⟨y, -, rfl⟩ := hx
  rw [← deMap_real]
  exact hne k hk y (by simpa using hρ)

/-- the curve dependent part is bounded on the path -/
theorem path_bound_exists {m d i j : Nat} {u : Nat → ℂ} {l ρ : ℝ} (hl : 0 < l) (hρ : 0 < ρ) (hne : FreeStrip l ρ d u) (hpm : ∀ k < d, u k ≠ 1 ∧ u k ≠ -1) :
    ∃ M : ℝ, 0 ≤ M ∧ ∀ x : ℝ, -1 < x → x < 1 → edgeSize m d i j u x ≤ M := by
  have hne' : ∀ k < d, ∀ x : ℝ, x ∈ Icc (-1 : ℝ) 1 → (x : ℂ) ≠ u k := by
    intro k hk x hx
    rcases eq_or_lt_of_le hx.1 with h | h
    · rw [← h]
      push_cast
      exact (hpm k hk).2.symm
    rcases eq_or_lt_of_le hx.2 with h' | h'
    · rw [h']
      push_cast
      exact (hpm k hk).1.symm
    exact freeStrip_path hl hρ hne k hk x ⟨h, h'⟩
  have hco : ContinuousOn (fun x : ℝ => edgeSize m d i j u x) (Icc (-1) 1) := by
    intro x hx
    have h1 : ContinuousAt (edgeSize m d i j u) (x : ℂ) := deSize_continuousAt fun k hk => hne' k hk x hx
    exact (ContinuousAt.comp (f := fun x : ℝ => (x : ℂ)) h1 (by fun_prop)).continuousWithinAt
  obtain ⟨B, hB⟩ := isCompact_Icc.bddAbove_image hco
  exact ⟨max 0 B, le_max_left _ _, fun x h1 h2 => (hB ⟨x, ⟨h1.le, h2.le⟩, rfl⟩).trans (le_max_right _ _)⟩

/-- the slope condition -/
theorem slope_ok {l r : ℝ} (hl : 0 < l) (hr : 0 < r) (hr2 : r < Real.pi / 2) (h : Real.pi * Real.sin r ≤ 2 * l) (hl2 : l ≤ Real.pi / 2) :
    Real.sin r * Real.sin (2 * (l * Real.sin r)) ≤ 2 * l * Real.cos r ^ 2 := by
  have hs : 0 < Real.sin r := Real.sin_pos_of_pos_of_lt_pi hr (by linarith [Real.pi_pos])
  have hs1 := Real.sin_le_one r
  have h1 : Real.sin (2 * (l * Real.sin r)) ≤ Real.pi - 2 * (l * Real.sin r) := by
    rw [← Real.sin_pi_sub]
    apply Real.sin_le
    nlinarith
  have h2 := mul_le_mul_of_nonneg_left h1 hs.le
  have h3 := Real.sin_sq_add_cos_sq r
  nlinarith

/-- the bound of the integral of the weight on the lines `Im t = ± r` in terms of `y0 = l sin r` and `xr = cos r sqrt (pi / (2 y0) - 1)` -/
theorem line_const {l a r y : ℝ} (hl1 : 1 ≤ l) (hl2 : l ≤ Real.pi / 2) (ha : 0 < a) (hr : 0 < r) (hr2 : r < Real.pi / 2) (hsl : Real.pi * Real.sin r ≤ 2 * l) (hy : |y| = r) :
    ∫ x : ℝ, deWeight l a (x + y * Complex.I) ≤
      2 / Real.cos r * (Real.cos r * Real.sqrt (Real.pi / 2 / (l * Real.sin r) - 1) * Real.cos (l * Real.sin r) ^ (-(2 * a)) +
        Real.sinh (Real.cos r * Real.sqrt (Real.pi / 2 / (l * Real.sin r) - 1)) ^ (-(2 * a)) / (2 * a)) := by
  have hl : 0 < l := by linarith
  have hsin : 0 < Real.sin r := Real.sin_pos_of_pos_of_lt_pi hr (by linarith [Real.pi_pos])
  have hcos : 0 < Real.cos r := Real.cos_pos_of_mem_Ioo ⟨by linarith, hr2⟩
  have hs1 : Real.sin r < 1 := by
    have := Real.sin_sq_add_cos_sq r
    nlinarith
  have hy0 : 0 < l * Real.sin r := mul_pos hl hsin
  have hy1 : l * Real.sin r < Real.pi / 2 := by nlinarith
  have hq : 0 < Real.pi / 2 / (l * Real.sin r) - 1 := by
    rw [sub_pos, one_lt_div hy0]
    exact hy1
  set s := Real.sqrt (Real.pi / 2 / (l * Real.sin r) - 1) with hs
  have hs0 : 0 < s := Real.sqrt_pos.2 hq
  have hs2 : s ^ 2 = Real.pi / 2 / (l * Real.sin r) - 1 := Real.sq_sqrt hq.le
  have hT : 0 < Real.arsinh (s / l) := Real.arsinh_pos_iff.2 (by positivity)
  have hx : l * Real.sin r * Real.cosh (Real.arsinh (s / l)) ≤ Real.pi / 2 := by
    apply le_of_sq_le_sq _ (by positivity)
    rw [mul_pow, Real.cosh_sq, Real.sinh_arsinh, div_pow]
    have h1 : s ^ 2 / l ^ 2 ≤ s ^ 2 := div_le_self (sq_nonneg s) (by nlinarith)
    have h2 : (l * Real.sin r) ^ 2 * (s ^ 2 + 1) = (l * Real.sin r) * (Real.pi / 2) := by
      rw [hs2]
      field_simp
      ring
    calc (l * Real.sin r) ^ 2 * (s ^ 2 / l ^ 2 + 1) ≤ (l * Real.sin r) ^ 2 * (s ^ 2 + 1) := by gcongr
      _ = _ := h2
      _ ≤ _ := by nlinarith [Real.pi_pos]
  have := deWeight_line hl hl2 ha hr hr2 hy (slope_ok hl hr hr2 hsl hl2) hT hx
  rw [Real.sinh_arsinh] at this
  refine this.trans (le_of_eq ?_)
  have e1 : l * (s / l) = s := by field_simp
  have e2 : l * Real.cos r * (s / l) = Real.cos r * s := by field_simp
  rw [e1, e2]
  field_simp

/-- the weight of a real node -/
theorem deTerm_norm {m n1 d : Nat} (i j : Nat) {u : Nat → ℂ} {l ρ : ℝ} (hl : 0 < l) (hl2 : l ≤ Real.pi / 2) (hρ0 : 0 < ρ) (hρ : ρ ≤ Real.pi / 2) (h1 : n1 ≤ d) (hm : 0 < m)
    (hne : FreeStrip l ρ d u) (hpm : ∀ k < d, u k ≠ 1 ∧ u k ≠ -1) (x : ℝ) :
    ‖deTerm m n1 d u l i j x‖ = deWeight l (1 - j / m) x * edgeSize m d i j u (dePhi l x) := by
  obtain ⟨F, -, h2, h3⟩ := de_extends i j hl hl2 hρ0 hρ h1 hm hne hpm
  rw [← h2, h3 _ (by simpa [openStrip] using hρ0), deMap_real]
  rfl

/-- **the error**, for any bound `B` of the integrals on the two lines -/
theorem de_err_of {m n1 d i j : Nat} (hm : 0 < m) (hj : j < m) (h1 : n1 ≤ d) {u : Nat → ℂ} {l r ρ h B M : ℝ} (hl : 0 < l) (hl2 : l ≤ Real.pi / 2)
    (hr : 0 < r) (hrρ : r < ρ) (hρ : ρ ≤ Real.pi / 2) (hne : FreeStrip l ρ d u) (hpm : ∀ k < d, u k ≠ 1 ∧ u k ≠ -1) (hh : 0 < h)
    (hB : ∀ y, |y| = r → ∫ x : ℝ, deWeight l (1 - j / m) (x + y * Complex.I) * edgeSize m d i j u (deZ l (x + y * Complex.I)) ≤ B) :
    Summable (fun k : ℤ => deTerm m n1 d u l i j (k * h)) ∧
    ‖h * ∑' k : ℤ, deTerm m n1 d u l i j (k * h) - edgeIntegral m n1 d u i j‖ ≤ 2 * B / (Real.exp (2 * Real.pi * r / h) - 1) ∧
    (∀ N : Nat, 0 < N → 0 ≤ M → (∀ x : ℝ, -1 < x → x < 1 → edgeSize m d i j u x ≤ M) →
      (1 / 2 ≤ 2 * (1 - j / m) * l ∨ 1 ≤ 2 * (1 - j / m) * l * Real.sinh ((N - 1 : ℕ) * h)) →
      ‖trapSum m n1 d u l i j h N - edgeIntegral m n1 d u i j‖ ≤ 2 * B / (Real.exp (2 * Real.pi * r / h) - 1) +
        M * 2 ^ (2 * (1 - j / m : ℝ)) / (1 - j / m) * Real.exp (-(2 * (1 - j / m) * l * Real.sinh ((N - 1 : ℕ) * h)))) := by
  have ha : 0 < (1 - j / m : ℝ) := by
    rw [sub_pos, div_lt_one (by exact_mod_cast hm)]
    exact_mod_cast hj
  obtain ⟨F, f1, f2, f3⟩ := de_extends i j hl hl2 (hr.trans hrρ) hρ h1 hm hne hpm
  have hdec := de_decay hm hj hl hr.le hrρ hρ hpm f3
  have hN : ∀ y, |y| = r → ∫ x : ℝ, ‖F (x + y * Complex.I)‖ ≤ B := by
    intro y hy
    refine le_trans (le_of_eq ?_) (hB y hy)
    congr 1
    ext x
    exact f3 _ (mem_openStrip (by rw [hy]; exact hrρ))
  obtain ⟨s1, s2⟩ := trapezoid f1 hr hrρ hdec hN hh
  simp only [f2] at s1 s2
  have e : ∫ x : ℝ, deTerm m n1 d u l i j x = edgeIntegral m n1 d u i j := (de_integral m n1 d i j u hl).symm
  rw [e] at s2
  refine ⟨s1, s2, fun N hN hM hMb hc => ?_⟩
  have ht := de_tail (F := fun x => deTerm m n1 d u l i j x) hl ha hh hM hN (fun x => by
    rw [deTerm_norm i j hl hl2 (hr.trans hrρ) hρ h1 hm hne hpm, mul_comm]
    exact mul_le_mul_of_nonneg_right (hMb _ (dePhi_mem l x).1 (dePhi_mem l x).2) (deWeight_nonneg hl.le _ _)) s1 hc
  unfold trapSum
  calc _ = ‖(h * ∑ k ∈ Finset.Ioo (-(N : ℤ)) N, deTerm m n1 d u l i j (k * h) - h * ∑' k : ℤ, deTerm m n1 d u l i j (k * h)) +
        (h * ∑' k : ℤ, deTerm m n1 d u l i j (k * h) - edgeIntegral m n1 d u i j)‖ := by congr 1; ring
    _ ≤ _ := norm_add_le _ _
    _ ≤ _ := by rw [add_comm]; exact add_le_add s2 ht

/-- integral on a line from a bound of the curve dependent part -/
theorem line_integral_le {m d i j : Nat} (hm : 0 < m) (hj : j < m) {u : Nat → ℂ} {l r S y : ℝ} (hl : 0 < l) (hl2 : l ≤ Real.pi / 2) (hr2 : r < Real.pi / 2)
    (hS : ∀ x y : ℝ, |y| = r → edgeSize m d i j u (deZ l (x + y * Complex.I)) ≤ S) (hy : |y| = r) :
    ∫ x : ℝ, deWeight l (1 - j / m) (x + y * Complex.I) * edgeSize m d i j u (deZ l (x + y * Complex.I)) ≤ S * ∫ x : ℝ, deWeight l (1 - j / m) (x + y * Complex.I) := by
  have ha : 0 < (1 - j / m : ℝ) := by
    rw [sub_pos, div_lt_one (by exact_mod_cast hm)]
    exact_mod_cast hj
  rw [← integral_const_mul]
  refine integral_mono_of_nonneg (Eventually.of_forall fun x => ?_) ((deWeight_integrable hl hl2 ha (by rw [hy]; exact hr2)).const_mul S) (Eventually.of_forall fun x => ?_)
  · refine mul_nonneg (deWeight_nonneg hl.le _ _) ?_
    unfold edgeSize
    positivity
  · simp only
    rw [mul_comm]
    exact mul_le_mul_of_nonneg_right (hS x y hy) (deWeight_nonneg hl.le _ _)

end Hcp
