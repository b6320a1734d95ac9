import Mathlib.Analysis.SpecialFunctions.JapaneseBracket
import Verif.Proofs.PowPlane

/-!
# The differentials `p(z) dz / ∏ (z - x_k)^κ` in the plane cut along the horizontal half lines to the left of the points

The points `x_k` are sorted by imaginary part, their real parts are distinct; principal powers, `0 < κ < 1`.
-/

namespace Hcp.Cut
open Complex Set MeasureTheory Filter Topology
open HalfPlane (absf)

/-- a polynomial -/
noncomputable def cpol {g : Nat} (a : Fin g → ℂ) (z : ℂ) : ℂ := ∑ i, a i * z ^ i.val

/-- the principal branch of `∏ (z - x_k)^κ` -/
noncomputable def rt (κ : ℝ) (n : Nat) (x : Nat → ℂ) (z : ℂ) : ℂ := ∏ k ∈ Finset.range n, (z - x k) ^ (κ : ℂ)

/-- the differential -/
noncomputable def om (κ : ℝ) (n : Nat) (x : Nat → ℂ) {g : Nat} (a : Fin g → ℂ) (z : ℂ) : ℂ := cpol a z / rt κ n x z

section
variable {κ : ℝ} {n g : Nat} {x : Nat → ℂ} {a : Fin g → ℂ}

theorem norm_cpol_le {z : ℂ} {R : ℝ} (h : ‖z‖ ≤ R) : ‖cpol a z‖ ≤ ∑ i, ‖a i‖ * R ^ i.val := by
  unfold cpol
  refine (norm_sum_le _ _).trans (Finset.sum_le_sum fun i _ => ?_)
  rw [norm_mul, norm_pow]
  gcongr

theorem norm_rt (_ : 0 < κ) (z : ℂ) : ‖rt κ n x z‖ = (∏ k ∈ Finset.range n, ‖z - x k‖) ^ κ := by
  unfold rt
  rw [norm_prod, ← Real.finsetProd_rpow _ _ fun k _ => norm_nonneg _]
  exact Finset.prod_congr rfl fun k _ => by rw [norm_cpow_real]

theorem rt_ne (hκ : 0 < κ) {z : ℂ} (h : ∀ k < n, z ≠ x k) : rt κ n x z ≠ 0 := by
  rw [← norm_pos_iff, norm_rt hκ]
  exact Real.rpow_pos_of_pos (Finset.prod_pos fun k hk => norm_pos_iff.2 (sub_ne_zero.2 (h k (Finset.mem_range.1 hk)))) _

/-- not on a cut -/
def Off (n : Nat) (x : Nat → ℂ) (z : ℂ) : Prop := ∀ k < n, z.im ≠ (x k).im ∨ (x k).re < z.re

theorem differentiableAt_cpol (z : ℂ) : DifferentiableAt ℂ (cpol a) z := by
  unfold cpol
  fun_prop

theorem differentiableAt_om (hκ : 0 < κ) {z : ℂ} (h : Off n x z) : DifferentiableAt ℂ (om κ n x a) z := by
  have h1 : DifferentiableAt ℂ (rt κ n x) z := by
    unfold rt
    refine DifferentiableAt.fun_finsetProd fun k hk => ?_
    refine DifferentiableAt.cpow (by fun_prop) (by fun_prop) ?_
    rw [mem_slitPlane_iff, sub_re, sub_im]
    rcases h k (Finset.mem_range.1 hk) with h | h
    · exact Or.inr (sub_ne_zero.2 h)
    · exact Or.inl (by linarith)
  refine (differentiableAt_cpol z).div h1 (rt_ne hκ fun k hk e => ?_)
  rcases h k hk with h | h
  · exact h (by rw [e])
  · rw [e] at h; exact lt_irrefl _ h

/-- near the points -/
theorem om_le (hκ : 0 < κ) {R t s : ℝ} (hz : ‖(t : ℂ) + s * I‖ ≤ R) (hne : ∀ k < n, t ≠ (x k).re) : ‖om κ n x a (t + s * I)‖ ≤ (∑ i, ‖a i‖ * R ^ i.val) * (1 / absf n (fun k => (x k).re) t ^ κ) := by
  have hp : 0 < absf n (fun k => (x k).re) t := Finset.prod_pos fun k hk => abs_pos.2 (sub_ne_zero.2 (hne k (Finset.mem_range.1 hk)))
  have e1 := norm_cpol_le (a := a) hz
  have e2 : absf n (fun k => (x k).re) t ^ κ ≤ ‖rt κ n x (t + s * I)‖ := by
    rw [norm_rt hκ]
    refine Real.rpow_le_rpow hp.le (Finset.prod_le_prod (fun k _ => abs_nonneg _) fun k _ => ?_) hκ.le
    have := abs_re_le_norm (t + s * I - x k)
    simpa using this
  have hs := Real.rpow_pos_of_pos hp κ
  unfold om
  rw [norm_div, mul_one_div]
  exact div_le_div₀ ((norm_nonneg _).trans e1) e1 hs e2

/-- far away the differential is small -/
theorem om_far (hκ : 0 < κ) {μ : ℝ} (hng : (g : ℝ) + μ ≤ κ * n) (hμ : 0 < μ) : ∃ C, 0 ≤ C ∧ ∀ R z, 1 ≤ R → (∀ k < n, 2 * ‖x k‖ ≤ R) → R ≤ ‖z‖ → ‖om κ n x a z‖ ≤ C / (R * R ^ μ) := by
  refine ⟨(∑ i, ‖a i‖) * (2 ^ n) ^ κ, by positivity, fun R z hR hξ hz => ?_⟩
  have hR0 : 0 < R := by linarith
  have hz0 : 0 < ‖z‖ := by linarith
  rcases Nat.eq_zero_or_pos g with rfl | hg
  · have : om κ n x a z = 0 := by unfold om cpol; simp
    rw [this]
    simp
  have e1 : ‖cpol a z‖ ≤ (∑ i, ‖a i‖) * ‖z‖ ^ (g - 1) := by
    refine (norm_cpol_le le_rfl).trans ?_
    rw [Finset.sum_mul]
    refine Finset.sum_le_sum fun i _ => ?_
    have := i.isLt
    gcongr
    · linarith
    · omega
  have e2 : ((‖z‖ / 2) ^ n) ^ κ ≤ ‖rt κ n x z‖ := by
    rw [norm_rt hκ]
    refine Real.rpow_le_rpow (by positivity) ?_ hκ.le
    rw [← Finset.card_range n, ← Finset.prod_const, Finset.card_range]
    refine Finset.prod_le_prod (fun k _ => by positivity) fun k hk => ?_
    have h1 := norm_sub_norm_le z (x k)
    have := hξ k (Finset.mem_range.1 hk)
    linarith
  have e3 : 0 < ((‖z‖ / 2) ^ n) ^ κ := by positivity
  unfold om
  rw [norm_div]
  calc ‖cpol a z‖ / ‖rt κ n x z‖ ≤ (∑ i, ‖a i‖) * ‖z‖ ^ (g - 1) / ((‖z‖ / 2) ^ n) ^ κ := div_le_div₀ (by positivity) e1 e3 e2
    _ = (∑ i, ‖a i‖) * (2 ^ n) ^ κ * (‖z‖ ^ (g - 1) / (‖z‖ ^ n) ^ κ) := by
      rw [div_pow, Real.div_rpow (by positivity) (by positivity)]
      field_simp
    _ ≤ (∑ i, ‖a i‖) * (2 ^ n) ^ κ * (1 / (R * R ^ μ)) := by
      gcongr ?_ * ?_
      rw [div_le_div_iff₀ (by positivity) (by positivity), one_mul]
      have e4 : ‖z‖ ^ (g - 1) * (‖z‖ * ‖z‖ ^ μ) ≤ (‖z‖ ^ n) ^ κ := by
        rw [← mul_assoc, ← pow_succ, Nat.sub_add_cancel hg, ← Real.rpow_natCast, ← Real.rpow_natCast, ← Real.rpow_mul hz0.le, ← Real.rpow_add hz0]
        exact Real.rpow_le_rpow_of_exponent_le (by linarith) (by linarith)
      refine le_trans ?_ e4
      gcongr
    _ = _ := by rw [mul_one_div]

theorem exists_radius (n : Nat) (x : Nat → ℂ) : ∃ R0 : ℝ, 1 ≤ R0 ∧ ∀ k < n, 2 * ‖x k‖ ≤ R0 := by
  refine ⟨1 + ∑ k ∈ Finset.range n, 2 * ‖x k‖, by have : 0 ≤ ∑ k ∈ Finset.range n, 2 * ‖x k‖ := by positivity
                                                  linarith, fun k hk => ?_⟩
  have := Finset.single_le_sum (f := fun k => 2 * ‖x k‖) (fun i _ => by positivity) (Finset.mem_range.2 hk)
  linarith

/-- **one integrable bound on all horizontal lines** -/
theorem exists_dom (hκ : 0 < κ) (hκ1 : κ < 1) (hx : InjOn (fun k => (x k).re) (Iio n)) (hn : 0 < n) {μ : ℝ} (hng : (g : ℝ) + μ ≤ κ * n) (hμ : 0 < μ) :
    ∃ H : ℝ → ℝ, Integrable H ∧ (∀ t, 0 ≤ H t) ∧ ∀ t s : ℝ, (∀ k < n, t ≠ (x k).re) → ‖om κ n x a (t + s * I)‖ ≤ H t := by
  obtain ⟨C, hC, hfar⟩ := om_far (x := x) (a := a) hκ hng hμ
  obtain ⟨R0, h1, hR0⟩ := exists_radius n x
  set ξ : Nat → ℝ := fun k => (x k).re with hξ
  set B : ℝ := ∑ i, ‖a i‖ * (2 * R0) ^ i.val with hB
  have hB0 : 0 ≤ B := by positivity
  set C1 : ℝ := C / (2 * R0 * (2 * R0) ^ μ) with hC1
  have hC10 : 0 ≤ C1 := by positivity
  set H1 : ℝ → ℝ := fun t => B * (1 / absf n ξ t ^ κ) + C1 with hH1
  have hab : ∀ t, 0 ≤ 1 / absf n ξ t ^ κ := fun t => div_nonneg zero_le_one (Real.rpow_nonneg (Finset.prod_nonneg fun k _ => abs_nonneg _) _)
  have hH10 : ∀ t, 0 ≤ H1 t := fun t => add_nonneg (mul_nonneg hB0 (hab t)) hC10
  set H2 : ℝ → ℝ := fun t => C * 2 ^ (1 + μ) * (1 + ‖t‖) ^ (-(1 + μ)) with hH2
  have hH20 : ∀ t, 0 ≤ H2 t := fun t => by positivity
  refine ⟨fun t => indicator (Icc (-R0) R0) H1 t + H2 t, Integrable.add ?_ ?_, fun t => add_nonneg (indicator_nonneg (fun t _ => hH10 t) t) (hH20 t), fun t s hne => ?_⟩
  · rw [integrable_indicator_iff measurableSet_Icc]
    have : IntervalIntegrable H1 volume (-R0) R0 := ((PowPlane.absf_integrable hκ hκ1 hx hn (-R0) R0).const_mul B).add intervalIntegrable_const
    rwa [intervalIntegrable_iff_integrableOn_Icc_of_le (by linarith)] at this
  · refine Integrable.const_mul ?_ _
    exact integrable_one_add_norm (E := ℝ) (μ := volume) (r := 1 + μ) (by simpa using hμ)
  · beta_reduce
    by_cases ht : t ∈ Icc (-R0) R0
    · have h2 := hH20 t
      rw [indicator_of_mem ht]
      simp only [hH1]
      by_cases hz : ‖(t : ℂ) + s * I‖ ≤ 2 * R0
      · have := om_le (a := a) hκ hz hne
        linarith
      · push Not at hz
        have := hfar (2 * R0) _ (by linarith) (fun k hk => (hR0 k hk).trans (by linarith)) hz.le
        have h4 := mul_nonneg hB0 (hab t)
        linarith
    · have hta : R0 ≤ |t| := by
        by_contra hc
        push Not at hc
        exact ht (abs_le.1 hc.le)
      rw [indicator_of_notMem ht, zero_add]
      have hzt : |t| ≤ ‖(t : ℂ) + s * I‖ := by simpa using abs_re_le_norm ((t : ℂ) + s * I)
      have h3 := hfar |t| _ (by linarith) (fun k hk => (hR0 k hk).trans hta) hzt
      refine h3.trans ?_
      have ht0 : 0 < |t| := by linarith
      simp only [hH2, Real.norm_eq_abs]
      rw [← Real.rpow_one_add' ht0.le (by linarith), Real.rpow_neg (by positivity), ← div_eq_mul_inv, mul_div_assoc, ← Real.div_rpow (by norm_num) (by positivity), div_eq_mul_inv, ← Real.inv_rpow ht0.le]
      refine mul_le_mul_of_nonneg_left (Real.rpow_le_rpow (by positivity) ?_ (by linarith)) hC
      rw [inv_eq_one_div, div_le_div_iff₀ ht0 (by positivity)]
      linarith

/-- the differential tends to 0 at infinity -/
theorem om_small (hκ : 0 < κ) {μ : ℝ} (hng : (g : ℝ) + μ ≤ κ * n) (hμ : 0 < μ) {ε : ℝ} (hε : 0 < ε) : ∃ R, ∀ z, R ≤ ‖z‖ → ‖om κ n x a z‖ ≤ ε := by
  obtain ⟨C, hC, hfar⟩ := om_far (x := x) (a := a) hκ hng hμ
  obtain ⟨R0, h1, hR0⟩ := exists_radius n x
  refine ⟨max R0 (C / ε), fun z hz => ?_⟩
  have hz1 := (le_max_left _ _).trans hz
  have hz2 := (le_max_right _ _).trans hz
  have hz0 : 1 ≤ ‖z‖ := h1.trans hz1
  refine (hfar ‖z‖ z hz0 (fun k hk => (hR0 k hk).trans hz1) le_rfl).trans ?_
  have h2 : 1 ≤ ‖z‖ ^ μ := Real.one_le_rpow hz0 hμ.le
  rw [div_le_iff₀ (by positivity)]
  rw [div_le_iff₀ hε] at hz2
  nlinarith [mul_nonneg hε.le (by linarith : (0 : ℝ) ≤ ‖z‖)]

end

end Hcp.Cut
