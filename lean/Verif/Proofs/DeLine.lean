import Verif.Proofs.DeStrip
import Mathlib.Analysis.Convex.SpecificFunctions.Deriv
import Mathlib.MeasureTheory.Integral.IntegralEqImproper

/-!
# Integral of the weight on the border of the strip
-/

namespace Hcp

open MeasureTheory Set Filter Topology

theorem sin_sum_le {y c : ℝ} (hy : 0 ≤ y) (hc : 1 ≤ c) (h : y * (c + 1) ≤ Real.pi) : Real.sin (y * (c + 1)) ≤ (c + 1) / 2 * Real.sin (2 * y) := by
  have hcc := strictConcaveOn_sin_Icc.concaveOn
  have h1 : y * (c + 1) ∈ Icc 0 Real.pi := ⟨by positivity, h⟩
  have h0 : (0 : ℝ) ∈ Icc 0 Real.pi := ⟨le_rfl, Real.pi_pos.le⟩
  have hθ : 0 ≤ 2 / (c + 1) := by positivity
  have hθ1 : 0 ≤ 1 - 2 / (c + 1) := by
    rw [sub_nonneg, div_le_one (by linarith)]
    linarith
  have := hcc.2 h1 h0 hθ hθ1 (by ring)
  simp only [smul_eq_mul, Real.sin_zero, mul_zero, add_zero] at this
  have hne : c + 1 ≠ 0 := by linarith
  rw [show 2 / (c + 1) * (y * (c + 1)) = 2 * y by field_simp] at this
  calc Real.sin (y * (c + 1)) = (c + 1) / 2 * (2 / (c + 1) * Real.sin (y * (c + 1))) := by field_simp
    _ ≤ _ := by gcongr

/-- near the origin the pole is the nearest singularity: `|cosh (λ sinh (x + i r))| ≥ cos (λ sin r)` -/
theorem de_cosh_ge {l r x : ℝ} (hl : 0 < l) (hr : 0 < r) (hr2 : r < Real.pi / 2)
    (hs : Real.sin r * Real.sin (2 * (l * Real.sin r)) ≤ 2 * l * Real.cos r ^ 2) (hx : l * Real.sin r * Real.cosh x ≤ Real.pi / 2) :
    Real.cos (l * Real.sin r) ≤ ‖Complex.cosh (l * Complex.sinh (x + r * Complex.I))‖ := by
  have hsin : 0 < Real.sin r := Real.sin_pos_of_pos_of_lt_pi hr (by linarith [Real.pi_pos])
  have hcos : 0 < Real.cos r := Real.cos_pos_of_mem_Ioo ⟨by linarith, hr2⟩
  set y := l * Real.sin r with hy
  have hy0 : 0 < y := mul_pos hl hsin
  have hc1 := Real.one_le_cosh x
  set c := Real.cosh x with hc
  have hyle : y ≤ Real.pi / 2 := le_trans (by nlinarith) hx
  refine abs_le_of_sq_le_sq' ?_ (norm_nonneg _) |>.2
  rw [de_arg, cosh_norm_sq, ← hy, ← hc]
  have e1 : Real.cos y ^ 2 - Real.cos (y * c) ^ 2 = Real.sin (y * c - y) * Real.sin (y * (c + 1)) := by
    rw [show y * (c + 1) = y * c + y by ring, Real.sin_sub, Real.sin_add]
    have h1 := Real.sin_sq_add_cos_sq y
    have h2 := Real.sin_sq_add_cos_sq (y * c)
    have h3 : Real.sin y ^ 2 = 1 - Real.cos y ^ 2 := by linarith
    have h4 : Real.sin (y * c) ^ 2 = 1 - Real.cos (y * c) ^ 2 := by linarith
    calc _ = (1 - Real.cos (y * c) ^ 2) * Real.cos y ^ 2 - Real.cos (y * c) ^ 2 * (1 - Real.cos y ^ 2) := by ring
      _ = Real.sin (y * c) ^ 2 * Real.cos y ^ 2 - Real.cos (y * c) ^ 2 * Real.sin y ^ 2 := by rw [h3, h4]
      _ = _ := by ring
  have hsum : y * (c + 1) ≤ Real.pi := by nlinarith
  have b1 : Real.sin (y * c - y) ≤ y * (c - 1) := (Real.sin_le (by nlinarith)).trans (by linarith)
  have b2 := sin_sum_le hy0.le hc1 hsum
  have b2' : 0 ≤ Real.sin (y * (c + 1)) := Real.sin_nonneg_of_nonneg_of_le_pi (by positivity) hsum
  have b3 : Real.sin (y * c - y) * Real.sin (y * (c + 1)) ≤ y * (c - 1) * ((c + 1) / 2 * Real.sin (2 * y)) :=
    mul_le_mul b1 b2 b2' (mul_nonneg hy0.le (by linarith))
  have hsh : Real.sinh x ^ 2 = c ^ 2 - 1 := by rw [hc, Real.cosh_sq]; ring
  have b4 : y * Real.sin (2 * y) ≤ 2 * (l * Real.cos r) ^ 2 := by
    have := mul_le_mul_of_nonneg_left hs hl.le
    rw [hy] at *
    nlinarith
  have b5 : (l * Real.cos r * Real.sinh x) ^ 2 ≤ Real.sinh (l * Real.cos r * Real.sinh x) ^ 2 := by
    rw [← sq_abs, ← sq_abs (Real.sinh _), Real.abs_sinh]
    have := Real.self_le_sinh_iff.2 (abs_nonneg (l * Real.cos r * Real.sinh x))
    gcongr
  have b6 : y * (c - 1) * ((c + 1) / 2 * Real.sin (2 * y)) ≤ (l * Real.cos r * Real.sinh x) ^ 2 := by
    rw [mul_pow, hsh]
    have : 0 ≤ c ^ 2 - 1 := by nlinarith
    nlinarith
  linarith

/-- primitive used beyond the split point -/
theorem hasDerivAt_tail {κ a x : ℝ} (ha : a ≠ 0) (hx : 0 < Real.sinh (κ * Real.sinh x)) :
    HasDerivAt (fun x => -(2 * a)⁻¹ * Real.sinh (κ * Real.sinh x) ^ (-(2 * a))) (κ * Real.cosh x * Real.cosh (κ * Real.sinh x) * Real.sinh (κ * Real.sinh x) ^ (-(2 * a) - 1)) x := by
  have h1 : HasDerivAt (fun x => Real.sinh (κ * Real.sinh x)) (Real.cosh (κ * Real.sinh x) * (κ * Real.cosh x)) x := ((Real.hasDerivAt_sinh x).const_mul κ).sinh
  have h2 := (h1.rpow_const (p := -(2 * a)) (Or.inl hx.ne')).const_mul (-(2 * a)⁻¹)
  convert! h2 using 1
  field_simp

theorem tendsto_sinh_atTop' : Tendsto Real.sinh atTop atTop := by
  refine tendsto_atTop_mono' _ ?_ tendsto_id
  filter_upwards [eventually_ge_atTop 0] with x hx
  exact Real.self_le_sinh_iff.2 hx

theorem integral_tail {κ a T : ℝ} (hκ : 0 < κ) (ha : 0 < a) (hT : 0 < T) :
    IntegrableOn (fun x => κ * Real.cosh x * Real.cosh (κ * Real.sinh x) * Real.sinh (κ * Real.sinh x) ^ (-(2 * a) - 1)) (Ioi T) ∧
      ∫ x in Ioi T, κ * Real.cosh x * Real.cosh (κ * Real.sinh x) * Real.sinh (κ * Real.sinh x) ^ (-(2 * a) - 1) = (2 * a)⁻¹ * Real.sinh (κ * Real.sinh T) ^ (-(2 * a)) := by
  have hpos : ∀ x, 0 < x → 0 < Real.sinh (κ * Real.sinh x) := fun x hx => Real.sinh_pos_iff.2 (mul_pos hκ (Real.sinh_pos_iff.2 hx))
  have hlim : Tendsto (fun x => -(2 * a)⁻¹ * Real.sinh (κ * Real.sinh x) ^ (-(2 * a))) atTop (𝓝 0) := by
    have h1 : Tendsto (fun x => Real.sinh (κ * Real.sinh x)) atTop atTop :=
      tendsto_sinh_atTop'.comp (tendsto_sinh_atTop'.const_mul_atTop hκ)
    have h2 := (tendsto_rpow_neg_atTop (y := 2 * a) (by positivity)).comp h1
    simpa using h2.const_mul (-(2 * a)⁻¹)
  have hd : ∀ x ∈ Ioi T, HasDerivAt (fun x => -(2 * a)⁻¹ * Real.sinh (κ * Real.sinh x) ^ (-(2 * a))) (κ * Real.cosh x * Real.cosh (κ * Real.sinh x) * Real.sinh (κ * Real.sinh x) ^ (-(2 * a) - 1)) x :=
    fun x hx => hasDerivAt_tail ha.ne' (hpos x (hT.trans hx))
  have hc : ContinuousWithinAt (fun x => -(2 * a)⁻¹ * Real.sinh (κ * Real.sinh x) ^ (-(2 * a))) (Ici T) T :=
    (hasDerivAt_tail ha.ne' (hpos T hT)).continuousAt.continuousWithinAt
  have hnn : ∀ x ∈ Ioi T, 0 ≤ κ * Real.cosh x * Real.cosh (κ * Real.sinh x) * Real.sinh (κ * Real.sinh x) ^ (-(2 * a) - 1) := by
    intro x hx
    have := hpos x (hT.trans hx)
    have := Real.cosh_pos x
    have := Real.cosh_pos (κ * Real.sinh x)
    positivity
  refine ⟨integrableOn_Ioi_deriv_of_nonneg hc hd hnn hlim, ?_⟩
  rw [integral_Ioi_of_hasDerivAt_of_nonneg hc hd hnn hlim]
  ring

/-- integral of the weight on the line at height `± r`, cut at `± T` -/
theorem deWeight_line {l a r T y : ℝ} (hl : 0 < l) (hl2 : l ≤ Real.pi / 2) (ha : 0 < a) (hr : 0 < r) (hr2 : r < Real.pi / 2) (hy : |y| = r)
    (hs : Real.sin r * Real.sin (2 * (l * Real.sin r)) ≤ 2 * l * Real.cos r ^ 2) (hT : 0 < T) (hx : l * Real.sin r * Real.cosh T ≤ Real.pi / 2) :
    ∫ x : ℝ, deWeight l a (x + y * Complex.I) ≤
      2 * (l * Real.sinh T * Real.cos (l * Real.sin r) ^ (-(2 * a)) + (2 * a * Real.cos r)⁻¹ * Real.sinh (l * Real.cos r * Real.sinh T) ^ (-(2 * a))) := by
  have hsin : 0 < Real.sin r := Real.sin_pos_of_pos_of_lt_pi hr (by linarith [Real.pi_pos])
  have hcos : 0 < Real.cos r := Real.cos_pos_of_mem_Ioo ⟨by linarith, hr2⟩
  have hint := deWeight_integrable (y := y) hl hl2 ha (by rw [hy]; exact hr2)
  have hκ : 0 < l * Real.cos r := mul_pos hl hcos
  have hY : l * Real.sin r < Real.pi / 2 := by
    refine lt_of_lt_of_le ?_ hx
    have : 1 < Real.cosh T := Real.one_lt_cosh.2 hT.ne'
    nlinarith [mul_pos hl hsin]
  have hcY : 0 < Real.cos (l * Real.sin r) := Real.cos_pos_of_mem_Ioo ⟨by have := mul_pos hl hsin; linarith, hY⟩
  have e0 : ∀ x : ℝ, deWeight l a (x + y * Complex.I) = (fun s : ℝ => deWeight l a (s + r * Complex.I)) |x| := by
    intro x
    rw [deWeight_abs, hy]
  have hint' : Integrable fun x : ℝ => deWeight l a (x + r * Complex.I) := deWeight_integrable hl hl2 ha (by rw [abs_of_pos hr]; exact hr2)
  rw [integral_congr_ae (Eventually.of_forall e0), integral_comp_abs (f := fun s : ℝ => deWeight l a (s + r * Complex.I))]
  refine mul_le_mul_of_nonneg_left ?_ (by norm_num)
  have hsplit : ∫ x in Ioi (0 : ℝ), deWeight l a (x + r * Complex.I) =
      (∫ x in Ioc 0 T, deWeight l a (x + r * Complex.I)) + ∫ x in Ioi T, deWeight l a (x + r * Complex.I) := by
    rw [← setIntegral_union (Set.Ioc_disjoint_Ioi le_rfl) measurableSet_Ioi hint'.integrableOn hint'.integrableOn, Ioc_union_Ioi_eq_Ioi hT.le]
  rw [hsplit]
  refine add_le_add ?_ ?_
  · have hb : ∀ x ∈ Ioc 0 T, deWeight l a (x + r * Complex.I) ≤ l * Real.cos (l * Real.sin r) ^ (-(2 * a)) * Real.cosh x := by
      intro x hx'
      unfold deWeight
      have h1 := de_cosh_ge hl hr hr2 hs (x := x) (by
        refine le_trans ?_ hx
        have : Real.cosh x ≤ Real.cosh T := Real.cosh_le_cosh.2 (by rw [abs_of_pos hx'.1, abs_of_pos hT]; exact hx'.2)
        have := mul_pos hl hsin
        gcongr)
      calc _ ≤ l * Real.cosh x * Real.cos (l * Real.sin r) ^ (-(2 * a)) := by
            have := Real.cosh_pos x
            exact mul_le_mul (mul_le_mul_of_nonneg_left (cosh_norm_le x r) hl.le) (Real.rpow_le_rpow_of_nonpos hcY h1 (by linarith)) (by positivity) (by positivity)
        _ = _ := by ring
    have h2 : IntegrableOn (fun x => l * Real.cos (l * Real.sin r) ^ (-(2 * a)) * Real.cosh x) (Ioc 0 T) :=
      (continuous_const.mul Real.continuous_cosh).integrableOn_Ioc
    refine (setIntegral_mono_on hint'.integrableOn h2 measurableSet_Ioc hb).trans (le_of_eq ?_)
    rw [← intervalIntegral.integral_of_le hT.le, intervalIntegral.integral_const_mul]
    have : ∫ x in (0 : ℝ)..T, Real.cosh x = Real.sinh T - Real.sinh 0 :=
      intervalIntegral.integral_eq_sub_of_hasDerivAt (fun x _ => Real.hasDerivAt_sinh x) (Real.continuous_cosh.intervalIntegrable _ _)
    rw [this, Real.sinh_zero]
    ring
  · obtain ⟨h1, h2⟩ := integral_tail hκ ha hT
    have hb : ∀ x ∈ Ioi T, deWeight l a (x + r * Complex.I) ≤
        (Real.cos r)⁻¹ * (l * Real.cos r * Real.cosh x * Real.cosh (l * Real.cos r * Real.sinh x) * Real.sinh (l * Real.cos r * Real.sinh x) ^ (-(2 * a) - 1)) := by
      intro x hx'
      have hx0 : 0 < x := hT.trans hx'
      have hp : 0 < Real.sinh (l * Real.cos r * Real.sinh x) := Real.sinh_pos_iff.2 (mul_pos hκ (Real.sinh_pos_iff.2 hx0))
      unfold deWeight
      have h3 : Real.sinh (l * Real.cos r * Real.sinh x) ≤ ‖Complex.cosh (l * Complex.sinh (x + r * Complex.I))‖ := by
        rw [de_arg]
        exact (le_abs_self _).trans (cosh_norm_ge _ _)
      have h4 : Real.sinh (l * Real.cos r * Real.sinh x) ≤ Real.cosh (l * Real.cos r * Real.sinh x) := (Real.sinh_lt_cosh _).le
      calc _ ≤ l * Real.cosh x * Real.sinh (l * Real.cos r * Real.sinh x) ^ (-(2 * a)) := by
            have := Real.cosh_pos x
            exact mul_le_mul (mul_le_mul_of_nonneg_left (cosh_norm_le x r) hl.le) (Real.rpow_le_rpow_of_nonpos hp h3 (by linarith)) (by positivity) (by positivity)
        _ = l * Real.cosh x * (Real.sinh (l * Real.cos r * Real.sinh x) * Real.sinh (l * Real.cos r * Real.sinh x) ^ (-(2 * a) - 1)) := by
            rw [Real.rpow_sub_one hp.ne']
            field_simp
        _ ≤ l * Real.cosh x * (Real.cosh (l * Real.cos r * Real.sinh x) * Real.sinh (l * Real.cos r * Real.sinh x) ^ (-(2 * a) - 1)) := by
            have := Real.cosh_pos x
            gcongr
        _ = _ := by field_simp
    refine (setIntegral_mono_on hint'.integrableOn (h1.const_mul _) measurableSet_Ioi hb).trans (le_of_eq ?_)
    rw [integral_const_mul, h2, mul_inv]
    ring

end Hcp
