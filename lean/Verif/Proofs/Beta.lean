import Mathlib.Analysis.SpecialFunctions.Gamma.Beta
import Mathlib.Analysis.SpecialFunctions.Gamma.Basic

/-! # The integral of `(1 - u^2)^(s-1)` -/

namespace Hcp

open Complex

theorem integral_one_sub_sq {s : ℝ} (hs : 0 < s) :
    ∫ u in (-1 : ℝ)..1, ((1 - u ^ 2 : ℝ) : ℂ) ^ ((s : ℂ) - 1) =
      (Real.sqrt Real.pi : ℂ) * Complex.Gamma s / Complex.Gamma (s + 1 / 2) := by
  have h1 : ∫ x in (0 : ℝ)..1, ((1 - (2 * x - 1) ^ 2 : ℝ) : ℂ) ^ ((s : ℂ) - 1) =
      (2 : ℝ)⁻¹ • ∫ u in (-1 : ℝ)..1, ((1 - u ^ 2 : ℝ) : ℂ) ^ ((s : ℂ) - 1) := by
    have := intervalIntegral.integral_comp_mul_sub (fun u : ℝ => ((1 - u ^ 2 : ℝ) : ℂ) ^ ((s : ℂ) - 1))
      (a := 0) (b := 1) (c := 2) two_ne_zero 1
    rw [this]
    norm_num
  have h2 : ∫ x in (0 : ℝ)..1, ((1 - (2 * x - 1) ^ 2 : ℝ) : ℂ) ^ ((s : ℂ) - 1) =
      (4 : ℂ) ^ ((s : ℂ) - 1) * Complex.betaIntegral s s := by
    unfold Complex.betaIntegral
    rw [← intervalIntegral.integral_const_mul]
    apply intervalIntegral.integral_congr
    intro x hx
    rw [Set.uIcc_of_le zero_le_one] at hx
    simp only
    rw [show (1 - (2 * x - 1) ^ 2 : ℝ) = 4 * (x * (1 - x)) by ring, Complex.ofReal_mul,
      Complex.mul_cpow_ofReal_nonneg (by norm_num) (mul_nonneg hx.1 (by linarith [hx.2])), Complex.ofReal_mul,
      Complex.mul_cpow_ofReal_nonneg hx.1 (by linarith [hx.2])]
    push_cast
    ring
  have h3 := Complex.Gamma_mul_Gamma_eq_betaIntegral (s := s) (t := s) (by simpa using hs) (by simpa using hs)
  have h4 := Complex.Gamma_mul_Gamma_add_half (s : ℂ)
  have hg1 : Complex.Gamma ((s : ℂ) + 1 / 2) ≠ 0 :=
    Complex.Gamma_ne_zero_of_re_pos (by simp; linarith)
  have hg2 : Complex.Gamma ((s : ℂ) + s) ≠ 0 := Complex.Gamma_ne_zero_of_re_pos (by simp; linarith)
  have hg3 : Complex.Gamma (s : ℂ) ≠ 0 := Complex.Gamma_ne_zero_of_re_pos (by simpa using hs)
  have h5 : (4 : ℂ) ^ ((s : ℂ) - 1) * 2 * (2 : ℂ) ^ (1 - 2 * (s : ℂ)) = 1 := by
    rw [show (4 : ℂ) = (2 : ℂ) ^ (2 : ℕ) by norm_num, ← Complex.cpow_nat_mul' (by simp; positivity) (by simp; linarith [Real.pi_pos])]
    nth_rewrite 2 [show (2 : ℂ) = (2 : ℂ) ^ (1 : ℂ) by simp]
    rw [← Complex.cpow_add _ _ two_ne_zero, ← Complex.cpow_add _ _ two_ne_zero]
    rw [show ((2 : ℕ) : ℂ) * ((s : ℂ) - 1) + 1 + (1 - 2 * (s : ℂ)) = 0 by push_cast; ring, Complex.cpow_zero]
  have h6 : ∫ u in (-1 : ℝ)..1, ((1 - u ^ 2 : ℝ) : ℂ) ^ ((s : ℂ) - 1) =
      2 * ((4 : ℂ) ^ ((s : ℂ) - 1) * Complex.betaIntegral s s) := by
    rw [← h2, h1, Complex.real_smul]
    push_cast
    ring
  rw [h6, eq_div_iff hg1]
  apply mul_left_cancel₀ hg3
  rw [show (s : ℂ) + s = 2 * s by ring] at h3 hg2
  have h7 : Complex.Gamma s * (2 * ((4 : ℂ) ^ ((s : ℂ) - 1) * Complex.betaIntegral s s) * Complex.Gamma (s + 1 / 2)) =
      2 * (4 : ℂ) ^ ((s : ℂ) - 1) * Complex.betaIntegral s s * (Complex.Gamma s * Complex.Gamma (s + 1 / 2)) := by ring
  rw [h7, h4]
  linear_combination (-(2 : ℂ) * (4 : ℂ) ^ ((s : ℂ) - 1) * (2 : ℂ) ^ (1 - 2 * (s : ℂ)) * (Real.sqrt Real.pi : ℂ)) * h3 +
    (Complex.Gamma s * Complex.Gamma s * (Real.sqrt Real.pi : ℂ)) * h5

end Hcp
