import Verif.Spec.Meet
import Verif.Spec.Segment
import Mathlib.Analysis.InnerProductSpace.Basic
import Mathlib.Analysis.SpecialFunctions.Complex.Log
import Mathlib.Analysis.SpecialFunctions.Pow.Complex
import Mathlib.Analysis.SpecialFunctions.Trigonometric.Complex
import Mathlib.Analysis.SpecialFunctions.Trigonometric.DerivHyp
import Mathlib.Tactic.LinearCombination

/-!
# When two segments can cross
-/

namespace Hcp
open Spec

theorem norm_sq_reim (z : ℂ) : ‖z‖ ^ 2 = z.re ^ 2 + z.im ^ 2 := by
  rw [Complex.sq_norm, Complex.normSq_apply]; ring

/-- four points, each outside the circle on the other segment as diameter: the segments do not cross -/
theorem thales_cross {a b c d : ℂ} {s t : ℝ} (hs1 : -1 < s) (hs2 : s < 1) (ht1 : -1 < t) (ht2 : t < 1) (e : edgePt a b s = edgePt c d t)
    (hc : ‖b - a‖ < ‖2 * c - a - b‖) (hd : ‖b - a‖ < ‖2 * d - a - b‖) (ha : ‖d - c‖ < ‖2 * a - c - d‖) (hb : ‖d - c‖ < ‖2 * b - c - d‖) : False := by
  have sq : ∀ {u v : ℂ}, ‖u‖ < ‖v‖ → u.re ^ 2 + u.im ^ 2 < v.re ^ 2 + v.im ^ 2 := by
    intro u v h
    rw [← norm_sq_reim, ← norm_sq_reim]
    exact pow_lt_pow_left₀ h (norm_nonneg _) two_ne_zero
  have h1 := sq hc
  have h2 := sq hd
  have h3 := sq ha
  have h4 := sq hb
  have er := congrArg Complex.re e
  have ei := congrArg Complex.im e
  unfold edgePt at er ei
  simp only [Complex.add_re, Complex.add_im, Complex.sub_re, Complex.sub_im, Complex.mul_re, Complex.mul_im, Complex.div_ofNat_re, Complex.div_ofNat_im,
    Complex.ofReal_re, Complex.ofReal_im, Complex.re_ofNat, Complex.im_ofNat, zero_mul, sub_zero, add_zero] at er ei h1 h2 h3 h4
  obtain ⟨ux, hux⟩ : ∃ u, b.re = a.re + 2 * u := ⟨(b.re - a.re) / 2, by ring⟩
  obtain ⟨uy, huy⟩ : ∃ u, b.im = a.im + 2 * u := ⟨(b.im - a.im) / 2, by ring⟩
  obtain ⟨vx, hvx⟩ : ∃ u, d.re = c.re + 2 * u := ⟨(d.re - c.re) / 2, by ring⟩
  obtain ⟨vy, hvy⟩ : ∃ u, d.im = c.im + 2 * u := ⟨(d.im - c.im) / 2, by ring⟩
  rw [hux, hvx] at er
  rw [huy, hvy] at ei
  have ex : c.re = a.re + (1 + s) * ux - (1 + t) * vx := by linear_combination -er
  have ey : c.im = a.im + (1 + s) * uy - (1 + t) * vy := by linear_combination -ei
  rw [hux, huy, ex, ey] at h1
  rw [hux, huy, hvx, hvy, ex, ey] at h2
  rw [hvx, hvy, ex, ey] at h3
  rw [hux, huy, hvx, hvy, ex, ey] at h4
  nlinarith [mul_pos (by linarith : 0 < 1 - t) (sub_pos.2 h1), mul_pos (by linarith : 0 < 1 + t) (sub_pos.2 h2),
    mul_pos (by linarith : 0 < 1 - s) (sub_pos.2 h3), mul_pos (by linarith : 0 < 1 + s) (sub_pos.2 h4)]

theorem ellipse_outside {a b c : ℂ} (h : Real.sqrt 2 < ellipseParam a b c) : ‖b - a‖ < ‖2 * c - a - b‖ := by
  unfold ellipseParam at h
  have hb : 0 < ‖b - a‖ := by
    rcases (norm_nonneg (b - a)).eq_or_lt with h0 | h0
    · rw [← h0, div_zero] at h
      exact absurd h (not_lt.2 (Real.sqrt_nonneg _))
    · exact h0
  rw [lt_div_iff₀ hb] at h
  have h2 : 2 * ‖b - a‖ ^ 2 < (‖c - a‖ + ‖c - b‖) ^ 2 := by
    have := pow_lt_pow_left₀ h (by positivity) two_ne_zero
    rwa [mul_pow, Real.sq_sqrt (by norm_num)] at this
  refine lt_of_pow_lt_pow_left₀ 2 (norm_nonneg _) ?_
  have h3 : (‖c - a‖ + ‖c - b‖) ^ 2 ≤ 2 * (‖c - a‖ ^ 2 + ‖c - b‖ ^ 2) := by nlinarith [sq_nonneg (‖c - a‖ - ‖c - b‖)]
  have h4 : 2 * (‖c - a‖ ^ 2 + ‖c - b‖ ^ 2) = ‖2 * c - a - b‖ ^ 2 + ‖b - a‖ ^ 2 := by
    simp only [norm_sq_reim, Complex.sub_re, Complex.sub_im, Complex.mul_re, Complex.mul_im, Complex.re_ofNat, Complex.im_ofNat]
    ring
  linarith

/-- `|Im atanh z| ≤ π/4` in the unit disc -/
theorem catanh_im_le {z : ℂ} (hz : ‖z‖ ≤ 1) : |(catanh z).im| ≤ Real.pi / 4 := by
  have him : (catanh z).im = ((1 + z).arg - (1 - z).arg) / 2 := by
    unfold catanh
    rw [show (2 : ℂ) = ((2 : ℝ) : ℂ) by norm_num, Complex.div_ofReal_im, Complex.sub_im, Complex.log_im, Complex.log_im]
  have hre := Complex.abs_re_le_norm z
  have r1 : 0 ≤ (1 + z).re := by have := (abs_le.1 (hre.trans hz)).1; simp; linarith
  have r2 : 0 ≤ (1 - z).re := by have := (abs_le.1 (hre.trans hz)).2; simp; linarith
  have a1 := abs_le.1 (Complex.abs_arg_le_pi_div_two_iff.2 r1)
  have a2 := abs_le.1 (Complex.abs_arg_le_pi_div_two_iff.2 r2)
  have hsq : z.re ^ 2 + z.im ^ 2 ≤ 1 := by rw [← norm_sq_reim]; exact pow_le_one₀ (norm_nonneg _) hz
  by_cases n1 : 1 + z = 0
  · rw [him, n1, Complex.arg_zero, zero_sub, neg_div, abs_neg, abs_le]
    constructor <;> linarith
  by_cases n2 : 1 - z = 0
  · rw [him, n2, Complex.arg_zero, sub_zero, abs_le]
    constructor <;> linarith
  have hcos : 0 ≤ Real.cos ((1 + z).arg - (1 - z).arg) := by
    rw [Real.cos_sub, Complex.cos_arg n1, Complex.cos_arg n2, Complex.sin_arg, Complex.sin_arg, div_mul_div_comm, div_mul_div_comm, ← add_div]
    refine div_nonneg ?_ (by positivity)
    simp only [Complex.add_re, Complex.add_im, Complex.sub_re, Complex.sub_im, Complex.one_re, Complex.one_im]
    nlinarith
  rw [him, abs_div, abs_two, div_le_iff₀ (by norm_num)]
  by_contra hcon
  push Not at hcon
  have : Real.cos |(1 + z).arg - (1 - z).arg| < 0 := Real.cos_neg_of_pi_div_two_lt_of_lt (by linarith)
    (by rw [abs_lt]; constructor <;> linarith [Real.pi_pos])
  rw [Real.cos_abs] at this
  linarith

/-- `sinh (asinh w) = w`, and `cosh (asinh w)` is the principal root of `w^2 + 1` -/
theorem casinh_spec (w : ℂ) : Complex.sinh (casinh w) = w ∧ 0 ≤ (Complex.cosh (casinh w)).re := by
  set q := (w ^ 2 + 1) ^ ((2 : ℂ)⁻¹) with hq
  have hq2 : q ^ 2 = w ^ 2 + 1 := by
    have := Complex.cpow_nat_inv_pow (w ^ 2 + 1) two_ne_zero
    rw [hq]
    exact_mod_cast this
  have hv : w + q ≠ 0 := by
    intro h
    have : q = -w := by linear_combination h
    rw [this] at hq2
    exact one_ne_zero (by linear_combination -hq2 : (1 : ℂ) = 0)
  have he : Complex.exp (casinh w) = w + q := by unfold casinh; rw [← hq, Complex.exp_log hv]
  have hi : (w + q)⁻¹ = q - w := by
    rw [inv_eq_iff_eq_inv, eq_comm, inv_eq_of_mul_eq_one_left]
    linear_combination hq2
  constructor
  · rw [Complex.sinh, Complex.exp_neg, he, hi]
    ring
  · rw [Complex.cosh, Complex.exp_neg, he, hi, show (w + q + (q - w)) / 2 = q by ring, hq]
    by_cases h0 : w ^ 2 + 1 = 0
    · rw [h0, Complex.zero_cpow (by norm_num)]; simp
    rw [Complex.cpow_def_of_ne_zero h0, Complex.exp_re]
    refine mul_nonneg (Real.exp_nonneg _) (Real.cos_nonneg_of_mem_Icc ?_)
    have : (Complex.log (w ^ 2 + 1) * 2⁻¹).im = (w ^ 2 + 1).arg / 2 := by
      rw [← Complex.log_im, ← div_eq_mul_inv, Complex.div_ofNat_im]
    rw [this]
    have := abs_le.1 (Complex.abs_arg_le_pi (w ^ 2 + 1))
    constructor <;> linarith

/-- `|sin (Im asinh w)| ≤ |Im w|` -/
theorem casinh_sin_le (w : ℂ) : |Real.sin (casinh w).im| ≤ |w.im| := by
  have him : w.im = Real.cosh (casinh w).re * Real.sin (casinh w).im := by
    conv_lhs => rw [← (casinh_spec w).1, ← Complex.re_add_im (casinh w), Complex.sinh_add, Complex.sinh_mul_I, Complex.cosh_mul_I]
    rw [← Complex.ofReal_sinh, ← Complex.ofReal_cosh, ← Complex.ofReal_sin, ← Complex.ofReal_cos]
    simp [-Complex.ofReal_sinh, -Complex.ofReal_cosh, -Complex.ofReal_sin, -Complex.ofReal_cos]
  rw [him, abs_mul, abs_of_pos (Real.cosh_pos _)]
  exact le_mul_of_one_le_left (abs_nonneg _) (Real.one_le_cosh _)

/-- `|Im asinh w| ≤ π/2` -/
theorem casinh_im_le (w : ℂ) : |(casinh w).im| ≤ Real.pi / 2 := by
  have hle : |(casinh w).im| ≤ Real.pi := by
    unfold casinh
    rw [Complex.log_im]
    exact Complex.abs_arg_le_pi _
  have hre : (Complex.cosh (casinh w)).re = Real.cosh (casinh w).re * Real.cos (casinh w).im := by
    conv_lhs => rw [← Complex.re_add_im (casinh w), Complex.cosh_add, Complex.sinh_mul_I, Complex.cosh_mul_I]
    rw [← Complex.ofReal_sinh, ← Complex.ofReal_cosh, ← Complex.ofReal_sin, ← Complex.ofReal_cos]
    simp [-Complex.ofReal_sinh, -Complex.ofReal_cosh, -Complex.ofReal_sin, -Complex.ofReal_cos]
  have h := (casinh_spec w).2
  rw [hre] at h
  by_contra hcon
  push Not at hcon
  have : Real.cos |(casinh w).im| < 0 := Real.cos_neg_of_pi_div_two_lt_of_lt hcon (by linarith [Real.pi_pos])
  rw [Real.cos_abs] at this
  exact absurd (mul_neg_of_pos_of_neg (Real.cosh_pos (casinh w).re) this) (not_lt.2 h)

theorem strip_outside {a b c : ℂ} (hab : a ≠ b) (h : Real.pi / 6 < stripParam (Real.pi / 2) a b c) : ‖b - a‖ < ‖2 * c - a - b‖ := by
  have hb : 0 < ‖b - a‖ := norm_pos_iff.2 (sub_ne_zero.2 hab.symm)
  by_contra hcon
  push Not at hcon
  have hz : ‖(2 * c - a - b) / (b - a)‖ ≤ 1 := by rw [norm_div, div_le_one hb]; exact hcon
  have h1 := catanh_im_le hz
  unfold stripParam at h
  set w := catanh ((2 * c - a - b) / (b - a)) / ((Real.pi / 2 : ℝ) : ℂ) with hw
  have h2 : |w.im| ≤ 1 / 2 := by
    rw [hw, Complex.div_ofReal_im, abs_div, abs_of_pos (by positivity : 0 < Real.pi / 2), div_le_iff₀ (by positivity)]
    linarith
  have h3 := casinh_im_le w
  have h4 : Real.sin (Real.pi / 6) < Real.sin |(casinh w).im| :=
    Real.strictMonoOn_sin ⟨by linarith [Real.pi_pos], by linarith [Real.pi_pos]⟩ ⟨by linarith [Real.pi_pos, abs_nonneg (casinh w).im], h3⟩ h
  rw [Real.sin_pi_div_six] at h4
  have h5 := casinh_sin_le w
  have h6 : Real.sin |(casinh w).im| ≤ |Real.sin (casinh w).im| := by
    rcases abs_choice (casinh w).im with e | e <;> rw [e]
    · exact le_abs_self _
    · rw [Real.sin_neg]; exact neg_le_abs _
  linarith

end Hcp
