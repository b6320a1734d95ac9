import Verif.Proofs.DeIntegrand

/-!
# The height of the principal preimage is the smallest one
-/

namespace Hcp

open Spec

/-- the principal inverse hyperbolic tangent has the smallest imaginary part in absolute value, and the common real part -/
theorem catanh_min {w u : ℂ} (hu1 : u ≠ 1) (hu2 : u ≠ -1) (hc : Complex.cosh w ≠ 0) (h : Complex.tanh w = u) :
    (catanh u).re = w.re ∧ |(catanh u).im| ≤ |w.im| := by
  have n1 : 1 + u ≠ 0 := fun h => hu2 (by linear_combination h)
  have n2 : 1 - u ≠ 0 := fun h => hu1 (by linear_combination -h)
  have him : (catanh u).im = ((1 + u).arg - (1 - u).arg) / 2 := by
    unfold catanh
    rw [show (2 : ℂ) = ((2 : ℝ) : ℂ) by norm_num, Complex.div_ofReal_im, Complex.sub_im, Complex.log_im, Complex.log_im]
  have hexp : Complex.exp (2 * catanh u) = Complex.exp (2 * w) := by
    have e1 : 2 * catanh u = Complex.log (1 + u) - Complex.log (1 - u) := by unfold catanh; ring
    rw [e1, Complex.exp_sub, Complex.exp_log n1, Complex.exp_log n2, div_eq_iff n2]
    rw [Complex.tanh_eq_sinh_div_cosh, div_eq_iff hc] at h
    have e2 : Complex.exp w * (1 - u) = Complex.exp (-w) * (1 + u) := by
      rw [← Complex.cosh_add_sinh w, ← Complex.cosh_sub_sinh w]
      linear_combination 2 * h
    rw [two_mul, Complex.exp_add, mul_assoc, e2, ← mul_assoc, ← Complex.exp_add, add_neg_cancel, Complex.exp_zero, one_mul]
  obtain ⟨k, hk⟩ := Complex.exp_eq_exp_iff_exists_int.1 hexp
  have hk' : catanh u = w + ((k * Real.pi : ℝ) : ℂ) * Complex.I := by
    push_cast
    linear_combination hk / 2
  have hre : (catanh u).re = w.re := by rw [hk']; simp
  have hi : (catanh u).im = w.im + k * Real.pi := by rw [hk']; simp
  refine ⟨hre, ?_⟩
  have hbound : |(catanh u).im| ≤ Real.pi / 2 := by
    have a1 := Complex.neg_pi_lt_arg (1 + u)
    have a2 := Complex.arg_le_pi (1 + u)
    have b1 := Complex.neg_pi_lt_arg (1 - u)
    have b2 := Complex.arg_le_pi (1 - u)
    set θ := (1 + u).arg with hθ
    set η := (1 - u).arg with hη
    have p1 : 0 < ‖1 + u‖ := norm_pos_iff.2 n1
    have p2 : 0 < ‖1 - u‖ := norm_pos_iff.2 n2
    have s1 : ‖1 + u‖ * Real.sin θ = u.im := by
      rw [Complex.norm_mul_sin_arg]
      simp
    have s2 : ‖1 - u‖ * Real.sin η = -u.im := by
      rw [Complex.norm_mul_sin_arg]
      simp
    have c1 : ‖1 + u‖ * Real.cos θ = 1 + u.re := by
      rw [Complex.norm_mul_cos_arg]
      simp
    have c2 : ‖1 - u‖ * Real.cos η = 1 - u.re := by
      rw [Complex.norm_mul_cos_arg]
      simp
    have hsd : ‖1 + u‖ * ‖1 - u‖ * Real.sin (θ - η) = 2 * u.im := by
      rw [Real.sin_sub]
      linear_combination (‖1 - u‖ * Real.cos η) * s1 - (‖1 + u‖ * Real.cos θ) * s2 + u.im * c2 + u.im * c1
    have hpp : 0 < ‖1 + u‖ * ‖1 - u‖ := mul_pos p1 p2
    rw [him, abs_le]
    rcases lt_trichotomy u.im 0 with h0 | h0 | h0
    · have hs : Real.sin (θ - η) < 0 := by nlinarith
      have t1 : Real.sin θ < 0 := by nlinarith
      have t2 : 0 < Real.sin η := by nlinarith
      have u1 : θ < 0 := by
        by_contra hc
        exact absurd (Real.sin_nonneg_of_nonneg_of_le_pi (not_lt.1 hc) a2) (not_le.2 t1)
      have u2 : 0 < η := by
        by_contra hc
        exact absurd (Real.sin_nonpos_of_nonpos_of_neg_pi_le (not_lt.1 hc) b1.le) (not_le.2 t2)
      have : -Real.pi ≤ θ - η := by
        by_contra hc
        have : 0 < Real.sin (θ - η + 2 * Real.pi) := Real.sin_pos_of_pos_of_lt_pi (by linarith) (by linarith)
        rw [Real.sin_add_two_pi] at this
        linarith
      constructor <;> linarith
    · have hr : ∀ x : ℂ, x.im = 0 → 0 ≤ x.arg ∧ (x.arg = 0 ∨ x.arg = Real.pi) := by
        intro x hx
        have : x = ((x.re : ℝ) : ℂ) := Complex.ext rfl (by simp [hx])
        rw [this]
        rcases le_or_gt 0 x.re with h | h
        · rw [Complex.arg_ofReal_of_nonneg h]; simp
        · rw [Complex.arg_ofReal_of_neg h]; exact ⟨Real.pi_pos.le, Or.inr rfl⟩
      have r1 := hr (1 + u) (by simp [h0])
      have r2 := hr (1 - u) (by simp [h0])
      constructor <;> linarith [r1.1, r2.1]
    · have hs : 0 < Real.sin (θ - η) := by
        by_contra hc
        nlinarith
      have t1 : 0 < Real.sin θ := by
        by_contra hc
        nlinarith
      have t2 : Real.sin η < 0 := by
        by_contra hc
        nlinarith
      have u1 : 0 < θ := by
        by_contra hc
        exact absurd (Real.sin_nonpos_of_nonpos_of_neg_pi_le (not_lt.1 hc) a1.le) (not_le.2 t1)
      have u2 : η < 0 := by
        by_contra hc
        exact absurd (Real.sin_nonneg_of_nonneg_of_le_pi (not_lt.1 hc) b2) (not_le.2 t2)
      have : θ - η ≤ Real.pi := by
        by_contra hc
        have : Real.sin (θ - η - 2 * Real.pi) < 0 := Real.sin_neg_of_neg_of_neg_pi_lt (by linarith) (by linarith)
        rw [Real.sin_sub_two_pi] at this
        linarith
      constructor <;> linarith
  by_cases hk0 : k = 0
  · rw [hi, hk0]; simp
  · have h1 : (1 : ℝ) ≤ |(k : ℝ)| := by exact_mod_cast Int.one_le_abs hk0
    have h2 : |(k : ℝ) * Real.pi| ≤ |(catanh u).im| + |w.im| := by
      calc |(k : ℝ) * Real.pi| = |(catanh u).im - w.im| := by rw [hi]; congr 1; ring
        _ ≤ _ := abs_sub _ _
    rw [abs_mul, abs_of_pos Real.pi_pos] at h2
    nlinarith [Real.pi_pos]

theorem sinh_casinh (v : ℂ) : Complex.sinh (casinh v) = v ∧ |(casinh v).im| ≤ Real.pi / 2 := by
  set q := (v ^ 2 + 1) ^ ((2 : ℂ)⁻¹) with hq
  have hq2 : q ^ 2 = v ^ 2 + 1 := by
    have := Complex.cpow_nat_inv_pow (v ^ 2 + 1) two_ne_zero
    rw [hq]
    exact_mod_cast this
  have hv : v + q ≠ 0 := by
    intro h
    have : q = -v := by linear_combination h
    rw [this] at hq2
    have : (1 : ℂ) = 0 := by linear_combination -hq2
    exact one_ne_zero this
  have he : Complex.exp (casinh v) = v + q := by unfold casinh; rw [← hq, Complex.exp_log hv]
  have he' : Complex.exp (-casinh v) = q - v := by
    rw [Complex.exp_neg, he]
    apply inv_eq_of_mul_eq_one_right
    linear_combination hq2
  have hcosh : Complex.cosh (casinh v) = q := by
    rw [Complex.cosh, he, he']; ring
  refine ⟨by rw [Complex.sinh, he, he']; ring, ?_⟩
  have hqre : 0 ≤ q.re := by
    rcases eq_or_ne (v ^ 2 + 1) 0 with h | h
    · rw [hq, h, Complex.zero_cpow (by norm_num)]
      simp
    · have h1 := Complex.abs_arg_le_pi (v ^ 2 + 1)
      rw [hq, Complex.cpow_def_of_ne_zero h]
      have e : Complex.log (v ^ 2 + 1) * (2 : ℂ)⁻¹ = ((Real.log ‖v ^ 2 + 1‖ / 2 : ℝ) : ℂ) + (((v ^ 2 + 1).arg / 2 : ℝ) : ℂ) * Complex.I := by
        rw [Complex.log]
        push_cast
        ring
      rw [e, Complex.exp_re]
      have := abs_le.1 h1
      have : 0 ≤ Real.cos ((v ^ 2 + 1).arg / 2) := Real.cos_nonneg_of_neg_pi_div_two_le_of_le (by linarith) (by linarith)
      simp only [Complex.add_re, Complex.ofReal_re, Complex.mul_re, Complex.I_re, mul_zero, Complex.ofReal_im, Complex.I_im, mul_one, sub_self, add_zero,
        Complex.add_im, Complex.mul_im, zero_add]
      positivity
  rw [← hcosh, ← Complex.re_add_im (casinh v), Complex.cosh_add, Complex.cosh_mul_I, Complex.sinh_mul_I] at hqre
  have e : (Complex.cosh (casinh v).re * Complex.cos (casinh v).im + Complex.sinh (casinh v).re * (Complex.sin (casinh v).im * Complex.I)).re =
      Real.cosh (casinh v).re * Real.cos (casinh v).im := by
    rw [← Complex.ofReal_cosh, ← Complex.ofReal_cos, ← Complex.ofReal_sinh, ← Complex.ofReal_sin]
    simp only [Complex.add_re, Complex.mul_re, Complex.mul_im, Complex.ofReal_re, Complex.ofReal_im, Complex.I_re, Complex.I_im]
    ring
  rw [e] at hqre
  have hcos : 0 ≤ Real.cos (casinh v).im := nonneg_of_mul_nonneg_right hqre (Real.cosh_pos _)
  have hb : |(casinh v).im| ≤ Real.pi := by unfold casinh; rw [Complex.log_im]; exact Complex.abs_arg_le_pi _
  by_contra hc
  rw [not_le] at hc
  have : Real.cos |(casinh v).im| < 0 := Real.cos_neg_of_pi_div_two_lt_of_lt hc (by linarith [Real.pi_pos])
  rw [Real.cos_abs] at this
  linarith

theorem sinh_parts (p q : ℝ) : (Complex.sinh (p + q * Complex.I)).re = Real.sinh p * Real.cos q ∧
    (Complex.sinh (p + q * Complex.I)).im = Real.cosh p * Real.sin q := by
  rw [Complex.sinh_add, Complex.sinh_mul_I, Complex.cosh_mul_I, ← Complex.ofReal_sinh, ← Complex.ofReal_cosh, ← Complex.ofReal_sin, ← Complex.ofReal_cos]
  constructor <;> simp only [Complex.add_re, Complex.add_im, Complex.mul_re, Complex.mul_im, Complex.ofReal_re, Complex.ofReal_im, Complex.I_re, Complex.I_im] <;> ring

/-- heights of preimages under `sinh` grow with the imaginary part -/
theorem asinh_height {p q p' q' : ℝ} (hq : |q| < Real.pi / 2) (hq' : |q'| ≤ Real.pi / 2) (h1 : Real.sinh p' * Real.cos q' = Real.sinh p * Real.cos q)
    (h2 : |Real.cosh p' * Real.sin q'| ≤ |Real.cosh p * Real.sin q|) : |q'| ≤ |q| := by
  by_contra hc
  rw [not_le] at hc
  have hcq : 0 < Real.cos q := Real.cos_pos_of_mem_Ioo (abs_lt.1 hq)
  have hcos : Real.cos q' < Real.cos q := by
    rw [← Real.cos_abs q, ← Real.cos_abs q']
    exact Real.cos_lt_cos_of_nonneg_of_le_pi_div_two (abs_nonneg _) hq' hc
  have hcq' : 0 ≤ Real.cos q' := Real.cos_nonneg_of_neg_pi_div_two_le_of_le (abs_le.1 hq').1 (abs_le.1 hq').2
  have hsin : |Real.sin q| < |Real.sin q'| := by
    have e : ∀ x : ℝ, |x| ≤ Real.pi / 2 → |Real.sin x| = Real.sin |x| := by
      intro x hx
      rcases abs_choice x with h | h
      · rw [h, abs_of_nonneg (Real.sin_nonneg_of_nonneg_of_le_pi (by rw [← h]; exact abs_nonneg x) (by rw [← h]; linarith [Real.pi_pos]))]
      · rw [h, Real.sin_neg, abs_of_nonpos]
        have : 0 ≤ Real.sin (-x) := Real.sin_nonneg_of_nonneg_of_le_pi (by rw [← h]; exact abs_nonneg x) (by rw [← h]; linarith [Real.pi_pos])
        rw [Real.sin_neg] at this
        linarith
    rw [e _ hq.le, e _ hq']
    exact Real.sin_lt_sin_of_lt_of_le_pi_div_two (by linarith [abs_nonneg q, Real.pi_pos]) hq' hc
  have hsinh : |Real.sinh p| ≤ |Real.sinh p'| := by
    have e := congrArg abs h1
    rw [abs_mul, abs_mul, abs_of_nonneg hcq', abs_of_pos hcq] at e
    by_contra hlt
    rw [not_le] at hlt
    have : |Real.sinh p'| * Real.cos q' < |Real.sinh p| * Real.cos q := by
      have a1 : |Real.sinh p'| * Real.cos q' ≤ |Real.sinh p'| * Real.cos q := mul_le_mul_of_nonneg_left hcos.le (abs_nonneg _)
      have a2 : |Real.sinh p'| * Real.cos q < |Real.sinh p| * Real.cos q := mul_lt_mul_of_pos_right hlt hcq
      linarith
    linarith
  have hcosh : Real.cosh p ≤ Real.cosh p' := by
    rw [Real.cosh_le_cosh]
    rwa [Real.abs_sinh, Real.abs_sinh, Real.sinh_le_sinh] at hsinh
  rw [abs_mul, abs_mul, abs_of_pos (Real.cosh_pos _), abs_of_pos (Real.cosh_pos _)] at h2
  have := Real.cosh_pos p
  have := mul_lt_mul' hcosh hsin (abs_nonneg _) (Real.cosh_pos p')
  linarith

/-- **height of the preimages**: every preimage of `u` in the strip `|Im t| < π/2` is at least as high as the principal one -/
theorem de_height {l : ℝ} (hl : 0 < l) (hl2 : l ≤ Real.pi / 2) {u : ℂ} (hu1 : u ≠ 1) (hu2 : u ≠ -1) {t : ℂ} (ht : |t.im| < Real.pi / 2)
    (h : deMap l t = u) : |(casinh (catanh u / l)).im| ≤ |t.im| := by
  have hc : Complex.cosh (l * Complex.sinh t) ≠ 0 := by
    have := de_cosh_ne hl hl2 (x := t.re) (y := t.im) ht
    rwa [Complex.re_add_im] at this
  obtain ⟨h1, h2⟩ := catanh_min hu1 hu2 hc h
  obtain ⟨h3, h4⟩ := sinh_casinh (catanh u / l)
  set s := casinh (catanh u / l) with hs
  have p1 := sinh_parts t.re t.im
  have p2 := sinh_parts s.re s.im
  rw [Complex.re_add_im] at p1 p2
  rw [h3, Complex.div_ofReal_re, Complex.div_ofReal_im] at p2
  rw [Complex.re_ofReal_mul] at h1
  rw [Complex.im_ofReal_mul] at h2
  apply asinh_height (p := t.re) (p' := s.re) ht h4
  · rw [← p2.1, ← p1.1, h1]
    field_simp
  · rw [← p2.2, ← p1.2, abs_div, abs_of_pos hl, div_le_iff₀ hl]
    rwa [abs_mul, abs_of_pos hl, mul_comm] at h2

end Hcp
