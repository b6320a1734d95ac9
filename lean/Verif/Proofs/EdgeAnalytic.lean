import Verif.Proofs.GaussErr
import Verif.Spec.Edge
import Verif.Spec.GcParams
import Mathlib.Analysis.SpecialFunctions.Pow.Deriv
import Mathlib.Tactic.LinearCombination

/-!
# The integrand of an edge extends analytically to an ellipse without branch points
-/

namespace Hcp

open Complex Set

theorem mul_cpow_of {b v : ℂ} (a : ℝ) (hv : 0 < v.re) (hb : b = 1 ∨ b = I ∨ b = -I ∨ (b = -1 ∧ v.im = 0)) :
    (b * v) ^ (a : ℂ) = b ^ (a : ℂ) * v ^ (a : ℂ) := by
  have hv0 : v ≠ 0 := by rintro rfl; simp at hv
  have harg := abs_lt.1 (abs_arg_lt_pi_div_two_iff.2 (Or.inl hv))
  have hp := Real.pi_pos
  have key : b ≠ 0 ∧ arg b + arg v ∈ Ioc (-Real.pi) Real.pi := by
    rcases hb with rfl | rfl | rfl | ⟨rfl, h⟩
    · rw [arg_one]
      exact ⟨one_ne_zero, by constructor <;> linarith [harg.1, harg.2]⟩
    · rw [arg_I]
      exact ⟨I_ne_zero, by constructor <;> linarith [harg.1, harg.2]⟩
    · rw [arg_neg_I]
      exact ⟨neg_ne_zero.2 I_ne_zero, by constructor <;> linarith [harg.1, harg.2]⟩
    · have : arg v = 0 := arg_eq_zero_iff.2 ⟨hv.le, h⟩
      rw [arg_neg_one, this, add_zero]
      exact ⟨by norm_num, by constructor <;> linarith⟩
  rw [cpow_def_of_ne_zero (mul_ne_zero key.1 hv0), cpow_def_of_ne_zero key.1, cpow_def_of_ne_zero hv0, log_mul key.1 hv0 key.2, ← exp_add]
  ring_nf

/-- For a point outside the ellipse there is a direction in which it is seen away from the ellipse; with it the principal roots on the segment extend. -/
theorem root_extends {r : ℝ} (hr : 1 ≤ r) {u : ℂ} (hu : u ∉ Spec.ellipse r) (a : ℝ) :
    ∃ h1 h2 : ℂ → ℂ, (∀ z ∈ Spec.ellipse r, DifferentiableAt ℂ h1 z ∧ ‖h1 z‖ = ‖u - z‖ ^ a) ∧
      (∀ z ∈ Spec.ellipse r, DifferentiableAt ℂ h2 z ∧ ‖h2 z‖ = ‖u - z‖ ^ a) ∧
      ∀ t : ℝ, t ∈ Icc (-1 : ℝ) 1 → h1 t = (u - t) ^ (a : ℂ) ∧ h2 t = ((t : ℂ) - u) ^ (a : ℂ) := by
  have main : ∀ c b1 b2 : ℂ, ‖c‖ = 1 → ‖b1‖ = 1 → ‖b2‖ = 1 → b1 * c = 1 → b2 * c = -1 → (∀ z ∈ Spec.ellipse r, c * (u - z) ∈ slitPlane) →
      (∀ t : ℝ, t ∈ Icc (-1 : ℝ) 1 → 0 < (c * (u - t)).re) →
      (∀ b, b = b1 ∨ b = b2 → ∀ t : ℝ, t ∈ Icc (-1 : ℝ) 1 → b = 1 ∨ b = I ∨ b = -I ∨ (b = -1 ∧ (c * (u - t)).im = 0)) →
      ∃ h1 h2 : ℂ → ℂ, (∀ z ∈ Spec.ellipse r, DifferentiableAt ℂ h1 z ∧ ‖h1 z‖ = ‖u - z‖ ^ a) ∧
      (∀ z ∈ Spec.ellipse r, DifferentiableAt ℂ h2 z ∧ ‖h2 z‖ = ‖u - z‖ ^ a) ∧
      ∀ t : ℝ, t ∈ Icc (-1 : ℝ) 1 → h1 t = (u - t) ^ (a : ℂ) ∧ h2 t = ((t : ℂ) - u) ^ (a : ℂ) := by
    intro c b1 b2 hc hb1 hb2 e1 e2 hslit hpos hcase
    have gen : ∀ b : ℂ, ‖b‖ = 1 → ∀ z ∈ Spec.ellipse r, DifferentiableAt ℂ (fun z => b ^ (a : ℂ) * (c * (u - z)) ^ (a : ℂ)) z ∧
        ‖b ^ (a : ℂ) * (c * (u - z)) ^ (a : ℂ)‖ = ‖u - z‖ ^ a := by
      intro b hb z hz
      constructor
      · apply DifferentiableAt.const_mul
        exact DifferentiableAt.cpow (by fun_prop) (differentiableAt_const _) (hslit z hz)
      · rw [norm_mul, norm_cpow_real, norm_cpow_real, norm_mul, hb, hc, Real.one_rpow, one_mul, one_mul]
    refine ⟨_, _, gen b1 hb1, gen b2 hb2, fun t ht => ⟨?_, ?_⟩⟩
    · rw [← mul_cpow_of a (hpos t ht) (hcase b1 (Or.inl rfl) t ht), ← mul_assoc, e1, one_mul]
    · rw [← mul_cpow_of a (hpos t ht) (hcase b2 (Or.inr rfl) t ht), ← mul_assoc, e2]
      congr 1
      ring
  have hu' : 2 * r < ‖u - 1‖ + ‖u + 1‖ := by
    simpa [Spec.ellipse] using hu
  -- moving a point away from the real axis or along it increases both distances
  have mono : ∀ z : ℂ, (u.re - 1) ^ 2 + u.im ^ 2 ≤ (z.re - 1) ^ 2 + z.im ^ 2 → (u.re + 1) ^ 2 + u.im ^ 2 ≤ (z.re + 1) ^ 2 + z.im ^ 2 → z ∉ Spec.ellipse r := by
    intro z h1 h2 hz
    have k1 : ‖u - 1‖ ≤ ‖z - 1‖ := by
      rw [norm_def, norm_def]
      apply Real.sqrt_le_sqrt
      simp only [normSq_apply, sub_re, sub_im, one_re, one_im, sub_zero]
      nlinarith
    have k2 : ‖u + 1‖ ≤ ‖z + 1‖ := by
      rw [norm_def, norm_def]
      apply Real.sqrt_le_sqrt
      simp only [normSq_apply, add_re, add_im, one_re, one_im, add_zero]
      nlinarith
    have : ‖z - 1‖ + ‖z + 1‖ ≤ 2 * r := hz
    linarith
  rcases lt_trichotomy u.im 0 with him | him | him
  · refine main I (-I) I (by simp) (by simp) (by simp) (by rw [neg_mul, I_mul_I]; ring) (by rw [I_mul_I]) ?_ ?_ ?_
    · intro z hz
      rw [mem_slitPlane_iff]
      by_contra hcon
      push Not at hcon
      simp only [mul_re, mul_im, I_re, I_im, sub_re, sub_im, zero_mul, one_mul, zero_sub, zero_add, neg_sub] at hcon
      have e : z.re = u.re := by linarith [hcon.2]
      refine mono z ?_ ?_ hz <;> rw [e] <;> nlinarith [hcon.1]
    · intro t _
      simp only [mul_re, I_re, I_im, sub_re, sub_im, ofReal_im, zero_mul, one_mul]
      linarith
    · rintro b (rfl | rfl) t _ <;> simp
  · by_cases hre : 0 ≤ u.re
    · have hu1 : 1 < u.re := by
        by_contra hcon
        exact hu (by
          have := real_mem_ellipse hr (x := u.re) ⟨by linarith, by linarith⟩
          rwa [show (u.re : ℂ) = u from Complex.ext rfl (by simp [him])] at this)
      refine main 1 1 (-1) (by simp) (by simp) (by simp) (by simp) (by simp) ?_ ?_ ?_
      · intro z hz
        rw [mem_slitPlane_iff]
        by_contra hcon
        push Not at hcon
        simp only [one_mul, sub_re, sub_im] at hcon
        refine mono z ?_ ?_ hz <;> nlinarith [hcon.1, hcon.2]
      · intro t ht
        simp only [one_mul, sub_re, ofReal_re]
        linarith [ht.2]
      · rintro b (rfl | rfl) t _ <;> simp [him]
    · have hu1 : u.re < -1 := by
        by_contra hcon
        exact hu (by
          have := real_mem_ellipse hr (x := u.re) ⟨by linarith, by linarith⟩
          rwa [show (u.re : ℂ) = u from Complex.ext rfl (by simp [him])] at this)
      refine main (-1) (-1) 1 (by simp) (by simp) (by simp) (by simp) (by simp) ?_ ?_ ?_
      · intro z hz
        rw [mem_slitPlane_iff]
        by_contra hcon
        push Not at hcon
        simp only [neg_mul, one_mul, neg_re, neg_im, sub_re, sub_im] at hcon
        refine mono z ?_ ?_ hz <;> nlinarith [hcon.1, hcon.2]
      · intro t ht
        simp only [neg_mul, one_mul, neg_re, sub_re, ofReal_re]
        linarith [ht.1]
      · rintro b (rfl | rfl) t _ <;> simp [him]
  · refine main (-I) I (-I) (by simp) (by simp) (by simp) (by rw [mul_neg, I_mul_I]; ring) (by rw [neg_mul_neg, I_mul_I]) ?_ ?_ ?_
    · intro z hz
      rw [mem_slitPlane_iff]
      by_contra hcon
      push Not at hcon
      simp only [neg_mul, neg_re, neg_im, mul_re, mul_im, I_re, I_im, sub_re, sub_im, zero_mul, one_mul, zero_sub, zero_add, neg_sub] at hcon
      have e : z.re = u.re := by linarith [hcon.2]
      refine mono z ?_ ?_ hz <;> rw [e] <;> nlinarith [hcon.1]
    · intro t _
      simp only [neg_mul, neg_re, mul_re, I_re, I_im, sub_re, sub_im, ofReal_im, zero_mul, one_mul]
      linarith
    · rintro b (rfl | rfl) t _ <;> simp

theorem ellipse_norm_le {r : ℝ} {z : ℂ} (hz : z ∈ Spec.ellipse r) : ‖z‖ ≤ r := by
  have h : ‖z - 1‖ + ‖z + 1‖ ≤ 2 * r := hz
  have h2 := norm_add_le (z - 1) (z + 1)
  rw [show z - 1 + (z + 1) = 2 * z by ring, norm_mul, show ‖(2 : ℂ)‖ = 2 by norm_num] at h2
  linarith

theorem ellipse_dist_le {r : ℝ} {z u : ℂ} (hz : z ∈ Spec.ellipse r) : Spec.rOf u - r ≤ ‖u - z‖ := by
  have h : ‖z - 1‖ + ‖z + 1‖ ≤ 2 * r := hz
  have h1 := norm_add_le (u - z) (z - 1)
  have h2 := norm_add_le (u - z) (z + 1)
  rw [show u - z + (z - 1) = u - 1 by ring] at h1
  rw [show u - z + (z + 1) = u + 1 by ring] at h2
  unfold Spec.rOf
  linarith

/-- The integrand `x^i / y` of an edge on `[-1, 1]` extends to the ellipse, with the bound used by the code. -/
theorem integrand_extends {r : ℝ} (hr : 1 ≤ r) {m n1 d : Nat} (h1 : n1 ≤ d) {u : Nat → ℂ} (hu : ∀ k < d, r < Spec.rOf (u k)) (i : Nat) :
    ∃ F : ℂ → ℂ, (∀ z ∈ Spec.ellipse r, DifferentiableAt ℂ F z) ∧
      (∀ z ∈ Spec.ellipse r, ‖F z‖ ≤ r ^ i / (∏ k ∈ Finset.range d, (Spec.rOf (u k) - r)) ^ (1 / m : ℝ)) ∧
      ∀ t : ℝ, t ∈ Icc (-1 : ℝ) 1 → F t = (t : ℂ) ^ i / Spec.edgeY m n1 d u t := by
  have hnot : ∀ k < d, u k ∉ Spec.ellipse r := by
    intro k hk h
    have h2 : ‖u k - 1‖ + ‖u k + 1‖ ≤ 2 * r := h
    have := hu k hk
    unfold Spec.rOf at this
    linarith
  have hex : ∀ k : Nat, ∃ h1 h2 : ℂ → ℂ, k < d → (∀ z ∈ Spec.ellipse r, DifferentiableAt ℂ h1 z ∧ ‖h1 z‖ = ‖u k - z‖ ^ (1 / m : ℝ)) ∧
      (∀ z ∈ Spec.ellipse r, DifferentiableAt ℂ h2 z ∧ ‖h2 z‖ = ‖u k - z‖ ^ (1 / m : ℝ)) ∧
      ∀ t : ℝ, t ∈ Icc (-1 : ℝ) 1 → h1 t = (u k - t) ^ ((1 / m : ℝ) : ℂ) ∧ h2 t = ((t : ℂ) - u k) ^ ((1 / m : ℝ) : ℂ) := by
    intro k
    by_cases hk : k < d
    · obtain ⟨a, b, h⟩ := root_extends hr (hnot k hk) (1 / m : ℝ)
      exact ⟨a, b, fun _ => h⟩
    · exact ⟨0, 0, fun h => absurd h hk⟩
  choose f g hfg using hex
  have hpos : ∀ z ∈ Spec.ellipse r, ∀ k < d, 0 < ‖u k - z‖ := by
    intro z hz k hk
    have := ellipse_dist_le (u := u k) hz
    have := hu k hk
    linarith
  have hY0 : ∀ z ∈ Spec.ellipse r, (∏ k ∈ Finset.range n1, f k z) * ∏ k ∈ Finset.Ico n1 d, g k z ≠ 0 := by
    intro z hz
    apply mul_ne_zero <;> rw [Finset.prod_ne_zero_iff] <;> intro k hk
    · have hk' : k < d := lt_of_lt_of_le (Finset.mem_range.1 hk) h1
      rw [← norm_ne_zero_iff, ((hfg k hk').1 z hz).2]
      exact (Real.rpow_pos_of_pos (hpos z hz k hk') _).ne'
    · have hk' : k < d := (Finset.mem_Ico.1 hk).2
      rw [← norm_ne_zero_iff, ((hfg k hk').2.1 z hz).2]
      exact (Real.rpow_pos_of_pos (hpos z hz k hk') _).ne'
  refine ⟨fun z => z ^ i / ((∏ k ∈ Finset.range n1, f k z) * ∏ k ∈ Finset.Ico n1 d, g k z), fun z hz => ?_, fun z hz => ?_, fun t ht => ?_⟩
  · refine DifferentiableAt.div (by fun_prop) (DifferentiableAt.mul ?_ ?_) (hY0 z hz)
    · apply DifferentiableAt.fun_finsetProd
      intro k hk
      exact ((hfg k (lt_of_lt_of_le (Finset.mem_range.1 hk) h1)).1 z hz).1
    · apply DifferentiableAt.fun_finsetProd
      intro k hk
      exact ((hfg k (Finset.mem_Ico.1 hk).2).2.1 z hz).1
  · have hnorm : ‖(∏ k ∈ Finset.range n1, f k z) * ∏ k ∈ Finset.Ico n1 d, g k z‖ = ∏ k ∈ Finset.range d, ‖u k - z‖ ^ (1 / m : ℝ) := by
      rw [norm_mul, norm_prod, norm_prod, ← Finset.prod_range_mul_prod_Ico _ h1]
      congr 1
      · exact Finset.prod_congr rfl fun k hk => ((hfg k (lt_of_lt_of_le (Finset.mem_range.1 hk) h1)).1 z hz).2
      · exact Finset.prod_congr rfl fun k hk => ((hfg k (Finset.mem_Ico.1 hk).2).2.1 z hz).2
    rw [norm_div, norm_pow, hnorm, Real.finsetProd_rpow _ _ fun k hk => norm_nonneg _]
    have hprod : 0 < ∏ k ∈ Finset.range d, (Spec.rOf (u k) - r) := Finset.prod_pos fun k hk => by
      have := hu k (Finset.mem_range.1 hk)
      linarith
    have hle : ∏ k ∈ Finset.range d, (Spec.rOf (u k) - r) ≤ ∏ k ∈ Finset.range d, ‖u k - z‖ := by
      apply Finset.prod_le_prod
      · intro k hk
        have := hu k (Finset.mem_range.1 hk)
        linarith
      · intro k _
        exact ellipse_dist_le hz
    have hp := Real.rpow_pos_of_pos hprod (1 / m : ℝ)
    have hz' := ellipse_norm_le hz
    gcongr
  · unfold Spec.edgeY
    simp only
    have e : ((m : ℂ)⁻¹) = ((1 / m : ℝ) : ℂ) := by push_cast; rw [one_div]
    rw [e]
    congr 2
    · exact Finset.prod_congr rfl fun k hk => ((hfg k (lt_of_lt_of_le (Finset.mem_range.1 hk) h1)).2.2 t ht).1
    · exact Finset.prod_congr rfl fun k hk => ((hfg k (Finset.mem_Ico.1 hk).2).2.2 t ht).2

theorem edgeY_regular {r : ℝ} (hr : 1 ≤ r) {m n1 d : Nat} (h1 : n1 ≤ d) {u : Nat → ℂ} (hu : ∀ k < d, r < Spec.rOf (u k)) :
    ContinuousOn (fun t : ℝ => Spec.edgeY m n1 d u t) (Icc (-1) 1) ∧ ∀ t : ℝ, t ∈ Icc (-1 : ℝ) 1 → Spec.edgeY m n1 d u t ≠ 0 := by
  have hne : ∀ t : ℝ, t ∈ Icc (-1 : ℝ) 1 → ∀ k < d, u k - t ≠ 0 := by
    intro t ht k hk h0
    have h2 := real_mem_ellipse hr ht
    have h3 := ellipse_dist_le (u := u k) h2
    rw [h0, norm_zero] at h3
    linarith [hu k hk]
  have h0 : ∀ t : ℝ, t ∈ Icc (-1 : ℝ) 1 → Spec.edgeY m n1 d u t ≠ 0 := by
    intro t ht
    unfold Spec.edgeY
    apply mul_ne_zero <;> rw [Finset.prod_ne_zero_iff] <;> intro k hk
    · have := hne t ht k (lt_of_lt_of_le (Finset.mem_range.1 hk) h1)
      rw [cpow_def_of_ne_zero this]
      exact exp_ne_zero _
    · have h2 := hne t ht k (Finset.mem_Ico.1 hk).2
      have : (t : ℂ) - u k ≠ 0 := by
        intro h3
        exact h2 (by linear_combination -h3)
      rw [cpow_def_of_ne_zero this]
      exact exp_ne_zero _
  refine ⟨?_, h0⟩
  obtain ⟨F, hd, -, hF⟩ := integrand_extends hr (m := m) h1 hu 0
  have hc : ContinuousOn (fun t : ℝ => F t) (Icc (-1) 1) := by
    intro t ht
    have := (hd t (real_mem_ellipse hr ht)).continuousAt
    exact (ContinuousAt.comp (f := fun t : ℝ => (t : ℂ)) this continuous_ofReal.continuousAt).continuousWithinAt
  have hF0 : ∀ t ∈ Icc (-1 : ℝ) 1, F t ≠ 0 := by
    intro t ht
    rw [hF t ht, pow_zero]
    exact one_div_ne_zero (h0 t ht)
  refine (hc.inv₀ hF0).congr fun t ht => ?_
  simp only [hF t ht, pow_zero, one_div, inv_inv, Pi.inv_apply]

/-- **Error of the rule for the integrand of an edge.** -/
theorem edge_rule_error {R r : ℝ} (hR : 1 < R) (hr : R + R⁻¹ = 2 * r) {m n1 d : Nat} (h1 : n1 ≤ d) {u : Nat → ℂ} (hu : ∀ k < d, r < Spec.rOf (u k)) (i : Nat) {n : Nat}
    (hn : 0 < n) :
    ‖(Real.pi / n : ℂ) * ∑ k ∈ Finset.range n, (Real.cos ((2 * k + 1) / (2 * n) * Real.pi) : ℂ) ^ i / Spec.edgeY m n1 d u (Real.cos ((2 * k + 1) / (2 * n) * Real.pi)) -
      ∫ x in (-1 : ℝ)..1, (x : ℂ) ^ i / Spec.edgeY m n1 d u x * ((√(1 - x ^ 2)⁻¹ : ℝ) : ℂ)‖ ≤
      2 * Real.pi * (r ^ i / (∏ k ∈ Finset.range d, (Spec.rOf (u k) - r)) ^ (1 / m : ℝ)) / (R ^ (2 * n) - 1) := by
  have hr1 : 1 ≤ r := by
    have h2 : R * R⁻¹ = 1 := mul_inv_cancel₀ (by linarith)
    nlinarith [inv_pos.2 (by linarith : (0 : ℝ) < R), sq_nonneg (R - 1)]
  obtain ⟨F, hd, hM, hF⟩ := integrand_extends hr1 (m := m) h1 hu i
  have key := gauss_chebyshev_error hR hr hd hM hn
  have e1 : ∀ k, F (Real.cos ((2 * k + 1) / (2 * n) * Real.pi) : ℝ) =
      (Real.cos ((2 * k + 1) / (2 * n) * Real.pi) : ℂ) ^ i / Spec.edgeY m n1 d u (Real.cos ((2 * k + 1) / (2 * n) * Real.pi)) :=
    fun k => hF _ ⟨Real.neg_one_le_cos _, Real.cos_le_one _⟩
  have e2 : (∫ x in (-1 : ℝ)..1, F x * ((√(1 - x ^ 2)⁻¹ : ℝ) : ℂ)) =
      ∫ x in (-1 : ℝ)..1, (x : ℂ) ^ i / Spec.edgeY m n1 d u x * ((√(1 - x ^ 2)⁻¹ : ℝ) : ℂ) := by
    apply intervalIntegral.integral_congr
    intro x hx
    rw [uIcc_of_le (by norm_num)] at hx
    simp only
    rw [hF x hx]
  rw [e2] at key
  simp only [e1] at key
  exact key

end Hcp
