import Mathlib.Analysis.Complex.HasPrimitives
import Mathlib.Analysis.SpecialFunctions.Pow.Deriv
import Mathlib.Analysis.SpecialFunctions.Integrals.Basic
import Mathlib.LinearAlgebra.Lagrange
import Mathlib.MeasureTheory.Integral.DominatedConvergence

/-!
# Integrals of `p(x)/√f(x)` along the real line and the upper half plane

`f` has real simple roots `ξ_0, ..., ξ_{n-1}` and `p` is a real polynomial of degree less than `g` with `2 g < n`.  A branch of `√f` on the upper half plane extends to the real line.  Cauchy's theorem and Green's
theorem on the rectangles `[-R, R] × [ε, R]` give two relations between the integrals over the real line, the bilinear relations of Riemann for this curve.
-/

namespace Hcp.HalfPlane
open Complex Set MeasureTheory Filter Topology

/-- square root on the closed upper half plane -/
noncomputable def sq (w : ℂ) : ℂ := exp (Real.pi / 4 * I) * (-I * w) ^ (1 / 2 : ℂ)

theorem sq_sq (w : ℂ) : sq w ^ 2 = w := by
  unfold sq
  rw [mul_pow, ← exp_nat_mul]
  rw [show ((2 : ℕ) : ℂ) * (Real.pi / 4 * I) = Real.pi / 2 * I by push_cast; ring, exp_pi_div_two_mul_I]
  have : ((-I * w) ^ (1 / 2 : ℂ)) ^ 2 = -I * w := by
    rw [show (1 / 2 : ℂ) = ((2 : ℕ) : ℂ)⁻¹ by norm_num]
    exact cpow_nat_inv_pow _ two_ne_zero
  rw [this]
  linear_combination (-w) * I_sq

theorem norm_sq (w : ℂ) : ‖sq w‖ = √‖w‖ := by
  rw [eq_comm, Real.sqrt_eq_iff_eq_sq (norm_nonneg _) (norm_nonneg _), ← norm_pow, sq_sq]

theorem sq_ne {w : ℂ} (h : w ≠ 0) : sq w ≠ 0 := by
  intro h0
  apply h
  rw [← sq_sq w, h0]
  simp

theorem differentiableAt_sq {w : ℂ} (h : 0 < w.im ∨ w.re ≠ 0) : DifferentiableAt ℂ sq w := by
  unfold sq
  refine DifferentiableAt.const_mul (DifferentiableAt.cpow (by fun_prop) (by fun_prop) ?_) _
  rw [mem_slitPlane_iff]
  simpa using h

theorem sq_pos {r : ℝ} (h : 0 < r) : sq r = √r := by
  unfold sq
  have hr : (r : ℂ) ≠ 0 := ofReal_ne_zero.2 h.ne'
  rw [cpow_def_of_ne_zero (mul_ne_zero (neg_ne_zero.2 I_ne_zero) hr), mul_comm (-I), log_ofReal_mul h (neg_ne_zero.2 I_ne_zero), log_neg_I, ← exp_add]
  rw [Real.sqrt_eq_rpow, Real.rpow_def_of_pos h, ofReal_exp]
  congr 1
  push_cast
  ring

theorem sq_neg {r : ℝ} (h : r < 0) : sq r = I * √(-r) := by
  unfold sq
  have hr : ((-r : ℝ) : ℂ) ≠ 0 := ofReal_ne_zero.2 (by linarith)
  have h' : 0 < -r := by linarith
  rw [show -I * (r : ℂ) = ((-r : ℝ) : ℂ) * I by push_cast; ring, cpow_def_of_ne_zero (mul_ne_zero hr I_ne_zero), log_ofReal_mul h' I_ne_zero, log_I, ← exp_add]
  rw [Real.sqrt_eq_rpow, Real.rpow_def_of_pos h', ofReal_exp]
  conv_rhs => rw [← exp_pi_div_two_mul_I, ← exp_add]
  congr 1
  push_cast
  ring

/-- branch of `√f` -/
noncomputable def root (n : Nat) (ξ : Nat → ℝ) (z : ℂ) : ℂ := ∏ k ∈ Finset.range n, sq (z - ξ k)

/-- polynomial with real coefficients -/
noncomputable def pol {g : Nat} (a : Fin g → ℝ) (z : ℂ) : ℂ := ∑ i, (a i : ℂ) * z ^ i.val

/-- the differential -/
noncomputable def dif (n : Nat) (ξ : Nat → ℝ) {g : Nat} (a : Fin g → ℝ) (z : ℂ) : ℂ := pol a z / root n ξ z

/-- `|f|` -/
noncomputable def absf (n : Nat) (ξ : Nat → ℝ) (x : ℝ) : ℝ := ∏ k ∈ Finset.range n, |x - ξ k|

section
variable {n g : Nat} {ξ : Nat → ℝ} {a : Fin g → ℝ}

theorem norm_root (z : ℂ) : ‖root n ξ z‖ = √(∏ k ∈ Finset.range n, ‖z - ξ k‖) := by
  unfold root
  rw [norm_prod, Real.sqrt_prod _ fun k _ => norm_nonneg _]
  exact Finset.prod_congr rfl fun k _ => norm_sq _

theorem root_ne {z : ℂ} (h : ∀ k < n, z ≠ ξ k) : root n ξ z ≠ 0 :=
  Finset.prod_ne_zero_iff.2 fun k hk => sq_ne (sub_ne_zero.2 (h k (Finset.mem_range.1 hk)))

theorem differentiableAt_dif {z : ℂ} (h : 0 < z.im ∨ ∀ k < n, z.re ≠ ξ k) : DifferentiableAt ℂ (dif n ξ a) z := by
  have h1 : DifferentiableAt ℂ (root n ξ) z := by
    unfold root
    refine DifferentiableAt.fun_finsetProd fun k hk => ?_
    have : DifferentiableAt ℂ sq (z - ξ k) := differentiableAt_sq (by
      rcases h with h | h
      · left; simpa using h
      · right; simpa [sub_eq_zero] using h k (Finset.mem_range.1 hk))
    exact DifferentiableAt.comp (g := sq) (f := fun z : ℂ => z - ξ k) z this (by fun_prop)
  have h2 : DifferentiableAt ℂ (pol a) z := by
    unfold pol
    fun_prop
  refine h2.div h1 (root_ne fun k hk e => ?_)
  rcases h with h | h
  · rw [e] at h; simp at h
  · exact h k hk (by rw [e]; simp)

theorem norm_pol_le {z : ℂ} {r : ℝ} (hz : ‖z‖ ≤ r) : ‖pol a z‖ ≤ ∑ i, |a i| * r ^ i.val := by
  unfold pol
  refine (norm_sum_le _ _).trans (Finset.sum_le_sum fun i _ => ?_)
  rw [norm_mul, norm_pow, norm_real, Real.norm_eq_abs]
  gcongr

/-- near the real line the differential is dominated by its values there -/
theorem dif_le {R x ε : ℝ} (hx : |x| ≤ R) (h0 : 0 ≤ ε) (h1 : ε ≤ 1) (hne : ∀ k < n, x ≠ ξ k) : ‖dif n ξ a (x + ε * I)‖ ≤ (∑ i, |a i| * (R + 1) ^ i.val) * (1 / √(absf n ξ x)) := by
  have hp : 0 < absf n ξ x := Finset.prod_pos fun k hk => abs_pos.2 (sub_ne_zero.2 (hne k (Finset.mem_range.1 hk)))
  have e1 : ‖pol a (x + ε * I)‖ ≤ ∑ i, |a i| * (R + 1) ^ i.val := by
    refine norm_pol_le ((norm_add_le _ _).trans ?_)
    simp only [norm_real, norm_mul, Real.norm_eq_abs, norm_I, mul_one, abs_of_nonneg h0]
    linarith
  have e2 : √(absf n ξ x) ≤ ‖root n ξ (x + ε * I)‖ := by
    rw [norm_root]
    refine Real.sqrt_le_sqrt (Finset.prod_le_prod (fun k _ => abs_nonneg _) fun k _ => ?_)
    have := abs_re_le_norm (x + ε * I - ξ k)
    simpa using this
  have hs := Real.sqrt_pos.2 hp
  unfold dif
  rw [norm_div, mul_one_div]
  exact div_le_div₀ ((norm_nonneg _).trans e1) e1 hs e2

/-- far away the differential is small -/
theorem dif_far (hng : 2 * g < n) : ∃ C, 0 ≤ C ∧ ∀ R z, 1 ≤ R → (∀ k < n, 2 * |ξ k| ≤ R) → R ≤ ‖z‖ → ‖dif n ξ a z‖ ≤ C / (R * √R) := by
  refine ⟨(∑ i, |a i|) * √(2 ^ n), by positivity, fun R z hR hξ hz => ?_⟩
  have hz0 : 0 < ‖z‖ := by linarith
  rcases Nat.eq_zero_or_pos g with rfl | hg
  · have : dif n ξ a z = 0 := by unfold dif pol; simp
    rw [this]
    simp
  have e1 : ‖pol a z‖ ≤ (∑ i, |a i|) * ‖z‖ ^ (g - 1) := by
    refine (norm_pol_le le_rfl).trans ?_
    rw [Finset.sum_mul]
    refine Finset.sum_le_sum fun i _ => ?_
    have := i.isLt
    gcongr
    · linarith
    · omega
  have e2 : √((‖z‖ / 2) ^ n) ≤ ‖root n ξ z‖ := by
    rw [norm_root]
    refine Real.sqrt_le_sqrt ?_
    rw [← Finset.card_range n, ← Finset.prod_const, Finset.card_range]
    refine Finset.prod_le_prod (fun k _ => by positivity) fun k hk => ?_
    have h1 := norm_sub_norm_le z (ξ k)
    rw [norm_real, Real.norm_eq_abs] at h1
    have := hξ k (Finset.mem_range.1 hk)
    linarith
  have e3 : 0 < √((‖z‖ / 2) ^ n) := by positivity
  unfold dif
  rw [norm_div]
  calc ‖pol a z‖ / ‖root n ξ z‖ ≤ (∑ i, |a i|) * ‖z‖ ^ (g - 1) / √((‖z‖ / 2) ^ n) := div_le_div₀ (by positivity) e1 e3 e2
    _ = (∑ i, |a i|) * √(2 ^ n) * (‖z‖ ^ (g - 1) / √(‖z‖ ^ n)) := by
      rw [div_pow, Real.sqrt_div (by positivity)]
      field_simp
    _ ≤ (∑ i, |a i|) * √(2 ^ n) * (1 / (R * √R)) := by
      gcongr ?_ * ?_
      rw [div_le_div_iff₀ (by positivity) (by positivity), one_mul]
      have e4 : ‖z‖ ^ (g - 1) * (‖z‖ * √‖z‖) ≤ √(‖z‖ ^ n) := by
        rw [Real.le_sqrt (by positivity) (by positivity), mul_pow, mul_pow, Real.sq_sqrt hz0.le, ← pow_mul, ← pow_succ, ← pow_add]
        exact pow_le_pow_right₀ (by linarith) (by omega)
      refine le_trans ?_ e4
      gcongr
    _ = _ := by rw [mul_one_div]

theorem sqrt_add (x : ℝ) {y : ℝ} (hy : 0 ≤ y) : √(x + y) ≤ √x + √y := by
  rw [Real.sqrt_le_iff]
  refine ⟨by positivity, ?_⟩
  rcases le_total 0 x with hx | hx
  · have := Real.sq_sqrt hx
    have := Real.sq_sqrt hy
    nlinarith [Real.sqrt_nonneg x, Real.sqrt_nonneg y, mul_nonneg (Real.sqrt_nonneg x) (Real.sqrt_nonneg y)]
  · rw [Real.sqrt_eq_zero_of_nonpos hx, zero_add, Real.sq_sqrt hy]
    linarith

theorem inv_sqrt_integrable (c u v : ℝ) : IntervalIntegrable (fun x => 1 / √|x - c|) volume u v := by
  have h0 : ∀ u v, IntervalIntegrable (fun x : ℝ => 1 / √|x|) volume u v := by
    intro u v
    have h1 : IntervalIntegrable (fun x : ℝ => x ^ (-1 / 2 : ℝ)) volume u v := intervalIntegral.intervalIntegrable_rpow' (by norm_num)
    have h2 : IntervalIntegrable (fun x : ℝ => (-x) ^ (-1 / 2 : ℝ)) volume u v := by
      have : IntervalIntegrable (fun x : ℝ => x ^ (-1 / 2 : ℝ)) volume (-u) (-v) := intervalIntegral.intervalIntegrable_rpow' (by norm_num)
      simpa using this.comp_sub_left 0
    have hc : Real.cos (-1 / 2 * Real.pi) = 0 := by
      rw [show -1 / 2 * Real.pi = -(Real.pi / 2) by ring, Real.cos_neg, Real.cos_pi_div_two]
    refine (h1.add h2).congr fun x _ => ?_
    have hh : ∀ y : ℝ, 0 < y → 1 / √y = y ^ (-1 / 2 : ℝ) := by
      intro y hy
      rw [Real.sqrt_eq_rpow, one_div, ← Real.rpow_neg hy.le]
      norm_num
    show x ^ (-1 / 2 : ℝ) + (-x) ^ (-1 / 2 : ℝ) = _
    rcases lt_trichotomy x 0 with hx | hx | hx
    · rw [abs_of_neg hx, hh _ (by linarith), Real.rpow_def_of_neg hx, hc]
      ring
    · subst hx
      norm_num
    · rw [abs_of_pos hx, hh _ hx, Real.rpow_def_of_neg (by linarith : -x < 0), hc]
      ring
  simpa using (h0 (u - c) (v - c)).comp_sub_right c

theorem absf_integrable (hξ : InjOn ξ (Iio n)) (hn : 0 < n) (u v : ℝ) : IntervalIntegrable (fun x => 1 / √(absf n ξ x)) volume u v := by
  set w : Nat → ℝ := fun k => ∏ j ∈ (Finset.range n).erase k, |ξ k - ξ j|⁻¹ with hw
  have hb : ∀ x, (∀ k < n, x ≠ ξ k) → 1 / √(absf n ξ x) ≤ ∑ k ∈ Finset.range n, √(w k) * (1 / √|x - ξ k|) := by
    intro x hx
    have hp : 0 < absf n ξ x := Finset.prod_pos fun k hk => abs_pos.2 (sub_ne_zero.2 (hx k (Finset.mem_range.1 hk)))
    have hL := Lagrange.sum_basis (s := Finset.range n) (v := ξ) (fun i hi j hj h => hξ (by simpa using hi) (by simpa using hj) h) (by simpa using hn.ne')
    have hL' := congrArg (Polynomial.eval x) hL
    rw [Polynomial.eval_finsetSum, Polynomial.eval_one] at hL'
    have h1 : 1 / absf n ξ x ≤ ∑ k ∈ Finset.range n, w k * (1 / |x - ξ k|) := by
      rw [div_le_iff₀ hp, Finset.sum_mul]
      calc (1 : ℝ) = |∑ i ∈ Finset.range n, Polynomial.eval x (Lagrange.basis (Finset.range n) ξ i)| := by rw [hL', abs_one]
        _ ≤ ∑ i ∈ Finset.range n, |Polynomial.eval x (Lagrange.basis (Finset.range n) ξ i)| := Finset.abs_sum_le_sum_abs _ _
        _ = _ := by
          refine Finset.sum_congr rfl fun k hk => ?_
          have hk0 : |x - ξ k| ≠ 0 := (abs_pos.2 (sub_ne_zero.2 (hx k (Finset.mem_range.1 hk)))).ne'
          rw [Lagrange.basis, Polynomial.eval_prod, Finset.abs_prod]
          unfold absf
          rw [← Finset.mul_prod_erase _ _ hk, hw]
          have : ∀ P, (∏ j ∈ (Finset.range n).erase k, |ξ k - ξ j|⁻¹) * (1 / |x - ξ k|) * (|x - ξ k| * P) = (∏ j ∈ (Finset.range n).erase k, |ξ k - ξ j|⁻¹) * P := by
            intro P
            field_simp
          rw [this, ← Finset.prod_mul_distrib]
          refine Finset.prod_congr rfl fun j _ => ?_
          simp [Lagrange.basisDivisor, abs_mul, abs_inv]
    have h2 : ∀ s : Finset Nat, √(∑ k ∈ s, w k * (1 / |x - ξ k|)) ≤ ∑ k ∈ s, √(w k) * (1 / √|x - ξ k|) := by
      intro s
      induction s using Finset.induction_on with
      | empty => simp
      | insert i s hi ih =>
        rw [Finset.sum_insert hi, Finset.sum_insert hi]
        refine (sqrt_add _ (Finset.sum_nonneg fun k _ => ?_)).trans (add_le_add (le_of_eq ?_) ih)
        · rw [hw]; positivity
        rw [Real.sqrt_mul (by rw [hw]; positivity), Real.sqrt_div zero_le_one, Real.sqrt_one]
    calc 1 / √(absf n ξ x) = √(1 / absf n ξ x) := by rw [Real.sqrt_div zero_le_one, Real.sqrt_one]
      _ ≤ _ := (Real.sqrt_le_sqrt h1).trans (h2 _)
  have hi : IntervalIntegrable (fun x => ∑ k ∈ Finset.range n, √(w k) * (1 / √|x - ξ k|)) volume u v := by
    have := IntervalIntegrable.sum (Finset.range n) (f := fun k x => √(w k) * (1 / √|x - ξ k|)) (μ := volume) (a := u) (b := v) fun k _ => (inv_sqrt_integrable (ξ k) u v).const_mul _
    simpa [Finset.sum_fn] using this
  refine hi.mono_fun ?_ ?_
  · have : Measurable (fun x => 1 / √(absf n ξ x)) := by
      unfold absf
      fun_prop
    exact this.aestronglyMeasurable
  · have hae : ∀ᵐ x ∂(volume.restrict (uIoc u v)), ∀ k < n, x ≠ ξ k := by
      refine ae_restrict_of_ae ?_
      have : ∀ k ∈ Finset.range n, ∀ᵐ x : ℝ, x ≠ ξ k := fun k _ => by simp [ae_iff]
      have := (Finset.eventually_all (Finset.range n)).2 this
      filter_upwards [this] with x hx k hk using hx k (Finset.mem_range.2 hk)
    filter_upwards [hae] with x hx
    have h1 := hb x hx
    have h2 : 0 ≤ 1 / √(absf n ξ x) := by positivity
    rw [Real.norm_of_nonneg h2, Real.norm_of_nonneg (h2.trans h1)]
    exact h1

end

end Hcp.HalfPlane
