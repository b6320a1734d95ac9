import Mathlib.Analysis.Complex.HasPrimitives
import Mathlib.Analysis.SpecialFunctions.Pow.Deriv
import Mathlib.Analysis.SpecialFunctions.Integrals.Basic
import Mathlib.Analysis.MeanInequalitiesPow
import Mathlib.LinearAlgebra.Lagrange
import Mathlib.MeasureTheory.Integral.DominatedConvergence
import Verif.Proofs.HalfPlane

/-!
# Integrals of `p(x)/f(x)^κ` along the real line and the upper half plane

The same as `HalfPlane`, with an exponent `0 < κ < 1` instead of one half: `f` has real simple roots and `p` is a real polynomial of degree less than `g` with `g < κ n`.
-/

namespace Hcp.PowPlane
open Complex Set MeasureTheory Filter Topology HalfPlane

/-- power on the closed upper half plane -/
noncomputable def pw (κ : ℝ) (w : ℂ) : ℂ := exp (κ * Real.pi / 2 * I) * (-I * w) ^ (κ : ℂ)

theorem norm_pw {κ : ℝ} (_ : 0 < κ) (w : ℂ) : ‖pw κ w‖ = ‖w‖ ^ κ := by
  unfold pw
  rw [norm_mul, norm_cpow_real, norm_mul, norm_neg, norm_I, one_mul]
  have : ((κ : ℂ) * Real.pi / 2 * I) = ((κ * Real.pi / 2 : ℝ) : ℂ) * I := by push_cast; ring
  rw [this, norm_exp_ofReal_mul_I, one_mul]

theorem pw_ne {κ : ℝ} (hκ : 0 < κ) {w : ℂ} (h : w ≠ 0) : pw κ w ≠ 0 := by
  rw [← norm_pos_iff, norm_pw hκ]
  exact Real.rpow_pos_of_pos (norm_pos_iff.2 h) _

theorem differentiableAt_pw {κ : ℝ} {w : ℂ} (h : 0 < w.im ∨ w.re ≠ 0) : DifferentiableAt ℂ (pw κ) w := by
  unfold pw
  refine DifferentiableAt.const_mul (DifferentiableAt.cpow (by fun_prop) (by fun_prop) ?_) _
  rw [mem_slitPlane_iff]
  simpa using h

theorem pw_pos {κ r : ℝ} (h : 0 < r) : pw κ r = ((r ^ κ : ℝ) : ℂ) := by
  unfold pw
  have hr : (r : ℂ) ≠ 0 := ofReal_ne_zero.2 h.ne'
  rw [cpow_def_of_ne_zero (mul_ne_zero (neg_ne_zero.2 I_ne_zero) hr), mul_comm (-I), log_ofReal_mul h (neg_ne_zero.2 I_ne_zero), log_neg_I, ← exp_add]
  rw [Real.rpow_def_of_pos h, ofReal_exp]
  congr 1
  push_cast
  ring

theorem pw_neg {κ r : ℝ} (h : r < 0) : pw κ r = exp (κ * Real.pi * I) * (((-r) ^ κ : ℝ) : ℂ) := by
  unfold pw
  have hr : ((-r : ℝ) : ℂ) ≠ 0 := ofReal_ne_zero.2 (by linarith)
  have h' : 0 < -r := by linarith
  rw [show -I * (r : ℂ) = ((-r : ℝ) : ℂ) * I by push_cast; ring, cpow_def_of_ne_zero (mul_ne_zero hr I_ne_zero), log_ofReal_mul h' I_ne_zero, log_I, ← exp_add]
  rw [Real.rpow_def_of_pos h', ofReal_exp, ← exp_add]
  congr 1
  push_cast
  ring

/-- branch of `f^κ` -/
noncomputable def root (κ : ℝ) (n : Nat) (ξ : Nat → ℝ) (z : ℂ) : ℂ := ∏ k ∈ Finset.range n, pw κ (z - ξ k)

/-- the differential -/
noncomputable def dif (κ : ℝ) (n : Nat) (ξ : Nat → ℝ) {g : Nat} (a : Fin g → ℝ) (z : ℂ) : ℂ := pol a z / root κ n ξ z

section
variable {κ : ℝ} {n g : Nat} {ξ : Nat → ℝ} {a : Fin g → ℝ}

theorem norm_root (hκ : 0 < κ) (z : ℂ) : ‖root κ n ξ z‖ = (∏ k ∈ Finset.range n, ‖z - ξ k‖) ^ κ := by
  unfold root
  rw [norm_prod, ← Real.finsetProd_rpow _ _ fun k _ => norm_nonneg _]
  exact Finset.prod_congr rfl fun k _ => norm_pw hκ _

theorem root_ne (hκ : 0 < κ) {z : ℂ} (h : ∀ k < n, z ≠ ξ k) : root κ n ξ z ≠ 0 :=
  Finset.prod_ne_zero_iff.2 fun k hk => pw_ne hκ (sub_ne_zero.2 (h k (Finset.mem_range.1 hk)))

theorem differentiableAt_dif (hκ : 0 < κ) {z : ℂ} (h : 0 < z.im ∨ ∀ k < n, z.re ≠ ξ k) : DifferentiableAt ℂ (dif κ n ξ a) z := by
  have h1 : DifferentiableAt ℂ (root κ n ξ) z := by
    unfold root
    refine DifferentiableAt.fun_finsetProd fun k hk => ?_
    have : DifferentiableAt ℂ (pw κ) (z - ξ k) := differentiableAt_pw (by
      rcases h with h | h
      · left; simpa using h
      · right; simpa [sub_eq_zero] using h k (Finset.mem_range.1 hk))
    exact DifferentiableAt.comp (g := pw κ) (f := fun z : ℂ => z - ξ k) z this (by fun_prop)
  have h2 : DifferentiableAt ℂ (pol a) z := by
    unfold pol
    fun_prop
  refine h2.div h1 (root_ne hκ fun k hk e => ?_)
  rcases h with h | h
  · rw [e] at h; simp at h
  · exact h k hk (by rw [e]; simp)

/-- near the real line the differential is dominated by its values there -/
theorem dif_le (hκ : 0 < κ) {R x ε : ℝ} (hx : |x| ≤ R) (h0 : 0 ≤ ε) (h1 : ε ≤ 1) (hne : ∀ k < n, x ≠ ξ k) : ‖dif κ n ξ a (x + ε * I)‖ ≤ (∑ i, |a i| * (R + 1) ^ i.val) * (1 / absf n ξ x ^ κ) := by
  have hp : 0 < absf n ξ x := Finset.prod_pos fun k hk => abs_pos.2 (sub_ne_zero.2 (hne k (Finset.mem_range.1 hk)))
  have e1 : ‖pol a (x + ε * I)‖ ≤ ∑ i, |a i| * (R + 1) ^ i.val := by
    refine norm_pol_le ((norm_add_le _ _).trans ?_)
    simp only [norm_real, norm_mul, Real.norm_eq_abs, norm_I, mul_one, abs_of_nonneg h0]
    linarith
  have e2 : absf n ξ x ^ κ ≤ ‖root κ n ξ (x + ε * I)‖ := by
    rw [norm_root hκ]
    refine Real.rpow_le_rpow hp.le (Finset.prod_le_prod (fun k _ => abs_nonneg _) fun k _ => ?_) hκ.le
    have := abs_re_le_norm (x + ε * I - ξ k)
    simpa using this
  have hs := Real.rpow_pos_of_pos hp κ
  unfold dif
  rw [norm_div, mul_one_div]
  exact div_le_div₀ ((norm_nonneg _).trans e1) e1 hs e2

/-- far away the differential is small -/
theorem dif_far (hκ : 0 < κ) {μ : ℝ} (hng : (g : ℝ) + μ ≤ κ * n) (hμ : 0 < μ) : ∃ C, 0 ≤ C ∧ ∀ R z, 1 ≤ R → (∀ k < n, 2 * |ξ k| ≤ R) → R ≤ ‖z‖ → ‖dif κ n ξ a z‖ ≤ C / (R * R ^ μ) := by
  refine ⟨(∑ i, |a i|) * (2 ^ n) ^ κ, by positivity, fun R z hR hξ hz => ?_⟩
  have hR0 : 0 < R := by linarith
  have hz0 : 0 < ‖z‖ := by linarith
  rcases Nat.eq_zero_or_pos g with rfl | hg
  · have : dif κ n ξ a z = 0 := by unfold dif pol; simp
    rw [this]
    simp
  have e1 : ‖pol a z‖ ≤ (∑ i, |a i|) * ‖z‖ ^ (g - 1) := by
    refine (norm_pol_le le_rfl).trans ?_
    rw [Finset.sum_mul]
    refine Finset.sum_le_sum fun i _ => ?_
    have := i.isLt
    gcongr
    · linarith
    · omega
  have e2 : ((‖z‖ / 2) ^ n) ^ κ ≤ ‖root κ n ξ z‖ := by
    rw [norm_root hκ]
    refine Real.rpow_le_rpow (by positivity) ?_ hκ.le
    rw [← Finset.card_range n, ← Finset.prod_const, Finset.card_range]
    refine Finset.prod_le_prod (fun k _ => by positivity) fun k hk => ?_
    have h1 := norm_sub_norm_le z (ξ k)
    rw [norm_real, Real.norm_eq_abs] at h1
    have := hξ k (Finset.mem_range.1 hk)
    linarith
  have e3 : 0 < ((‖z‖ / 2) ^ n) ^ κ := by positivity
  unfold dif
  rw [norm_div]
  calc ‖pol a z‖ / ‖root κ n ξ z‖ ≤ (∑ i, |a i|) * ‖z‖ ^ (g - 1) / ((‖z‖ / 2) ^ n) ^ κ := div_le_div₀ (by positivity) e1 e3 e2
    _ = (∑ i, |a i|) * (2 ^ n) ^ κ * (‖z‖ ^ (g - 1) / (‖z‖ ^ n) ^ κ) := by
      rw [div_pow, Real.div_rpow (by positivity) (by positivity)]
      field_simp
    _ ≤ (∑ i, |a i|) * (2 ^ n) ^ κ * (1 / (R * R ^ μ)) := by
      gcongr ?_ * ?_
      rw [div_le_div_iff₀ (by positivity) (by positivity), one_mul]
      have e4 : ‖z‖ ^ (g - 1) * (‖z‖ * ‖z‖ ^ μ) ≤ (‖z‖ ^ n) ^ κ := by
        rw [← mul_assoc, ← pow_succ, Nat.sub_add_cancel hg, ← Real.rpow_natCast, ← Real.rpow_natCast, ← Real.rpow_mul hz0.le, ← Real.rpow_add hz0]
        exact Real.rpow_le_rpow_of_exponent_le (by linarith) (by linarith)
      refine le_trans ?_ e4
      gcongr
    _ = _ := by rw [mul_one_div]

theorem inv_rpow_integrable (hκ : κ < 1) (c u v : ℝ) : IntervalIntegrable (fun x => 1 / |x - c| ^ κ) volume u v := by
  have h0 : ∀ u, 0 ≤ u → IntervalIntegrable (fun x : ℝ => 1 / |x| ^ κ) volume 0 u := by
    intro u hu
    have h1 : IntervalIntegrable (fun x : ℝ => x ^ (-κ)) volume 0 u := intervalIntegral.intervalIntegrable_rpow' (by linarith)
    refine h1.congr fun x hx => ?_
    rw [uIoc_of_le hu] at hx
    show x ^ (-κ) = _
    rw [abs_of_pos hx.1, Real.rpow_neg hx.1.le, one_div]
  have h1 : ∀ u, IntervalIntegrable (fun x : ℝ => 1 / |x| ^ κ) volume 0 u := by
    intro u
    rcases le_total 0 u with hu | hu
    · exact h0 u hu
    · have := (h0 (-u) (by linarith)).comp_sub_left 0
      simpa using this
  have h2 : ∀ u v, IntervalIntegrable (fun x : ℝ => 1 / |x| ^ κ) volume u v := fun u v => (h1 u).symm.trans (h1 v)
  simpa using (h2 (u - c) (v - c)).comp_sub_right c

theorem absf_integrable (hκ : 0 < κ) (hκ1 : κ < 1) (hξ : InjOn ξ (Iio n)) (hn : 0 < n) (u v : ℝ) : IntervalIntegrable (fun x => 1 / absf n ξ x ^ κ) volume u v := by
  set w : Nat → ℝ := fun k => ∏ j ∈ (Finset.range n).erase k, |ξ k - ξ j|⁻¹ with hw
  have hb : ∀ x, (∀ k < n, x ≠ ξ k) → 1 / absf n ξ x ^ κ ≤ ∑ k ∈ Finset.range n, w k ^ κ * (1 / |x - ξ k| ^ κ) := by
    intro x hx
    have hp : 0 < absf n ξ x := Finset.prod_pos fun k hk => abs_pos.2 (sub_ne_zero.2 (hx k (Finset.mem_range.1 hk)))
    have hL := Lagrange.sum_basis (s := Finset.range n) (v := ξ) (fun i hi j hj h => hξ (by simpa using hi) (by simpa using hj) h) (by simpa using hn.ne')
    have hL' := congrArg (Polynomial.eval x) hL
    rw [Polynomial.eval_finsetSum, Polynomial.eval_one] at hL'
    have h1 : 1 / absf n ξ x ≤ ∑ k ∈ Finset.range n, w k * (1 / |x - ξ k|) := by
      rw [div_le_iff₀ hp, Finset.sum_mul]
      calc (1 : ℝ) = |∑ i ∈ Finset.range n, Polynomial.eval x (Lagrange.basis (Finset.range n) ξ i)| := by rw [hL', abs_one]
        _ ≤ ∑ i ∈ Finset.range n, |Polynomial.eval x (Lagrange.basis (Finset.range n) ξ i)| := Finset.abs_sum_le_sum_abs _ _
        _ = _ := by
          refine Finset.sum_congr rfl fun k hk => ?_
          have hk0 : |x - ξ k| ≠ 0 := (abs_pos.2 (sub_ne_zero.2 (hx k (Finset.mem_range.1 hk)))).ne'
          rw [Lagrange.basis, Polynomial.eval_prod, Finset.abs_prod]
          unfold absf
          rw [← Finset.mul_prod_erase _ _ hk, hw]
          have : ∀ P, (∏ j ∈ (Finset.range n).erase k, |ξ k - ξ j|⁻¹) * (1 / |x - ξ k|) * (|x - ξ k| * P) = (∏ j ∈ (Finset.range n).erase k, |ξ k - ξ j|⁻¹) * P := by
            intro P
            field_simp
          rw [this, ← Finset.prod_mul_distrib]
          refine Finset.prod_congr rfl fun j _ => ?_
          simp [Lagrange.basisDivisor, abs_mul, abs_inv]
    have h2 : ∀ s : Finset Nat, (∑ k ∈ s, w k * (1 / |x - ξ k|)) ^ κ ≤ ∑ k ∈ s, w k ^ κ * (1 / |x - ξ k| ^ κ) := by
      intro s
      induction s using Finset.induction_on with
      | empty => simp [hκ.ne']
      | insert i s hi ih =>
        rw [Finset.sum_insert hi, Finset.sum_insert hi]
        have p1 : 0 ≤ w i * (1 / |x - ξ i|) := by rw [hw]; positivity
        have p2 : 0 ≤ ∑ k ∈ s, w k * (1 / |x - ξ k|) := Finset.sum_nonneg fun k _ => by rw [hw]; positivity
        refine (Real.rpow_add_le_add_rpow p1 p2 hκ.le hκ1.le).trans (add_le_add (le_of_eq ?_) ih)
        rw [Real.mul_rpow (by rw [hw]; positivity) (by positivity), Real.div_rpow zero_le_one (abs_nonneg _), Real.one_rpow]
    calc 1 / absf n ξ x ^ κ = (1 / absf n ξ x) ^ κ := by rw [Real.div_rpow zero_le_one hp.le, Real.one_rpow]
      _ ≤ _ := (Real.rpow_le_rpow (by positivity) h1 hκ.le).trans (h2 _)
  have hi : IntervalIntegrable (fun x => ∑ k ∈ Finset.range n, w k ^ κ * (1 / |x - ξ k| ^ κ)) volume u v := by
    have := IntervalIntegrable.sum (Finset.range n) (f := fun k x => w k ^ κ * (1 / |x - ξ k| ^ κ)) (μ := volume) (a := u) (b := v) fun k _ => (inv_rpow_integrable hκ1 (ξ k) u v).const_mul _
    simpa [Finset.sum_fn] using this
  refine hi.mono_fun ?_ ?_
  · have : Measurable (fun x => 1 / absf n ξ x ^ κ) := by
      unfold absf
      fun_prop
    exact this.aestronglyMeasurable
  · have hae : ∀ᵐ x ∂(volume.restrict (uIoc u v)), ∀ k < n, x ≠ ξ k := by
      refine ae_restrict_of_ae ?_
      have : ∀ k ∈ Finset.range n, ∀ᵐ x : ℝ, x ≠ ξ k := fun k _ => by simp [ae_iff]
      have := (Finset.eventually_all (Finset.range n)).2 this
      filter_upwards [this] with x hx k hk using hx k (Finset.mem_range.2 hk)
    filter_upwards [hae] with x hx
    have h1 := hb x hx
    have h2 : 0 ≤ 1 / absf n ξ x ^ κ := div_nonneg zero_le_one (Real.rpow_nonneg (Finset.prod_nonneg fun k _ => abs_nonneg _) _)
    rw [Real.norm_of_nonneg h2, Real.norm_of_nonneg (h2.trans h1)]
    exact h1

end

end Hcp.PowPlane
