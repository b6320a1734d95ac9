import Mathlib.Analysis.Complex.CauchyIntegral
import Mathlib.RingTheory.RootsOfUnity.Complex
import Mathlib.Analysis.SpecialFunctions.Trigonometric.Chebyshev.Orthogonality
import Mathlib.Tactic.LinearCombination

/-!
# Error of the Gauss-Chebyshev rule for functions analytic in an ellipse
-/

namespace Hcp

open Complex Metric Set

/-! ## Cauchy's formula on an annulus -/

theorem annulus_cauchy {G : ℂ → ℂ} {r R : ℝ} (h0 : 0 < r) (hr : r < 1) (hR : 1 < R)
    (hG : ∀ z, r ≤ ‖z‖ → ‖z‖ ≤ R → DifferentiableAt ℂ G z) {w : ℂ} (hw : ‖w‖ = 1) :
    (∮ z in C(0, R), (z - w)⁻¹ * G z) - (∮ z in C(0, r), (z - w)⁻¹ * G z) = 2 * Real.pi * I * G w := by
  have hdW : DifferentiableAt ℂ G w := hG w (by linarith) (by linarith)
  have hcont : ContinuousOn G (closedBall 0 R \ ball 0 r) := by
    intro z hz
    simp only [mem_sdiff, mem_closedBall, mem_ball, dist_zero_right, not_lt] at hz
    exact (hG z hz.2 hz.1).continuousAt.continuousWithinAt
  have hds : ContinuousOn (dslope G w) (closedBall 0 R \ ball 0 r) := by
    intro z hz
    by_cases hzw : z = w
    · subst hzw
      exact (continuousAt_dslope_same.2 hdW).continuousWithinAt
    · simp only [mem_sdiff, mem_closedBall, mem_ball, dist_zero_right, not_lt] at hz
      exact ((continuousAt_dslope_of_ne hzw).2 (hG z hz.2 hz.1).continuousAt).continuousWithinAt
  have key := circleIntegral_eq_of_differentiable_on_annulus_off_countable (c := 0) (f := dslope G w) (s := {w}) h0 (by linarith)
    (countable_singleton w) hds (by
      intro z hz
      simp only [mem_sdiff, mem_ball, mem_closedBall, dist_zero_right, not_le, mem_singleton_iff] at hz
      exact (differentiableAt_dslope_of_ne hz.2).2 (hG z hz.1.2.le hz.1.1.le))
  have hsplit : ∀ ρ : ℝ, 0 < ρ → r ≤ ρ → ρ ≤ R → ρ ≠ 1 →
      (∮ z in C(0, ρ), dslope G w z) = (∮ z in C(0, ρ), (z - w)⁻¹ * G z) - (∮ z in C(0, ρ), (z - w)⁻¹) * G w := by
    intro ρ hρ hr1 hr2 hne
    have hsub : sphere (0 : ℂ) ρ ⊆ closedBall 0 R \ ball 0 r := by
      intro z hz
      simp only [mem_sphere, dist_zero_right] at hz
      simp only [mem_sdiff, mem_closedBall, mem_ball, dist_zero_right, not_lt, hz]
      exact ⟨hr2, hr1⟩
    have hnw : ∀ z ∈ sphere (0 : ℂ) ρ, z - w ≠ 0 := by
      intro z hz h
      simp only [mem_sphere, dist_zero_right] at hz
      rw [sub_eq_zero.1 h, hw] at hz
      exact hne hz.symm
    have hinv : ContinuousOn (fun z => (z - w)⁻¹) (sphere (0 : ℂ) ρ) := (continuousOn_id.sub continuousOn_const).inv₀ hnw
    have h1 : CircleIntegrable (fun z => (z - w)⁻¹ * G z) 0 ρ := (hinv.mul (hcont.mono hsub)).circleIntegrable hρ.le
    have h2 : CircleIntegrable (fun z => (z - w)⁻¹ • G w) 0 ρ := (hinv.mul continuousOn_const).circleIntegrable hρ.le
    rw [← smul_eq_mul (∮ z in C(0, ρ), (z - w)⁻¹) (G w), ← circleIntegral.integral_smul_const, ← circleIntegral.integral_sub h1 h2]
    apply circleIntegral.integral_congr hρ.le
    intro z hz
    have hzw : z ≠ w := fun h => hnw z hz (sub_eq_zero.2 h)
    simp only
    rw [dslope_of_ne _ hzw, slope_def_field]
    rw [div_eq_mul_inv, smul_eq_mul]
    ring
  rw [hsplit R (by linarith) (by linarith) le_rfl (by linarith), hsplit r h0 le_rfl (by linarith) (by linarith)] at key
  have e1 : (∮ z in C(0, R), (z - w)⁻¹) = 2 * Real.pi * I :=
    circleIntegral.integral_sub_inv_of_mem_ball (by simpa [mem_ball, hw] using hR)
  have e2 : (∮ z in C(0, r), (z - w)⁻¹) = 0 := by
    apply circleIntegral_eq_zero_of_differentiable_on_off_countable h0.le countable_empty
    · intro z hz
      simp only [mem_closedBall, dist_zero_right] at hz
      have : z - w ≠ 0 := fun h => by rw [sub_eq_zero.1 h] at hz; linarith
      exact ((continuousAt_id.sub continuousAt_const).inv₀ this).continuousWithinAt
    · intro z hz
      simp only [mem_sdiff, mem_ball, dist_zero_right] at hz
      have : z - w ≠ 0 := fun h => by rw [sub_eq_zero.1 h] at hz; linarith [hz.1]
      exact ((differentiableAt_id.sub (differentiableAt_const w)).inv this)
  rw [e1, e2] at key
  linear_combination key

/-! ## Partial fractions -/

/-- the `2n` points of the unit circle above the nodes -/
noncomputable def cnode (n j : Nat) : ℂ := exp ((((2 * j + 1) / (2 * n) * Real.pi : ℝ) : ℂ) * I)

theorem cnode_norm (n j : Nat) : ‖cnode n j‖ = 1 := norm_exp_ofReal_mul_I _

theorem cnode_eq {n : Nat} (hn : 0 < n) (j : Nat) : cnode n j = cnode n 0 * exp (2 * Real.pi * I / (2 * n : Nat)) ^ j := by
  unfold cnode
  rw [← exp_nat_mul, ← exp_add]
  congr 1
  have : (n : ℂ) ≠ 0 := by exact_mod_cast hn.ne'
  push_cast
  field_simp
  ring

theorem cnode_pow {n : Nat} (hn : 0 < n) (j : Nat) : cnode n j ^ (2 * n) = -1 := by
  unfold cnode
  rw [← exp_nat_mul]
  have : (n : ℂ) ≠ 0 := by exact_mod_cast hn.ne'
  have e : ((2 * n : Nat) : ℂ) * ((((2 * j + 1) / (2 * n) * Real.pi : ℝ) : ℂ) * I) = Real.pi * I + j * (2 * Real.pi * I) := by
    push_cast
    field_simp
    ring
  rw [e, exp_add, exp_pi_mul_I, exp_nat_mul_two_pi_mul_I, mul_one]

theorem sum_geom_inv {N : Nat} (hN : 0 < N) {ω : ℂ} (hω : IsPrimitiveRoot ω N) {x : ℂ} (hx : x ^ N ≠ 1) :
    ∑ j ∈ Finset.range N, (1 - x * ω ^ j)⁻¹ = N * (1 - x ^ N)⁻¹ := by
  have hx1 : 1 - x ^ N ≠ 0 := sub_ne_zero.2 (Ne.symm hx)
  have h1 : ∀ j, (1 - x * ω ^ j)⁻¹ = (1 - x ^ N)⁻¹ * ∑ k ∈ Finset.range N, (x * ω ^ j) ^ k := by
    intro j
    have hp : (x * ω ^ j) ^ N = x ^ N := by
      rw [mul_pow, ← pow_mul, mul_comm j N, pow_mul, hω.pow_eq_one, one_pow, mul_one]
    have hg := mul_neg_geom_sum (x * ω ^ j) N
    rw [hp] at hg
    have hne : 1 - x * ω ^ j ≠ 0 := fun h => hx1 (by rw [← hg, h, zero_mul])
    rw [← hg, mul_inv, mul_assoc, inv_mul_cancel₀, mul_one]
    intro h
    rw [h, mul_zero] at hg
    exact hx1 hg.symm
  simp only [h1]
  rw [← Finset.mul_sum, Finset.sum_comm, mul_comm]
  congr 1
  have h2 : ∀ k ∈ Finset.range N, ∑ j ∈ Finset.range N, (x * ω ^ j) ^ k = if k = 0 then (N : ℂ) else 0 := by
    intro k hk
    split
    · rename_i h
      subst h
      simp
    · rename_i h
      have hk' := Finset.mem_range.1 hk
      have e : ∀ j, (x * ω ^ j) ^ k = x ^ k * (ω ^ k) ^ j := by
        intro j
        rw [mul_pow, ← pow_mul, ← pow_mul, mul_comm j k]
      simp only [e]
      rw [← Finset.mul_sum]
      have hne : ω ^ k ≠ 1 := hω.pow_ne_one_of_pos_of_lt h hk'
      have hg := mul_neg_geom_sum (ω ^ k) N
      rw [← pow_mul, mul_comm k N, pow_mul, hω.pow_eq_one, one_pow, sub_self] at hg
      rw [(mul_eq_zero.1 hg).resolve_left (sub_ne_zero.2 (Ne.symm hne)), mul_zero]
  rw [Finset.sum_congr rfl h2, Finset.sum_ite_eq' (Finset.range N) 0]
  simp [hN]

theorem sum_cnodes {n : Nat} (hn : 0 < n) {z : ℂ} (hz0 : z ≠ 0) (hz : z ^ (2 * n) ≠ -1) :
    ∑ j ∈ Finset.range (2 * n), (z - cnode n j)⁻¹ = (2 * n : Nat) * (z⁻¹ * (z ^ (2 * n) / (z ^ (2 * n) + 1))) := by
  have hω : IsPrimitiveRoot (exp (2 * Real.pi * I / (2 * n : Nat))) (2 * n) := isPrimitiveRoot_exp (2 * n) (by omega)
  have h1 : ∀ j, (z - cnode n j)⁻¹ = z⁻¹ * (1 - (cnode n 0 / z) * exp (2 * Real.pi * I / (2 * n : Nat)) ^ j)⁻¹ := by
    intro j
    rw [← mul_inv, cnode_eq hn]
    congr 1
    field_simp
  simp only [h1]
  have hzN : z ^ (2 * n) ≠ 0 := pow_ne_zero _ hz0
  have hz1 : z ^ (2 * n) + 1 ≠ 0 := fun h => hz (eq_neg_of_add_eq_zero_left h)
  rw [← Finset.mul_sum, sum_geom_inv (by omega) hω]
  · rw [div_pow, cnode_pow hn]
    field_simp
    ring
  · rw [div_pow, cnode_pow hn]
    intro h
    rw [div_eq_one_iff_eq hzN] at h
    exact hz h.symm

/-! ## The rule on the circle -/

theorem circle_rule {G : ℂ → ℂ} {R M : ℝ} (hR : 1 < R) (hG : ∀ z, R⁻¹ ≤ ‖z‖ → ‖z‖ ≤ R → DifferentiableAt ℂ G z)
    (hM : ∀ z, R⁻¹ ≤ ‖z‖ → ‖z‖ ≤ R → ‖G z‖ ≤ M) {n : Nat} (hn : 0 < n) :
    ‖((2 * n : Nat) : ℂ)⁻¹ * ∑ j ∈ Finset.range (2 * n), G (cnode n j) - (2 * Real.pi * I)⁻¹ * ∮ z in C(0, 1), z⁻¹ * G z‖ ≤
      2 * M / (R ^ (2 * n) - 1) := by
  have hR0 : 0 < R := by linarith
  have hr0 : 0 < R⁻¹ := by positivity
  have hr1 : R⁻¹ < 1 := inv_lt_one_of_one_lt₀ hR
  have hM0 : 0 ≤ M := (norm_nonneg _).trans (hM 1 (by simpa using hr1.le) (by simpa using hR.le))
  have hRN : 1 < R ^ (2 * n) := one_lt_pow₀ hR (by omega)
  have hN0 : ((2 * n : Nat) : ℂ) ≠ 0 := by exact_mod_cast (by omega : 2 * n ≠ 0)
  have hpi : (2 * Real.pi * I : ℂ) ≠ 0 := by simp [Real.pi_ne_zero]
  have hcont : ∀ ρ : ℝ, R⁻¹ ≤ ρ → ρ ≤ R → ContinuousOn G (sphere (0 : ℂ) ρ) := by
    intro ρ h1 h2 z hz
    simp only [mem_sphere, dist_zero_right] at hz
    exact (hG z (by linarith) (by linarith)).continuousAt.continuousWithinAt
  -- the mean as two integrals
  have hmean : ∀ ρ : ℝ, 0 < ρ → R⁻¹ ≤ ρ → ρ ≤ R → ρ ≠ 1 → ∑ j ∈ Finset.range (2 * n), (∮ z in C(0, ρ), (z - cnode n j)⁻¹ * G z) =
      (2 * n : Nat) * ∮ z in C(0, ρ), z⁻¹ * (z ^ (2 * n) / (z ^ (2 * n) + 1)) * G z := by
    intro ρ hρ h1 h2 hne
    rw [← circleIntegral.integral_fun_sum, ← circleIntegral.integral_const_mul]
    · apply circleIntegral.integral_congr hρ.le
      intro z hz
      simp only [mem_sphere, dist_zero_right] at hz
      have hz0 : z ≠ 0 := fun h => by rw [h, norm_zero] at hz; linarith
      have hzN : z ^ (2 * n) ≠ -1 := by
        intro h
        have : ρ ^ (2 * n) = 1 := by rw [← hz, ← norm_pow, h, norm_neg, norm_one]
        exact hne ((pow_eq_one_iff_of_nonneg hρ.le (by omega)).1 this)
      simp only
      rw [← Finset.sum_mul, sum_cnodes hn hz0 hzN]
      ring
    · intro j _
      refine ContinuousOn.circleIntegrable hρ.le (ContinuousOn.mul ?_ (hcont ρ h1 h2))
      refine (continuousOn_id.sub continuousOn_const).inv₀ fun z hz h => ?_
      simp only [mem_sphere, dist_zero_right] at hz
      have hzj : z = cnode n j := sub_eq_zero.1 h
      rw [hzj, cnode_norm] at hz
      exact hne hz.symm
  have hsum : ∑ j ∈ Finset.range (2 * n), G (cnode n j) = (2 * Real.pi * I)⁻¹ * ((2 * n : Nat) *
      ((∮ z in C(0, R), z⁻¹ * (z ^ (2 * n) / (z ^ (2 * n) + 1)) * G z) - ∮ z in C(0, R⁻¹), z⁻¹ * (z ^ (2 * n) / (z ^ (2 * n) + 1)) * G z)) := by
    rw [mul_sub, ← hmean R hR0 (by linarith) le_rfl (by linarith), ← hmean R⁻¹ hr0 le_rfl (by linarith) (by linarith), ← Finset.sum_sub_distrib,
      Finset.mul_sum]
    refine Finset.sum_congr rfl fun j _ => ?_
    rw [annulus_cauchy hr0 hr1 hR hG (cnode_norm n j), ← mul_assoc, inv_mul_cancel₀ hpi, one_mul]
  -- the integral on the circle of radius R
  have hshift : (∮ z in C(0, 1), z⁻¹ * G z) = ∮ z in C(0, R), z⁻¹ * G z := by
    have := circleIntegral_eq_of_differentiable_on_annulus_off_countable (c := 0) (f := fun z => z⁻¹ * G z) (s := ∅) one_pos hR.le countable_empty
      (by
        intro z hz
        simp only [mem_sdiff, mem_closedBall, mem_ball, dist_zero_right, not_lt] at hz
        have hz0 : z ≠ 0 := fun h => by rw [h, norm_zero] at hz; linarith [hz.2]
        exact (ContinuousAt.mul (continuousAt_inv₀ hz0) (hG z (by linarith [hz.2]) hz.1).continuousAt).continuousWithinAt)
      (by
        intro z hz
        simp only [mem_sdiff, mem_closedBall, mem_ball, dist_zero_right, not_le, mem_empty_iff_false, not_false_eq_true, and_true] at hz
        have hz0 : z ≠ 0 := fun h => by rw [h, norm_zero] at hz; linarith [hz.2]
        exact DifferentiableAt.mul (differentiableAt_inv hz0) (hG z (by linarith [hz.2]) hz.1.le))
    exact this.symm
  have hden : ∀ z : ℂ, ‖z‖ = R → z ≠ 0 ∧ z ^ (2 * n) + 1 ≠ 0 ∧ R ^ (2 * n) - 1 ≤ ‖z ^ (2 * n) + 1‖ := by
    intro z hz
    have h1 : R ^ (2 * n) - 1 ≤ ‖z ^ (2 * n) + 1‖ := by
      have := norm_sub_norm_le (z ^ (2 * n)) (-1)
      rw [norm_pow, hz, norm_neg, norm_one, sub_neg_eq_add] at this
      exact this
    refine ⟨fun h => by rw [h, norm_zero] at hz; linarith, fun h => ?_, h1⟩
    rw [h, norm_zero] at h1
    linarith
  have hden' : ∀ z : ℂ, ‖z‖ = R⁻¹ → z ≠ 0 ∧ z ^ (2 * n) + 1 ≠ 0 ∧ 1 - (R ^ (2 * n))⁻¹ ≤ ‖z ^ (2 * n) + 1‖ := by
    intro z hz
    have h1 : 1 - (R ^ (2 * n))⁻¹ ≤ ‖z ^ (2 * n) + 1‖ := by
      have := norm_sub_norm_le 1 (-z ^ (2 * n))
      rw [norm_neg, norm_pow, hz, norm_one, sub_neg_eq_add, inv_pow, add_comm] at this
      exact this
    refine ⟨fun h => by rw [h, norm_zero] at hz; linarith, fun h => ?_, h1⟩
    rw [h, norm_zero] at h1
    have := inv_lt_one_of_one_lt₀ hRN
    linarith
  have hfin : ((2 * n : Nat) : ℂ)⁻¹ * ∑ j ∈ Finset.range (2 * n), G (cnode n j) - (2 * Real.pi * I)⁻¹ * ∮ z in C(0, 1), z⁻¹ * G z =
      -((2 * Real.pi * I)⁻¹ • ∮ z in C(0, R), z⁻¹ * (z ^ (2 * n) + 1)⁻¹ * G z) -
        (2 * Real.pi * I)⁻¹ • ∮ z in C(0, R⁻¹), z⁻¹ * (z ^ (2 * n) / (z ^ (2 * n) + 1)) * G z := by
    rw [hsum, hshift]
    have hx : (∮ z in C(0, R), z⁻¹ * (z ^ (2 * n) / (z ^ (2 * n) + 1)) * G z) = (∮ z in C(0, R), z⁻¹ * G z) - ∮ z in C(0, R), z⁻¹ * (z ^ (2 * n) + 1)⁻¹ * G z := by
      rw [← circleIntegral.integral_sub]
      · apply circleIntegral.integral_congr hR0.le
        intro z hz
        simp only [mem_sphere, dist_zero_right] at hz
        obtain ⟨a, b, -⟩ := hden z hz
        simp only
        field_simp
        ring
      · refine ContinuousOn.circleIntegrable hR0.le (ContinuousOn.mul (continuousOn_id.inv₀ fun z hz => ?_) (hcont R (by linarith) le_rfl))
        simp only [mem_sphere, dist_zero_right] at hz
        exact (hden z hz).1
      · refine ContinuousOn.circleIntegrable hR0.le (ContinuousOn.mul (ContinuousOn.mul (continuousOn_id.inv₀ fun z hz => ?_) ?_) (hcont R (by linarith) le_rfl))
        · simp only [mem_sphere, dist_zero_right] at hz
          exact (hden z hz).1
        · refine ContinuousOn.inv₀ (by fun_prop) fun z hz => ?_
          simp only [mem_sphere, dist_zero_right] at hz
          exact (hden z hz).2.1
    rw [hx, smul_eq_mul, smul_eq_mul]
    field_simp
    ring
  rw [hfin]
  have b1 := circleIntegral.norm_two_pi_i_inv_smul_integral_le_of_norm_le_const (c := 0) (R := R) (C := M / (R * (R ^ (2 * n) - 1)))
    (f := fun z => z⁻¹ * (z ^ (2 * n) + 1)⁻¹ * G z) hR0.le (by
      intro z hz
      simp only [mem_sphere, dist_zero_right] at hz
      obtain ⟨a, b, c⟩ := hden z hz
      rw [norm_mul, norm_mul, norm_inv, norm_inv, hz, div_eq_inv_mul, mul_inv]
      have hg := hM z (by linarith) (by linarith)
      have h3 : ‖z ^ (2 * n) + 1‖⁻¹ ≤ (R ^ (2 * n) - 1)⁻¹ := inv_anti₀ (by linarith) c
      exact mul_le_mul (mul_le_mul_of_nonneg_left h3 hr0.le) hg (norm_nonneg _) (by
        have : 0 < R ^ (2 * n) - 1 := by linarith
        positivity))
  have b2 := circleIntegral.norm_two_pi_i_inv_smul_integral_le_of_norm_le_const (c := 0) (R := R⁻¹) (C := R * (R ^ (2 * n))⁻¹ * (1 - (R ^ (2 * n))⁻¹)⁻¹ * M)
    (f := fun z => z⁻¹ * (z ^ (2 * n) / (z ^ (2 * n) + 1)) * G z) hr0.le (by
      intro z hz
      simp only [mem_sphere, dist_zero_right] at hz
      obtain ⟨a, b, c⟩ := hden' z hz
      rw [norm_mul, norm_mul, norm_inv, norm_div, norm_pow, hz, inv_inv, inv_pow, div_eq_mul_inv]
      have hg := hM z (by linarith) (by linarith)
      have hp : 0 < 1 - (R ^ (2 * n))⁻¹ := by
        have := inv_lt_one_of_one_lt₀ hRN
        linarith
      have h3 : ‖z ^ (2 * n) + 1‖⁻¹ ≤ (1 - (R ^ (2 * n))⁻¹)⁻¹ := inv_anti₀ hp c
      rw [← mul_assoc]
      exact mul_le_mul (mul_le_mul_of_nonneg_left h3 (by positivity)) hg (norm_nonneg _) (by positivity))
  refine (norm_sub_le _ _).trans ?_
  rw [norm_neg]
  refine (add_le_add b1 b2).trans (le_of_eq ?_)
  have h4 : R ^ (2 * n) - 1 ≠ 0 := by linarith
  have h5 : R ^ (2 * n) ≠ 0 := by positivity
  have h6 : 1 - (R ^ (2 * n))⁻¹ = (R ^ (2 * n) - 1) / R ^ (2 * n) := by field_simp
  rw [h6]
  field_simp
  ring

/-! ## The rule on the segment -/

namespace Spec

/-- the closed ellipse with foci `-1`, `1` and half axis `r` -/
def ellipse (r : ℝ) : Set ℂ := {z | ‖z - 1‖ + ‖z + 1‖ ≤ 2 * r}

end Spec

theorem joukowski_mem {R r : ℝ} (hR : 1 < R) (hr : R + R⁻¹ = 2 * r) {w : ℂ} (h1 : R⁻¹ ≤ ‖w‖) (h2 : ‖w‖ ≤ R) :
    (w + w⁻¹) / 2 ∈ Spec.ellipse r := by
  have hR0 : 0 < R := by linarith
  have hw : 0 < ‖w‖ := lt_of_lt_of_le (by positivity) h1
  have hw0 : w ≠ 0 := norm_pos_iff.1 hw
  unfold Spec.ellipse
  simp only [mem_ofPred_eq]
  have e1 : (w + w⁻¹) / 2 - 1 = (w - 1) ^ 2 / (2 * w) := by field_simp; ring
  have e2 : (w + w⁻¹) / 2 + 1 = (w + 1) ^ 2 / (2 * w) := by field_simp; ring
  rw [e1, e2, norm_div, norm_div, norm_pow, norm_pow, norm_mul]
  have e3 : ‖w - 1‖ ^ 2 + ‖w + 1‖ ^ 2 = 2 * (‖w‖ ^ 2 + 1) := by
    rw [← normSq_eq_norm_sq, ← normSq_eq_norm_sq, ← normSq_eq_norm_sq]
    simp only [normSq_apply, sub_re, sub_im, add_re, add_im, one_re, one_im]
    ring
  rw [← add_div, e3, show ‖(2 : ℂ)‖ = 2 by norm_num]
  have e4 : 2 * (‖w‖ ^ 2 + 1) / (2 * ‖w‖) = ‖w‖ + ‖w‖⁻¹ := by field_simp
  rw [e4, ← hr]
  have h3 : (‖w‖ - R) * (‖w‖ - R⁻¹) ≤ 0 := mul_nonpos_of_nonpos_of_nonneg (by linarith) (by linarith)
  have h4 : ‖w‖ ^ 2 + 1 ≤ (R + R⁻¹) * ‖w‖ := by
    have : R * R⁻¹ = 1 := mul_inv_cancel₀ hR0.ne'
    nlinarith
  have h5 : ‖w‖ + ‖w‖⁻¹ = (‖w‖ ^ 2 + 1) / ‖w‖ := by field_simp
  rw [h5, div_le_iff₀ hw]
  exact h4

theorem circle_mean {f : ℂ → ℂ} (hf : Continuous fun t : ℝ => f (Real.cos t)) :
    (2 * Real.pi * I)⁻¹ * ∮ z in C(0, 1), z⁻¹ * f ((z + z⁻¹) / 2) = (Real.pi : ℂ)⁻¹ * ∫ t in (0 : ℝ)..Real.pi, f (Real.cos t) := by
  have h1 : (∮ z in C(0, 1), z⁻¹ * f ((z + z⁻¹) / 2)) = I * ∫ t in (0 : ℝ)..2 * Real.pi, f (Real.cos t) := by
    unfold circleIntegral
    rw [← intervalIntegral.integral_const_mul]
    apply intervalIntegral.integral_congr
    intro t _
    simp only [deriv_circleMap, smul_eq_mul]
    have hc : circleMap 0 1 t ≠ 0 := circleMap_ne_center one_ne_zero
    have e : (circleMap 0 1 t + (circleMap 0 1 t)⁻¹) / 2 = (Real.cos t : ℂ) := by
      unfold circleMap
      rw [zero_add, ofReal_one, one_mul, ← exp_neg, ofReal_cos, Complex.cos, neg_mul]
    rw [e]
    field_simp
  have h2 : ∫ t in (0 : ℝ)..2 * Real.pi, f (Real.cos t) = 2 * ∫ t in (0 : ℝ)..Real.pi, f (Real.cos t) := by
    rw [← intervalIntegral.integral_add_adjacent_intervals (hf.intervalIntegrable 0 Real.pi) (hf.intervalIntegrable Real.pi (2 * Real.pi))]
    have := intervalIntegral.integral_comp_sub_left (a := 0) (b := Real.pi) (fun t : ℝ => f (Real.cos t)) (2 * Real.pi)
    rw [sub_zero, show 2 * Real.pi - Real.pi = Real.pi by ring] at this
    rw [← this]
    simp only [Real.cos_two_pi_sub]
    ring
  rw [h1, h2]
  have hpi : (Real.pi : ℂ) ≠ 0 := by exact_mod_cast Real.pi_ne_zero
  field_simp [I_ne_zero]

theorem integral_cos_eq {f : ℂ → ℂ} (hf : ContinuousOn (fun x : ℝ => f x) (Icc (-1) 1)) :
    ∫ t in (0 : ℝ)..Real.pi, f (Real.cos t) = ∫ x in (-1 : ℝ)..1, f x * ((√(1 - x ^ 2)⁻¹ : ℝ) : ℂ) := by
  have hc : Continuous fun t : ℝ => f (Real.cos t) := by
    rw [← continuousOn_univ]
    exact hf.comp Real.continuous_cos.continuousOn fun t _ => ⟨Real.neg_one_le_cos t, Real.cos_le_one t⟩
  have hw : IntervalIntegrable (fun x : ℝ => √(1 - x ^ 2)⁻¹) MeasureTheory.volume (-1) 1 := Polynomial.Chebyshev.intervalIntegrable_sqrt_one_sub_sq_inv
  have hint : IntervalIntegrable (fun x : ℝ => f x * ((√(1 - x ^ 2)⁻¹ : ℝ) : ℂ)) MeasureTheory.volume (-1) 1 := by
    have hw' : IntervalIntegrable (fun x : ℝ => ((√(1 - x ^ 2)⁻¹ : ℝ) : ℂ)) MeasureTheory.volume (-1) 1 := ⟨hw.1.ofReal, hw.2.ofReal⟩
    apply hw'.continuousOn_mul
    rwa [uIcc_of_le (by norm_num)]
  apply Complex.ext
  · have h1 := reCLM.intervalIntegral_comp_comm (hc.intervalIntegrable (μ := MeasureTheory.volume) 0 Real.pi)
    have h2 := reCLM.intervalIntegral_comp_comm hint
    simp only [reCLM_apply, re_mul_ofReal] at h1 h2
    rw [← h1, ← h2]
    have := Polynomial.Chebyshev.integral_measureT_eq_integral_cos (f := fun x => (f x).re)
    rw [Polynomial.Chebyshev.integral_measureT] at this
    exact this.symm
  · have h1 := imCLM.intervalIntegral_comp_comm (hc.intervalIntegrable (μ := MeasureTheory.volume) 0 Real.pi)
    have h2 := imCLM.intervalIntegral_comp_comm hint
    simp only [imCLM_apply, im_mul_ofReal] at h1 h2
    rw [← h1, ← h2]
    have := Polynomial.Chebyshev.integral_measureT_eq_integral_cos (f := fun x => (f x).im)
    rw [Polynomial.Chebyshev.integral_measureT] at this
    exact this.symm

theorem real_mem_ellipse {r : ℝ} (hr : 1 ≤ r) {x : ℝ} (hx : x ∈ Icc (-1 : ℝ) 1) : (x : ℂ) ∈ Spec.ellipse r := by
  unfold Spec.ellipse
  simp only [mem_ofPred_eq]
  have e1 : ‖(x : ℂ) - 1‖ = 1 - x := by
    rw [show (x : ℂ) - 1 = ((x - 1 : ℝ) : ℂ) by push_cast; ring, norm_real, Real.norm_of_nonpos (by linarith [hx.2])]
    ring
  have e2 : ‖(x : ℂ) + 1‖ = 1 + x := by
    rw [show (x : ℂ) + 1 = ((1 + x : ℝ) : ℂ) by push_cast; ring, norm_real, Real.norm_of_nonneg (by linarith [hx.1])]
  rw [e1, e2]
  linarith

/-- **Error of the Gauss-Chebyshev rule.**  If `f` is differentiable on the closed ellipse of half axis `r = (R + 1/R)/2` and bounded by `M` there, the rule with
`n` nodes differs from the integral by at most `2 pi M / (R^(2n) - 1)`. -/
theorem gauss_chebyshev_error {f : ℂ → ℂ} {R r M : ℝ} (hR : 1 < R) (hr : R + R⁻¹ = 2 * r) (hf : ∀ z ∈ Spec.ellipse r, DifferentiableAt ℂ f z)
    (hM : ∀ z ∈ Spec.ellipse r, ‖f z‖ ≤ M) {n : Nat} (hn : 0 < n) :
    ‖(Real.pi / n : ℂ) * ∑ k ∈ Finset.range n, f (Real.cos ((2 * k + 1) / (2 * n) * Real.pi)) -
      ∫ x in (-1 : ℝ)..1, f x * ((√(1 - x ^ 2)⁻¹ : ℝ) : ℂ)‖ ≤ 2 * Real.pi * M / (R ^ (2 * n) - 1) := by
  have hR0 : 0 < R := by linarith
  have hr1 : 1 ≤ r := by
    have h1 : (R - 1) ^ 2 ≥ 0 := sq_nonneg _
    have h2 : R * R⁻¹ = 1 := mul_inv_cancel₀ hR0.ne'
    nlinarith [inv_pos.2 hR0]
  have hreal : ContinuousOn (fun x : ℝ => f x) (Icc (-1) 1) := by
    intro x hx
    have h1 : ContinuousAt f (x : ℂ) := (hf x (real_mem_ellipse hr1 hx)).continuousAt
    exact (ContinuousAt.comp (f := fun x : ℝ => (x : ℂ)) h1 continuous_ofReal.continuousAt).continuousWithinAt
  have hc : Continuous fun t : ℝ => f (Real.cos t) := by
    rw [← continuousOn_univ]
    exact hreal.comp Real.continuous_cos.continuousOn fun t _ => ⟨Real.neg_one_le_cos t, Real.cos_le_one t⟩
  have key := circle_rule (G := fun z => f ((z + z⁻¹) / 2)) (M := M) hR (by
    intro z h1 h2
    have hz0 : z ≠ 0 := norm_pos_iff.1 (lt_of_lt_of_le (by positivity) h1)
    have hj := hf _ (joukowski_mem hR hr h1 h2)
    exact hj.comp z ((differentiableAt_id.add (differentiableAt_inv hz0)).div_const 2))
    (fun z h1 h2 => hM _ (joukowski_mem hR hr h1 h2)) hn
  rw [circle_mean hc, integral_cos_eq hreal] at key
  have hnode : ∀ j, f ((cnode n j + (cnode n j)⁻¹) / 2) = f (Real.cos ((2 * j + 1) / (2 * n) * Real.pi)) := by
    intro j
    congr 1
    unfold cnode
    rw [← exp_neg, ofReal_cos, Complex.cos, neg_mul]
  simp only [hnode] at key
  have hhalf : ∑ j ∈ Finset.range (2 * n), f (Real.cos ((2 * j + 1) / (2 * n) * Real.pi)) =
      2 * ∑ k ∈ Finset.range n, f (Real.cos ((2 * k + 1) / (2 * n) * Real.pi)) := by
    rw [show Finset.range (2 * n) = Finset.range (n + n) by rw [two_mul], Finset.sum_range_add,
      two_mul (∑ k ∈ Finset.range n, f (Real.cos ((2 * k + 1) / (2 * n) * Real.pi)))]
    congr 1
    refine (Finset.sum_range_reflect (fun k => f (Real.cos ((2 * ((n + k : Nat) : ℝ) + 1) / (2 * n) * Real.pi))) n).symm.trans ?_
    refine Finset.sum_congr rfl fun j hj => ?_
    have hj' := Finset.mem_range.1 hj
    have hn' : (n : ℝ) ≠ 0 := by exact_mod_cast hn.ne'
    congr 2
    rw [← Real.cos_two_pi_sub]
    congr 1
    rw [show ((n + (n - 1 - j) : Nat) : ℝ) = 2 * n - 1 - j by
      have h : n + (n - 1 - j) + (1 + j) = 2 * n := by omega
      have h2 : ((n + (n - 1 - j) + (1 + j) : Nat) : ℝ) = ((2 * n : Nat) : ℝ) := by rw [h]
      push_cast at h2 ⊢
      linarith]
    field_simp
    ring
  rw [hhalf] at key
  have hpi : (Real.pi : ℂ) ≠ 0 := by exact_mod_cast Real.pi_ne_zero
  have hn0 : (n : ℂ) ≠ 0 := by exact_mod_cast hn.ne'
  have e : (Real.pi / n : ℂ) * ∑ k ∈ Finset.range n, f (Real.cos ((2 * k + 1) / (2 * n) * Real.pi)) -
      ∫ x in (-1 : ℝ)..1, f x * ((√(1 - x ^ 2)⁻¹ : ℝ) : ℂ) = (Real.pi : ℂ) * (((2 * n : Nat) : ℂ)⁻¹ *
      (2 * ∑ k ∈ Finset.range n, f (Real.cos ((2 * k + 1) / (2 * n) * Real.pi))) - (Real.pi : ℂ)⁻¹ *
      ∫ x in (-1 : ℝ)..1, f x * ((√(1 - x ^ 2)⁻¹ : ℝ) : ℂ)) := by
    push_cast
    field_simp
  rw [e, norm_mul, norm_real, Real.norm_of_nonneg Real.pi_pos.le]
  refine (mul_le_mul_of_nonneg_left key Real.pi_pos.le).trans (le_of_eq ?_)
  ring

end Hcp
