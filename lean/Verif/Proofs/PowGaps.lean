import Verif.Proofs.PowArea

/-!
# From the real line to the segments between two roots, exponent `κ`
-/

namespace Hcp.PowPlane
open Complex Set MeasureTheory Filter Topology Interval
open HalfPlane (absf pol ae_ne cut cut_zero cut_last cut_mid Sorted bil_split congr_Ioo)

/-- `exp (i π κ)` -/
noncomputable def phase (κ : ℝ) : ℂ := exp (κ * Real.pi * I)

theorem phase_pow (κ : ℝ) (p : Nat) : phase κ ^ p = exp ((κ * Real.pi * p : ℝ) * I) := by
  unfold phase
  rw [← exp_nat_mul]
  push_cast
  ring_nf

theorem conj_phase_pow (κ : ℝ) (p : Nat) : (starRingEnd ℂ) (phase κ) ^ p = exp ((-(κ * Real.pi * p) : ℝ) * I) := by
  rw [← map_pow, phase_pow, ← exp_conj, map_mul, conj_ofReal, conj_I]
  push_cast
  ring_nf

theorem conj_mul_phase (κ : ℝ) : (starRingEnd ℂ) (phase κ) * phase κ = 1 := by
  have h1 := conj_phase_pow κ 1
  have h2 := phase_pow κ 1
  rw [pow_one] at h1 h2
  rw [h1, h2, ← exp_add]
  push_cast
  ring_nf
  exact exp_zero

theorem phase_compl (κ : ℝ) : phase (1 - κ) = -(starRingEnd ℂ) (phase κ) := by
  have h1 := conj_phase_pow κ 1
  rw [pow_one] at h1
  rw [h1]
  unfold phase
  rw [show (((1 - κ : ℝ) : ℂ) * Real.pi * I) = Real.pi * I + ((-(κ * Real.pi * (1 : Nat)) : ℝ) : ℂ) * I by push_cast; ring, exp_add, exp_pi_mul_I]
  ring

theorem phase_im {κ : ℝ} {p l : Nat} : ((starRingEnd ℂ) (phase κ) ^ p * phase κ ^ l).im = Real.sin (κ * Real.pi * ((l : ℝ) - p)) := by
  rw [conj_phase_pow, phase_pow, ← exp_add, ← add_mul, ← ofReal_add, exp_ofReal_mul_I_im]
  congr 1
  ring

section
variable {κ κ' : ℝ} {n g g' : Nat} {ξ : Nat → ℝ} {a : Fin g → ℝ} {b : Fin g' → ℝ}

/-- the real integrand -/
noncomputable def rdif (κ : ℝ) (n : Nat) (ξ : Nat → ℝ) {g : Nat} (a : Fin g → ℝ) (x : ℝ) : ℝ := (∑ i, a i * x ^ i.val) / absf n ξ x ^ κ

/-- phase of the power on a segment -/
theorem dif_phase {R : ℝ} (h : Sorted n ξ R) {j : Nat} (hj : j ≤ n) {x : ℝ} (hx : x ∈ Ioo (cut n ξ R j) (cut n ξ R (j + 1))) : dif κ n ξ a x = (starRingEnd ℂ) (phase κ) ^ n * phase κ ^ j * (rdif κ n ξ a x : ℝ) := by
  have hlow : ∀ k < j, 0 < x - ξ k := by
    intro k hk
    obtain ⟨i, rfl⟩ : ∃ i, j = i + 1 := ⟨j - 1, by omega⟩
    have hx1 := hx.1
    rw [cut_mid R (by omega : i < n)] at hx1
    rcases Nat.lt_or_ge k i with h1 | h1
    · have := h.mono k i h1 (by omega)
      linarith
    · rw [show k = i by omega]; linarith
  have hhigh : ∀ k, j ≤ k → k < n → x - ξ k < 0 := by
    intro k hk hkn
    have hx2 := hx.2
    rw [cut_mid R (by omega : j < n)] at hx2
    rcases Nat.lt_or_ge j k with h1 | h1
    · have := h.mono j k h1 hkn
      linarith
    · rw [show k = j by omega]; linarith
  have hs : ∀ k ∈ Finset.range n, pw κ ((x : ℂ) - ξ k) = (if j ≤ k then phase κ else 1) * (|x - ξ k| ^ κ : ℝ) := by
    intro k hk
    rw [← ofReal_sub]
    by_cases hjk : j ≤ k
    · have h1 := hhigh k hjk (Finset.mem_range.1 hk)
      rw [if_pos hjk, pw_neg h1, abs_of_neg h1, phase]
    · have h1 := hlow k (by omega)
      rw [if_neg hjk, pw_pos h1, abs_of_pos h1, one_mul]
  have hroot : root κ n ξ x = phase κ ^ (n - j) * (absf n ξ x ^ κ : ℝ) := by
    unfold root absf
    rw [Finset.prod_congr rfl hs, Finset.prod_mul_distrib, ← Real.finsetProd_rpow _ _ fun k _ => abs_nonneg _, ofReal_prod]
    congr 1
    rw [Finset.prod_ite, Finset.prod_const_one, mul_one, Finset.prod_const]
    congr 1
    have : (Finset.range n).filter (fun k => j ≤ k) = Finset.Ico j n := by
      ext k
      simp only [Finset.mem_filter, Finset.mem_range, Finset.mem_Ico]
      omega
    rw [this, Nat.card_Ico]
  have hI : (starRingEnd ℂ) (phase κ) ^ n * phase κ ^ j * phase κ ^ (n - j) = 1 := by
    rw [mul_assoc, ← pow_add, show j + (n - j) = n by omega, ← mul_pow, conj_mul_phase, one_pow]
  have hI0 : phase κ ^ (n - j) ≠ 0 := pow_ne_zero _ (exp_ne_zero _)
  unfold dif rdif
  rw [hroot, pol, ofReal_div]
  push_cast
  rw [← div_div, eq_div_of_mul_eq hI0 hI]
  ring

theorem rdif_integrable (hκ : 0 < κ) (hκ1 : κ < 1) (hξ : InjOn ξ (Iio n)) (hn : 0 < n) (u v : ℝ) : IntervalIntegrable (rdif κ n ξ a) volume u v := by
  have : IntervalIntegrable (fun x => (∑ i, a i * x ^ i.val) * (1 / absf n ξ x ^ κ)) volume u v :=
    (absf_integrable hκ hκ1 hξ hn u v).continuousOn_mul (by fun_prop : Continuous fun x : ℝ => ∑ i, a i * x ^ i.val).continuousOn
  refine this.congr fun x _ => ?_
  unfold rdif
  rw [mul_one_div]

/-- integral of the real integrand over a segment -/
noncomputable def gap (κ : ℝ) (n : Nat) (ξ : Nat → ℝ) {g : Nat} (R : ℝ) (a : Fin g → ℝ) (j : Nat) : ℝ := ∫ x in (cut n ξ R j)..(cut n ξ R (j + 1)), rdif κ n ξ a x

theorem dif_gap {R : ℝ} (h : Sorted n ξ R) {j : Nat} (hj : j ≤ n) {x : ℝ} (hx : x ∈ Icc (cut n ξ R j) (cut n ξ R (j + 1))) :
    ∫ s in (cut n ξ R j)..x, dif κ n ξ a s = (starRingEnd ℂ) (phase κ) ^ n * phase κ ^ j * ((∫ s in (cut n ξ R j)..x, rdif κ n ξ a s : ℝ) : ℂ) := by
  rw [← intervalIntegral.integral_ofReal, ← intervalIntegral.integral_const_mul]
  exact congr_Ioo hx.1 fun s hs => dif_phase h hj ⟨hs.1, hs.2.trans_le hx.2⟩

theorem gap_dif {R : ℝ} (h : Sorted n ξ R) (hR : 0 ≤ R) {j : Nat} (hj : j ≤ n) : ∫ s in (cut n ξ R j)..(cut n ξ R (j + 1)), dif κ n ξ a s = (starRingEnd ℂ) (phase κ) ^ n * phase κ ^ j * (gap κ n ξ R a j : ℂ) :=
  dif_gap h hj ⟨h.cut_le hR hj, le_rfl⟩

theorem pri_zero (R x : ℝ) : pri κ n ξ a R 0 x = ∫ s in (cut n ξ R 0)..x, dif κ n ξ a s := by
  unfold pri
  rw [cut_zero]
  simp only [dif_real]

theorem dif_int (hκ : 0 < κ) (hκ1 : κ < 1) (hξ : InjOn ξ (Iio n)) (hn : 0 < n) (u v : ℝ) : IntervalIntegrable (fun x : ℝ => dif κ n ξ a x) volume u v := by
  have := dif_integrable (a := a) hκ hκ1 hξ hn le_rfl zero_le_one u v
  simpa only [dif_real] using this

theorem line_one (hκ : 0 < κ) (hκ1 : κ < 1) {R : ℝ} (h : Sorted n ξ R) (hR : 0 ≤ R) (hn : 0 < n) : pri κ n ξ a R 0 R = (starRingEnd ℂ) (phase κ) ^ n * ∑ j ∈ Finset.range (n + 1), phase κ ^ j * (gap κ n ξ R a j : ℂ) := by
  rw [pri_zero]
  have e := intervalIntegral.sum_integral_adjacent_intervals (a := cut n ξ R) (n := n + 1) fun j _ => dif_int (a := a) hκ hκ1 h.inj hn _ _
  rw [cut_last] at e
  rw [← e, Finset.mul_sum]
  refine Finset.sum_congr rfl fun j hj => ?_
  rw [gap_dif h hR (by have := Finset.mem_range.1 hj; omega), mul_assoc]

/-- the integral over a segment of `U dU'` where `U` starts at its left end -/
noncomputable def diag (κ κ' : ℝ) (n : Nat) (ξ : Nat → ℝ) {g g' : Nat} (R : ℝ) (a : Fin g → ℝ) (b : Fin g' → ℝ) (j : Nat) : ℝ := ∫ x in (cut n ξ R j)..(cut n ξ R (j + 1)), (∫ s in (cut n ξ R j)..x, rdif κ n ξ a s) * rdif κ' n ξ b x

theorem line_two (hκ : 0 < κ) (hκ1 : κ < 1) (hκ' : 0 < κ') (hκ1' : κ' < 1) {R : ℝ} (h : Sorted n ξ R) (hR : 0 ≤ R) (hn : 0 < n) : ∫ x in (-R)..R, pri κ n ξ a R 0 x * dif κ' n ξ b x =
    ((starRingEnd ℂ) (phase κ) ^ n * (starRingEnd ℂ) (phase κ') ^ n) * ∑ j ∈ Finset.range (n + 1), ((∑ i ∈ Finset.range j, phase κ ^ i * (gap κ n ξ R a i : ℂ)) * (phase κ' ^ j * (gap κ' n ξ R b j : ℂ)) + phase κ ^ j * phase κ' ^ j * (diag κ κ' n ξ R a b j : ℂ)) := by
  have e := bil_split (dif_int (a := a) hκ hκ1 h.inj hn) (dif_int (a := b) hκ' hκ1' h.inj hn) (cut n ξ R) (n + 1)
  rw [cut_zero, cut_last] at e
  simp only [pri_zero, cut_zero]
  rw [e, Finset.mul_sum]
  refine Finset.sum_congr rfl fun j hj => ?_
  have hj' : j ≤ n := by have := Finset.mem_range.1 hj; omega
  have e1 : ∑ i ∈ Finset.range j, ∫ s in (cut n ξ R i)..(cut n ξ R (i + 1)), dif κ n ξ a s = (starRingEnd ℂ) (phase κ) ^ n * ∑ i ∈ Finset.range j, phase κ ^ i * (gap κ n ξ R a i : ℂ) := by
    rw [Finset.mul_sum]
    refine Finset.sum_congr rfl fun i hi => ?_
    rw [gap_dif h hR (by have := Finset.mem_range.1 hi; omega), mul_assoc]
  have e2 : ∫ x in (cut n ξ R j)..(cut n ξ R (j + 1)), (∫ s in (cut n ξ R j)..x, dif κ n ξ a s) * dif κ' n ξ b x = ((starRingEnd ℂ) (phase κ) ^ n * (starRingEnd ℂ) (phase κ') ^ n) * (phase κ ^ j * phase κ' ^ j * (diag κ κ' n ξ R a b j : ℂ)) := by
    unfold diag
    rw [← intervalIntegral.integral_ofReal, ← intervalIntegral.integral_const_mul, ← intervalIntegral.integral_const_mul]
    refine congr_Ioo (h.cut_le hR hj') fun x hx => ?_
    rw [dif_gap h hj' ⟨hx.1.le, hx.2.le⟩, dif_phase h hj' hx]
    push_cast
    ring
  rw [e1, gap_dif h hR hj', e2]
  ring

theorem line_conj (hκ : 0 < κ) (hκ1 : κ < 1) {b : Fin g → ℝ} {R : ℝ} (h : Sorted n ξ R) (hR : 0 ≤ R) (hn : 0 < n) : ∫ x in (-R)..R, (starRingEnd ℂ) (pri κ n ξ a R 0 x) * dif κ n ξ b x =
    ∑ j ∈ Finset.range (n + 1), ((∑ i ∈ Finset.range j, (starRingEnd ℂ) (phase κ) ^ i * (gap κ n ξ R a i : ℂ)) * (phase κ ^ j * (gap κ n ξ R b j : ℂ)) + (diag κ κ n ξ R a b j : ℂ)) := by
  have hcj : ∀ u v, ∫ s in u..v, (starRingEnd ℂ) (dif κ n ξ a s) = (starRingEnd ℂ) (∫ s in u..v, dif κ n ξ a s) := by
    intro u v
    simp only [intervalIntegral, integral_conj, map_sub]
  have hci : ∀ u v, IntervalIntegrable (fun s : ℝ => (starRingEnd ℂ) (dif κ n ξ a s)) volume u v := by
    intro u v
    have := dif_int (a := a) hκ hκ1 h.inj hn u v
    exact ⟨(conjCLE : ℂ →L[ℝ] ℂ).integrable_comp this.1, (conjCLE : ℂ →L[ℝ] ℂ).integrable_comp this.2⟩
  have e := bil_split hci (dif_int (a := b) hκ hκ1 h.inj hn) (cut n ξ R) (n + 1)
  rw [cut_zero, cut_last] at e
  simp only [pri_zero, cut_zero]
  simp only [hcj] at e
  rw [e]
  have hII : phase κ ^ n * (starRingEnd ℂ) (phase κ) ^ n = 1 := by rw [← mul_pow, mul_comm, conj_mul_phase, one_pow]
  have hIj : ∀ j : Nat, (starRingEnd ℂ) (phase κ) ^ j * phase κ ^ j = 1 := fun j => by rw [← mul_pow, conj_mul_phase, one_pow]
  refine Finset.sum_congr rfl fun j hj => ?_
  have hj' : j ≤ n := by have := Finset.mem_range.1 hj; omega
  have e1 : ∑ i ∈ Finset.range j, (starRingEnd ℂ) (∫ s in (cut n ξ R i)..(cut n ξ R (i + 1)), dif κ n ξ a s) = phase κ ^ n * ∑ i ∈ Finset.range j, (starRingEnd ℂ) (phase κ) ^ i * (gap κ n ξ R a i : ℂ) := by
    rw [Finset.mul_sum]
    refine Finset.sum_congr rfl fun i hi => ?_
    rw [gap_dif h hR (by have := Finset.mem_range.1 hi; omega), map_mul, map_mul, map_pow, map_pow, conj_conj, conj_ofReal, mul_assoc]
  have e2 : ∫ x in (cut n ξ R j)..(cut n ξ R (j + 1)), (starRingEnd ℂ) (∫ s in (cut n ξ R j)..x, dif κ n ξ a s) * dif κ n ξ b x = (diag κ κ n ξ R a b j : ℂ) := by
    unfold diag
    rw [← intervalIntegral.integral_ofReal]
    refine congr_Ioo (h.cut_le hR hj') fun x hx => ?_
    rw [dif_gap h hj' ⟨hx.1.le, hx.2.le⟩, dif_phase h hj' hx, map_mul, map_mul, map_pow, map_pow, conj_conj, conj_ofReal]
    push_cast
    linear_combination ((∫ s in (cut n ξ R j)..x, rdif κ n ξ a s : ℝ) : ℂ) * (rdif κ n ξ b x : ℂ) * ((starRingEnd ℂ) (phase κ) ^ j * phase κ ^ j) * hII + ((∫ s in (cut n ξ R j)..x, rdif κ n ξ a s : ℝ) : ℂ) * (rdif κ n ξ b x : ℂ) * hIj j
  rw [e1, gap_dif h hR hj', e2]
  linear_combination (∑ i ∈ Finset.range j, (starRingEnd ℂ) (phase κ) ^ i * (gap κ n ξ R a i : ℂ)) * (phase κ ^ j * (gap κ n ξ R b j : ℂ)) * hII

end

end Hcp.PowPlane
