import Verif.Proofs.RealArea

/-!
# From the real line to the segments between two roots
-/

namespace Hcp.HalfPlane
open Complex Set MeasureTheory Filter Topology Interval

/-- real and imaginary parts of the powers of `I` -/
noncomputable def eps (j : Nat) : ℝ := (I ^ j).re
noncomputable def ome (j : Nat) : ℝ := (I ^ j).im

theorem eps_succ (j : Nat) : eps (j + 1) = -ome j := by unfold eps ome; rw [pow_succ]; simp
theorem ome_succ (j : Nat) : ome (j + 1) = eps j := by unfold eps ome; rw [pow_succ]; simp
theorem eps_zero : eps 0 = 1 := by simp [eps]
theorem ome_zero : ome 0 = 0 := by simp [ome]
theorem eps_ome (j : Nat) : eps j * ome j = 0 := by
  induction j with
  | zero => rw [ome_zero, mul_zero]
  | succ j ih => rw [eps_succ, ome_succ]; linarith
theorem eps_sq (j : Nat) : eps j ^ 2 + ome j ^ 2 = 1 := by
  induction j with
  | zero => rw [eps_zero, ome_zero]; norm_num
  | succ j ih => rw [eps_succ, ome_succ]; linarith
theorem I_pow (j : Nat) : I ^ j = eps j + ome j * I := (re_add_im _).symm
theorem parity (k : Nat) : ome (2 * k) = 0 ∧ eps (2 * k + 1) = 0 := by
  induction k with
  | zero => exact ⟨ome_zero, by rw [Nat.mul_zero, eps_succ, ome_zero, neg_zero]⟩
  | succ k ih =>
    have h : ome (2 * (k + 1)) = 0 := by rw [show 2 * (k + 1) = 2 * k + 1 + 1 by ring, ome_succ, ih.2]
    exact ⟨h, by rw [eps_succ, h, neg_zero]⟩

section
variable {n g : Nat} {ξ : Nat → ℝ} {a b : Fin g → ℝ}

/-- the real integrand -/
noncomputable def rdif (n : Nat) (ξ : Nat → ℝ) {g : Nat} (a : Fin g → ℝ) (x : ℝ) : ℝ := (∑ i, a i * x ^ i.val) / √(absf n ξ x)

/-- the ends of the segments: `-R`, the roots, `R` -/
noncomputable def cut (n : Nat) (ξ : Nat → ℝ) (R : ℝ) (j : Nat) : ℝ := if j = 0 then -R else if j ≤ n then ξ (j - 1) else R

theorem cut_zero (R : ℝ) : cut n ξ R 0 = -R := by simp [cut]
theorem cut_last (R : ℝ) : cut n ξ R (n + 1) = R := by simp [cut]
theorem cut_mid (R : ℝ) {j : Nat} (hj : j < n) : cut n ξ R (j + 1) = ξ j := by
  unfold cut
  rw [if_neg (by omega), if_pos (by omega)]
  simp

/-- increasing roots in `]-R, R[` -/
structure Sorted (n : Nat) (ξ : Nat → ℝ) (R : ℝ) : Prop where
  mono : ∀ i j, i < j → j < n → ξ i < ξ j
  lo : ∀ i < n, -R < ξ i
  hi : ∀ i < n, ξ i < R

theorem Sorted.inj {R : ℝ} (h : Sorted n ξ R) : InjOn ξ (Iio n) := by
  intro i hi j hj e
  rcases lt_trichotomy i j with h1 | h1 | h1
  · exact absurd e (h.mono i j h1 hj).ne
  · exact h1
  · exact absurd e.symm (h.mono j i h1 hi).ne

theorem Sorted.cut_le {R : ℝ} (h : Sorted n ξ R) (hR : 0 ≤ R) {i : Nat} (hi : i ≤ n) : cut n ξ R i ≤ cut n ξ R (i + 1) := by
  rcases Nat.eq_zero_or_pos i with rfl | h0
  · rw [cut_zero]
    rcases Nat.eq_zero_or_pos n with rfl | hn
    · rw [show (0 : Nat) + 1 = 0 + 1 from rfl, cut_last]; linarith
    · rw [cut_mid R hn]
      exact (h.lo 0 hn).le
  · obtain ⟨j, rfl⟩ : ∃ j, i = j + 1 := ⟨i - 1, by omega⟩
    rw [cut_mid R (by omega : j < n)]
    rcases Nat.lt_or_ge (j + 1) n with h1 | h1
    · rw [cut_mid R h1]
      exact (h.mono j (j + 1) (by omega) h1).le
    · rw [show j + 1 = n by omega, cut_last]
      exact (h.hi j (by omega)).le

/-- phase of the square root on a segment -/
theorem dif_phase {R : ℝ} (h : Sorted n ξ R) {j : Nat} (hj : j ≤ n) {x : ℝ} (hx : x ∈ Ioo (cut n ξ R j) (cut n ξ R (j + 1))) : dif n ξ a x = (-I) ^ n * I ^ j * (rdif n ξ a x : ℝ) := by
  have hlow : ∀ k < j, 0 < x - ξ k := by
    intro k hk
    obtain ⟨i, rfl⟩ : ∃ i, j = i + 1 := ⟨j - 1, by omega⟩
    have hx1 := hx.1
    rw [cut_mid R (by omega : i < n)] at hx1
    rcases Nat.lt_or_ge k i with h1 | h1
    · have := h.mono k i h1 (by omega)
      linarith
    · rw [show k = i by omega]; linarith
  have hhigh : ∀ k, j ≤ k → k < n → x - ξ k < 0 := by
    intro k hk hkn
    have hx2 := hx.2
    rw [cut_mid R (by omega : j < n)] at hx2
    rcases Nat.lt_or_ge j k with h1 | h1
    · have := h.mono j k h1 hkn
      linarith
    · rw [show k = j by omega]; linarith
  have hs : ∀ k ∈ Finset.range n, sq ((x : ℂ) - ξ k) = (if j ≤ k then I else 1) * (√|x - ξ k| : ℝ) := by
    intro k hk
    rw [← ofReal_sub]
    by_cases hjk : j ≤ k
    · have h1 := hhigh k hjk (Finset.mem_range.1 hk)
      rw [if_pos hjk, sq_neg h1, abs_of_neg h1]
    · have h1 := hlow k (by omega)
      rw [if_neg hjk, sq_pos h1, abs_of_pos h1, one_mul]
  have hroot : root n ξ x = I ^ (n - j) * (√(absf n ξ x) : ℝ) := by
    unfold root absf
    rw [Finset.prod_congr rfl hs, Finset.prod_mul_distrib, Real.sqrt_prod _ fun k _ => abs_nonneg _, ofReal_prod]
    congr 1
    rw [Finset.prod_ite, Finset.prod_const_one, mul_one, Finset.prod_const]
    congr 1
    have : (Finset.range n).filter (fun k => j ≤ k) = Finset.Ico j n := by
      ext k
      simp only [Finset.mem_filter, Finset.mem_range, Finset.mem_Ico]
      omega
    rw [this, Nat.card_Ico]
  have hI : (-I) ^ n * I ^ j * I ^ (n - j) = 1 := by
    rw [mul_assoc, ← pow_add, show j + (n - j) = n by omega, ← mul_pow, neg_mul, I_mul_I, neg_neg, one_pow]
  have hI0 : I ^ (n - j) ≠ 0 := pow_ne_zero _ I_ne_zero
  unfold dif rdif
  rw [hroot, pol]
  push_cast
  rw [← div_div, eq_div_of_mul_eq hI0 hI]
  ring

/-- splitting of the integral of `U h` -/
theorem bil_split {f h : ℝ → ℂ} (hf : ∀ u v, IntervalIntegrable f volume u v) (hh : ∀ u v, IntervalIntegrable h volume u v) (t : Nat → ℝ) (N : Nat) :
    ∫ x in t 0..t N, (∫ s in t 0..x, f s) * h x =
      ∑ j ∈ Finset.range N, ((∑ i ∈ Finset.range j, ∫ s in t i..t (i + 1), f s) * (∫ x in t j..t (j + 1), h x) + ∫ x in t j..t (j + 1), (∫ s in t j..x, f s) * h x) := by
  have hi : ∀ c u v, IntervalIntegrable (fun x => (∫ s in c..x, f s) * h x) volume u v := by
    intro c u v
    exact (hh u v).continuousOn_mul (intervalIntegral.continuous_primitive hf c).continuousOn
  rw [← intervalIntegral.sum_integral_adjacent_intervals fun j _ => hi (t 0) _ _]
  refine Finset.sum_congr rfl fun j _ => ?_
  rw [intervalIntegral.sum_integral_adjacent_intervals fun i _ => hf _ _, ← intervalIntegral.integral_const_mul, ← intervalIntegral.integral_add ((hh _ _).const_mul _) (hi _ _ _)]
  refine intervalIntegral.integral_congr fun x _ => ?_
  rw [← intervalIntegral.integral_add_adjacent_intervals (hf (t 0) (t j)) (hf (t j) x)]
  ring

theorem rdif_integrable (hξ : InjOn ξ (Iio n)) (hn : 0 < n) (u v : ℝ) : IntervalIntegrable (rdif n ξ a) volume u v := by
  have : IntervalIntegrable (fun x => (∑ i, a i * x ^ i.val) * (1 / √(absf n ξ x))) volume u v :=
    (absf_integrable hξ hn u v).continuousOn_mul (by fun_prop : Continuous fun x : ℝ => ∑ i, a i * x ^ i.val).continuousOn
  refine this.congr fun x _ => ?_
  unfold rdif
  rw [mul_one_div]

/-- integral of the real integrand over a segment -/
noncomputable def gap (n : Nat) (ξ : Nat → ℝ) {g : Nat} (R : ℝ) (a : Fin g → ℝ) (j : Nat) : ℝ := ∫ x in (cut n ξ R j)..(cut n ξ R (j + 1)), rdif n ξ a x

theorem congr_Ioo {f h : ℝ → ℂ} {u v : ℝ} (huv : u ≤ v) (e : ∀ x ∈ Ioo u v, f x = h x) : ∫ x in u..v, f x = ∫ x in u..v, h x := by
  rw [intervalIntegral.integral_of_le huv, intervalIntegral.integral_of_le huv, integral_Ioc_eq_integral_Ioo, integral_Ioc_eq_integral_Ioo]
  exact setIntegral_congr_fun measurableSet_Ioo e

theorem dif_gap {R : ℝ} (h : Sorted n ξ R) {j : Nat} (hj : j ≤ n) {x : ℝ} (hx : x ∈ Icc (cut n ξ R j) (cut n ξ R (j + 1))) :
    ∫ s in (cut n ξ R j)..x, dif n ξ a s = (-I) ^ n * I ^ j * ((∫ s in (cut n ξ R j)..x, rdif n ξ a s : ℝ) : ℂ) := by
  rw [← intervalIntegral.integral_ofReal, ← intervalIntegral.integral_const_mul]
  exact congr_Ioo hx.1 fun s hs => dif_phase h hj ⟨hs.1, hs.2.trans_le hx.2⟩

theorem gap_dif {R : ℝ} (h : Sorted n ξ R) (hR : 0 ≤ R) {j : Nat} (hj : j ≤ n) : ∫ s in (cut n ξ R j)..(cut n ξ R (j + 1)), dif n ξ a s = (-I) ^ n * I ^ j * (gap n ξ R a j : ℂ) :=
  dif_gap h hj ⟨h.cut_le hR hj, le_rfl⟩

theorem pri_zero (R x : ℝ) : pri n ξ a R 0 x = ∫ s in (cut n ξ R 0)..x, dif n ξ a s := by
  unfold pri
  rw [cut_zero]
  simp only [dif_real]

theorem dif_int (hξ : InjOn ξ (Iio n)) (hn : 0 < n) (u v : ℝ) : IntervalIntegrable (fun x : ℝ => dif n ξ a x) volume u v := by
  have := dif_integrable (a := a) hξ hn le_rfl zero_le_one u v
  simpa only [dif_real] using this

theorem line_one {R : ℝ} (h : Sorted n ξ R) (hR : 0 ≤ R) (hn : 0 < n) : pri n ξ a R 0 R = (-I) ^ n * ∑ j ∈ Finset.range (n + 1), I ^ j * (gap n ξ R a j : ℂ) := by
  rw [pri_zero]
  have e := intervalIntegral.sum_integral_adjacent_intervals (a := cut n ξ R) (n := n + 1) fun j _ => dif_int (a := a) h.inj hn _ _
  rw [cut_last] at e
  rw [← e, Finset.mul_sum]
  refine Finset.sum_congr rfl fun j hj => ?_
  rw [gap_dif h hR (by have := Finset.mem_range.1 hj; omega), mul_assoc]

/-- the integral over a segment of `U dU'` where `U` starts at its left end -/
noncomputable def diag (n : Nat) (ξ : Nat → ℝ) {g : Nat} (R : ℝ) (a b : Fin g → ℝ) (j : Nat) : ℝ := ∫ x in (cut n ξ R j)..(cut n ξ R (j + 1)), (∫ s in (cut n ξ R j)..x, rdif n ξ a s) * rdif n ξ b x

theorem line_two {R : ℝ} (h : Sorted n ξ R) (hR : 0 ≤ R) (hn : 0 < n) : ∫ x in (-R)..R, pri n ξ a R 0 x * dif n ξ b x =
    (-1) ^ n * ∑ j ∈ Finset.range (n + 1), ((∑ i ∈ Finset.range j, I ^ i * (gap n ξ R a i : ℂ)) * (I ^ j * (gap n ξ R b j : ℂ)) + I ^ j * I ^ j * (diag n ξ R a b j : ℂ)) := by
  have e := bil_split (dif_int (a := a) h.inj hn) (dif_int (a := b) h.inj hn) (cut n ξ R) (n + 1)
  rw [cut_zero, cut_last] at e
  simp only [pri_zero, cut_zero]
  rw [e, Finset.mul_sum]
  have hII : (-I) ^ n * (-I) ^ n = (-1) ^ n := by rw [← mul_pow, neg_mul_neg, I_mul_I]
  refine Finset.sum_congr rfl fun j hj => ?_
  have hj' : j ≤ n := by have := Finset.mem_range.1 hj; omega
  have e1 : ∑ i ∈ Finset.range j, ∫ s in (cut n ξ R i)..(cut n ξ R (i + 1)), dif n ξ a s = (-I) ^ n * ∑ i ∈ Finset.range j, I ^ i * (gap n ξ R a i : ℂ) := by
    rw [Finset.mul_sum]
    refine Finset.sum_congr rfl fun i hi => ?_
    rw [gap_dif h hR (by have := Finset.mem_range.1 hi; omega), mul_assoc]
  have e2 : ∫ x in (cut n ξ R j)..(cut n ξ R (j + 1)), (∫ s in (cut n ξ R j)..x, dif n ξ a s) * dif n ξ b x = (-1) ^ n * (I ^ j * I ^ j * (diag n ξ R a b j : ℂ)) := by
    unfold diag
    rw [← intervalIntegral.integral_ofReal, ← intervalIntegral.integral_const_mul, ← intervalIntegral.integral_const_mul]
    refine congr_Ioo (h.cut_le hR hj') fun x hx => ?_
    rw [dif_gap h hj' ⟨hx.1.le, hx.2.le⟩, dif_phase h hj' hx, ← hII]
    push_cast
    ring
  rw [e1, gap_dif h hR hj', e2, ← hII]
  ring

theorem line_conj {R : ℝ} (h : Sorted n ξ R) (hR : 0 ≤ R) (hn : 0 < n) : ∫ x in (-R)..R, (starRingEnd ℂ) (pri n ξ a R 0 x) * dif n ξ b x =
    ∑ j ∈ Finset.range (n + 1), ((∑ i ∈ Finset.range j, (starRingEnd ℂ) (I ^ i) * (gap n ξ R a i : ℂ)) * (I ^ j * (gap n ξ R b j : ℂ)) + (diag n ξ R a b j : ℂ)) := by
  have hcj : ∀ u v, ∫ s in u..v, (starRingEnd ℂ) (dif n ξ a s) = (starRingEnd ℂ) (∫ s in u..v, dif n ξ a s) := by
    intro u v
    simp only [intervalIntegral, integral_conj, map_sub]
  have hci : ∀ u v, IntervalIntegrable (fun s : ℝ => (starRingEnd ℂ) (dif n ξ a s)) volume u v := by
    intro u v
    have := dif_int (a := a) h.inj hn u v
    exact ⟨(conjCLE : ℂ →L[ℝ] ℂ).integrable_comp this.1, (conjCLE : ℂ →L[ℝ] ℂ).integrable_comp this.2⟩
  have e := bil_split hci (dif_int (a := b) h.inj hn) (cut n ξ R) (n + 1)
  rw [cut_zero, cut_last] at e
  simp only [pri_zero, cut_zero]
  simp only [hcj] at e
  rw [e]
  have hII : (starRingEnd ℂ) ((-I) ^ n) * (-I) ^ n = 1 := by rw [map_pow, map_neg, conj_I, neg_neg, ← mul_pow, mul_neg, I_mul_I, neg_neg, one_pow]
  have hIj : ∀ j : Nat, (starRingEnd ℂ) (I ^ j) * I ^ j = 1 := fun j => by rw [map_pow, conj_I, ← mul_pow, neg_mul, I_mul_I, neg_neg, one_pow]
  refine Finset.sum_congr rfl fun j hj => ?_
  have hj' : j ≤ n := by have := Finset.mem_range.1 hj; omega
  have e1 : ∑ i ∈ Finset.range j, (starRingEnd ℂ) (∫ s in (cut n ξ R i)..(cut n ξ R (i + 1)), dif n ξ a s) = (starRingEnd ℂ) ((-I) ^ n) * ∑ i ∈ Finset.range j, (starRingEnd ℂ) (I ^ i) * (gap n ξ R a i : ℂ) := by
    rw [Finset.mul_sum]
    refine Finset.sum_congr rfl fun i hi => ?_
    rw [gap_dif h hR (by have := Finset.mem_range.1 hi; omega), map_mul, map_mul, conj_ofReal, mul_assoc]
  have e2 : ∫ x in (cut n ξ R j)..(cut n ξ R (j + 1)), (starRingEnd ℂ) (∫ s in (cut n ξ R j)..x, dif n ξ a s) * dif n ξ b x = (diag n ξ R a b j : ℂ) := by
    unfold diag
    rw [← intervalIntegral.integral_ofReal]
    refine congr_Ioo (h.cut_le hR hj') fun x hx => ?_
    rw [dif_gap h hj' ⟨hx.1.le, hx.2.le⟩, dif_phase h hj' hx, map_mul, map_mul, conj_ofReal]
    push_cast
    linear_combination ((∫ s in (cut n ξ R j)..x, rdif n ξ a s : ℝ) : ℂ) * (rdif n ξ b x : ℂ) * ((starRingEnd ℂ) (I ^ j) * I ^ j) * hII + ((∫ s in (cut n ξ R j)..x, rdif n ξ a s : ℝ) : ℂ) * (rdif n ξ b x : ℂ) * hIj j
  rw [e1, gap_dif h hR hj', e2]
  linear_combination (∑ i ∈ Finset.range j, (starRingEnd ℂ) (I ^ i) * (gap n ξ R a i : ℂ)) * (I ^ j * (gap n ξ R b j : ℂ)) * hII

end

end Hcp.HalfPlane
