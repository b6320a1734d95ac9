import Verif.Proofs.PowGaps
import Mathlib.MeasureTheory.Integral.IntegralEqImproper

/-!
# Exact relations between the integrals over the segments of the real line
-/

namespace Hcp.PowPlane
open Complex Set MeasureTheory Filter Topology Interval
open HalfPlane (absf pol ae_ne cut cut_zero cut_last cut_mid Sorted)

/-- increasing points -/
def Mono (n : Nat) (ξ : Nat → ℝ) : Prop := ∀ i j, i < j → j < n → ξ i < ξ j

section
variable {κ κ' : ℝ} {n g g' : Nat} {ξ : Nat → ℝ} {a : Fin g → ℝ} {b : Fin g' → ℝ}

theorem Mono.inj (h : Mono n ξ) : InjOn ξ (Iio n) := by
  intro i hi j hj e
  rcases lt_trichotomy i j with h1 | h1 | h1
  · exact absurd e (h i j h1 hj).ne
  · exact h1
  · exact absurd e.symm (h j i h1 hi).ne

/-- integral over a segment, unbounded for `j = 0` and `j = n` -/
noncomputable def total (κ : ℝ) (n : Nat) (ξ : Nat → ℝ) {g : Nat} (a : Fin g → ℝ) (j : Nat) : ℝ :=
  if j = 0 then ∫ x in Iic (ξ 0), rdif κ n ξ a x else if j < n then ∫ x in ξ (j - 1)..ξ j, rdif κ n ξ a x else ∫ x in Ioi (ξ (n - 1)), rdif κ n ξ a x

theorem big (n : Nat) (ξ : Nat → ℝ) : ∀ᶠ R : ℝ in atTop, 2 ≤ R ∧ (∀ k < n, 2 * |ξ k| ≤ R) := by
  have h : ∀ᶠ R : ℝ in atTop, ∀ k ∈ Finset.range n, 2 * |ξ k| ≤ R := (Finset.eventually_all (Finset.range n)).2 fun k _ => eventually_ge_atTop _
  filter_upwards [eventually_ge_atTop 2, h] with R h1 h2 using ⟨h1, fun k hk => h2 k (Finset.mem_range.2 hk)⟩

theorem sorted_of_big (h : Mono n ξ) {R : ℝ} (h2 : 2 ≤ R) (hR : ∀ k < n, 2 * |ξ k| ≤ R) : Sorted n ξ R where
  mono := h
  lo i hi := by have := hR i hi; have := neg_abs_le (ξ i); linarith [abs_nonneg (ξ i)]
  hi i hi := by have := hR i hi; have := le_abs_self (ξ i); linarith [abs_nonneg (ξ i)]

theorem pol_real (x : ℝ) : pol a (x : ℂ) = ((∑ i, a i * x ^ i.val : ℝ) : ℂ) := by
  unfold pol
  push_cast
  rfl

theorem norm_dif_real (hκ : 0 < κ) (x : ℝ) : ‖dif κ n ξ a x‖ = |rdif κ n ξ a x| := by
  unfold dif rdif
  rw [norm_div, norm_root hκ, pol_real, norm_real, Real.norm_eq_abs, abs_div]
  congr 1
  have h0 : 0 ≤ absf n ξ x := Finset.prod_nonneg fun k _ => abs_nonneg _
  rw [abs_of_nonneg (Real.rpow_nonneg h0 _)]
  congr 1
  unfold absf
  refine Finset.prod_congr rfl fun k _ => ?_
  rw [← ofReal_sub, norm_real, Real.norm_eq_abs]

theorem rdif_on (hκ : 0 < κ) (hκ1 : κ < 1) (hξ : Mono n ξ) (hn : 0 < n) (hng : (g : ℝ) < κ * n) : Integrable (rdif κ n ξ a) := by
  obtain ⟨M, hM⟩ := pri_bounded (a := a) hκ hκ1 hξ.inj hn (μ := κ * n - g) (by linarith) (by linarith)
  refine integrable_of_intervalIntegral_norm_bounded (l := atTop) (a := fun R : ℝ => -R) (b := fun R => R) M (fun R => ?_) tendsto_neg_atTop_atBot tendsto_id ?_
  · rcases le_total (-R) R with h | h
    · exact (intervalIntegrable_iff_integrableOn_Ioc_of_le h).1 (rdif_integrable hκ hκ1 hξ.inj hn _ _)
    · rw [Ioc_eq_empty (not_lt.2 h)]
      exact integrableOn_empty
  · filter_upwards [big n ξ] with R hR
    have := (hM R 0 (by linarith [hR.1]) hR.2 le_rfl zero_le_one).1
    simp only [dif_real, norm_dif_real hκ] at this
    simpa only [Real.norm_eq_abs] using this

theorem gap_tendsto (hκ : 0 < κ) (hκ1 : κ < 1) (hξ : Mono n ξ) (hn : 0 < n) (hng : (g : ℝ) < κ * n) {j : Nat} (hj : j ≤ n) : Tendsto (fun R => gap κ n ξ R a j) atTop (𝓝 (total κ n ξ a j)) := by
  have hi := rdif_on (a := a) hκ hκ1 hξ hn hng
  unfold total gap
  rcases Nat.eq_zero_or_pos j with rfl | h0
  · rw [if_pos rfl]
    simp only [cut_zero, cut_mid _ hn]
    exact intervalIntegral_tendsto_integral_Iic _ hi.integrableOn tendsto_neg_atTop_atBot
  · rw [if_neg (by omega)]
    obtain ⟨i, rfl⟩ : ∃ i, j = i + 1 := ⟨j - 1, by omega⟩
    simp only [cut_mid _ (by omega : i < n), Nat.add_sub_cancel]
    rcases Nat.lt_or_ge (i + 1) n with h1 | h1
    · rw [if_pos h1]
      simp only [cut_mid _ h1]
      exact tendsto_const_nhds
    · rw [if_neg (by omega)]
      obtain rfl : n = i + 1 := by omega
      simp only [cut_last, Nat.add_sub_cancel]
      exact intervalIntegral_tendsto_integral_Ioi _ hi.integrableOn tendsto_id

theorem small_zero {μ : ℝ} (hμ : 0 < μ) (K : ℝ) : Tendsto (fun R : ℝ => K / R ^ μ) atTop (𝓝 0) :=
  (tendsto_rpow_atTop hμ).const_div_atTop K

/-- first relation -/
theorem total_one (hκ : 0 < κ) (hκ1 : κ < 1) (hξ : Mono n ξ) (hn : 0 < n) (hng : (g : ℝ) < κ * n) : ∑ j ∈ Finset.range (n + 1), phase κ ^ j * (total κ n ξ a j : ℂ) = 0 := by
  have hμ : 0 < κ * n - g := by linarith
  obtain ⟨K, hK⟩ := line_small (μ := κ * n - g) hκ hκ1 hκ hκ1 hξ.inj hn (by linarith) (by linarith) hμ a a
  have hl : Tendsto (fun R => ∑ j ∈ Finset.range (n + 1), phase κ ^ j * (gap κ n ξ R a j : ℂ)) atTop (𝓝 (∑ j ∈ Finset.range (n + 1), phase κ ^ j * (total κ n ξ a j : ℂ))) :=
    tendsto_finsetSum _ fun j hj => ((continuous_ofReal.tendsto _).comp (gap_tendsto hκ hκ1 hξ hn hng (by have := Finset.mem_range.1 hj; omega))).const_mul _
  refine tendsto_nhds_unique hl (squeeze_zero_norm' ?_ (small_zero hμ K))
  filter_upwards [big n ξ] with R hR
  have h1 := (hK R hR.1 hR.2).1
  rw [line_one hκ hκ1 (sorted_of_big hξ hR.1 hR.2) (by linarith [hR.1]) hn, norm_mul, norm_pow, norm_conj] at h1
  have h2 : ‖phase κ‖ = 1 := by
    unfold phase
    rw [← ofReal_mul, norm_exp_ofReal_mul_I]
  rw [h2, one_pow, one_mul] at h1
  exact h1

/-- partial sums -/
noncomputable def part (κ : ℝ) (r : Nat → ℝ) (l : Nat) : ℝ := ∑ p ∈ Finset.range l, Real.sin (κ * Real.pi * ((l : ℝ) - p)) * r p

theorem total_part (hκ : 0 < κ) (hκ1 : κ < 1) (hξ : Mono n ξ) (hn : 0 < n) (hng : (g : ℝ) < κ * n) : part κ (total κ n ξ a) n = 0 := by
  have h := total_one (a := a) hκ hκ1 hξ hn hng
  have h1 := congrArg (fun z => ((starRingEnd ℂ) (phase κ) ^ n * z).im) h
  simp only [mul_zero, zero_im, Finset.mul_sum, im_sum, ← mul_assoc, im_mul_ofReal, phase_im] at h1
  rw [Finset.sum_range_succ, sub_self, mul_zero, Real.sin_zero, zero_mul, add_zero] at h1
  rw [part, ← neg_eq_zero, ← Finset.sum_neg_distrib, ← h1]
  refine Finset.sum_congr rfl fun p _ => ?_
  rw [← neg_mul, ← Real.sin_neg]
  congr 2
  ring

theorem two_im (p l : Nat) : (phase κ ^ p * phase (1 - κ) ^ l).im = -((-1) ^ l * Real.sin (κ * Real.pi * ((l : ℝ) - p))) := by
  rw [phase_compl, neg_pow, mul_left_comm, mul_comm (phase κ ^ p)]
  rw [show ((-1 : ℂ) ^ l) = (((-1) ^ l : ℝ) : ℂ) by push_cast; rfl, Complex.im_ofReal_mul, phase_im, ← mul_neg, ← Real.sin_neg]
  congr 2
  ring

/-- second relation -/
theorem total_two (hκ : 0 < κ) (hκ1 : κ < 1) (hξ : Mono n ξ) (hn : 0 < n) (hng : (g : ℝ) < κ * n) (hng' : (g' : ℝ) < (1 - κ) * n) :
    ∑ j ∈ Finset.range n, (-1) ^ j * part κ (total κ n ξ a) j * total (1 - κ) n ξ b j = 0 := by
  have hκ' : 0 < 1 - κ := by linarith
  have hκ1' : 1 - κ < 1 := by linarith
  set μ := min (κ * n - g) ((1 - κ) * n - g') with hμd
  have hμ : 0 < μ := lt_min (by linarith) (by linarith)
  obtain ⟨K, hK⟩ := line_small (μ := μ) hκ hκ1 hκ' hκ1' hξ.inj hn (by linarith [min_le_left (κ * n - g) ((1 - κ) * n - g')]) (by linarith [min_le_right (κ * n - g) ((1 - κ) * n - g')]) hμ a b
  have hl : Tendsto (fun R => ∑ j ∈ Finset.range (n + 1), (-1) ^ j * part κ (gap κ n ξ R a) j * gap (1 - κ) n ξ R b j) atTop (𝓝 (∑ j ∈ Finset.range (n + 1), (-1) ^ j * part κ (total κ n ξ a) j * total (1 - κ) n ξ b j)) := by
    refine tendsto_finsetSum _ fun j hj => ?_
    have hj' : j ≤ n := by have := Finset.mem_range.1 hj; omega
    refine Tendsto.mul (Tendsto.const_mul _ ?_) (gap_tendsto hκ' hκ1' hξ hn hng' hj')
    unfold part
    exact tendsto_finsetSum _ fun i hi => (gap_tendsto hκ hκ1 hξ hn hng (by have := Finset.mem_range.1 hi; omega)).const_mul _
  have h0 : ∑ j ∈ Finset.range (n + 1), (-1) ^ j * part κ (total κ n ξ a) j * total (1 - κ) n ξ b j = 0 := by
    refine tendsto_nhds_unique hl (squeeze_zero_norm' ?_ (small_zero hμ K))
    filter_upwards [big n ξ] with R hR
    have h1 := (hK R hR.1 hR.2).2
    have hph : ∀ κ, ‖(starRingEnd ℂ) (phase κ) ^ n‖ = 1 := by
      intro κ
      unfold phase
      rw [norm_pow, norm_conj, ← ofReal_mul, norm_exp_ofReal_mul_I, one_pow]
    rw [line_two hκ hκ1 hκ' hκ1' (sorted_of_big hξ hR.1 hR.2) (by linarith [hR.1]) hn, norm_mul, norm_mul, hph, hph, one_mul, one_mul] at h1
    refine le_trans ?_ h1
    refine le_trans (le_of_eq ?_) (Complex.abs_im_le_norm _)
    rw [Real.norm_eq_abs, im_sum, ← abs_neg, ← Finset.sum_neg_distrib]
    congr 1
    refine Finset.sum_congr rfl fun j _ => ?_
    rw [add_im, im_mul_ofReal, two_im, sub_self, mul_zero, Real.sin_zero, mul_zero, neg_zero, zero_mul, add_zero, Finset.sum_mul, im_sum, part, Finset.mul_sum, Finset.sum_mul, ← Finset.sum_neg_distrib]
    refine Finset.sum_congr rfl fun i _ => ?_
    rw [show phase κ ^ i * (gap κ n ξ R a i : ℂ) * (phase (1 - κ) ^ j * (gap (1 - κ) n ξ R b j : ℂ)) = phase κ ^ i * phase (1 - κ) ^ j * ((gap κ n ξ R a i * gap (1 - κ) n ξ R b j : ℝ) : ℂ) by push_cast; ring, im_mul_ofReal, two_im]
    ring
  rw [Finset.sum_range_succ, total_part hκ hκ1 hξ hn hng, mul_zero, zero_mul, add_zero] at h0
  exact h0

/-- third relation -/
theorem total_pos (hκ : 0 < κ) (hκ1 : κ < 1) (hξ : Mono n ξ) (hn : 0 < n) (hng : (g : ℝ) < κ * n) (ha : a ≠ 0) :
    0 < ∑ j ∈ Finset.range n, part κ (total κ n ξ a) j * total κ n ξ a j := by
  have hμ : 0 < κ * n - g := by linarith
  obtain ⟨δ, K, R1, hδ, hK⟩ := line_pos (μ := κ * n - g) hκ hκ1 hξ.inj hn (by linarith) hμ ha
  have hl : Tendsto (fun R => ∑ j ∈ Finset.range (n + 1), part κ (gap κ n ξ R a) j * gap κ n ξ R a j) atTop (𝓝 (∑ j ∈ Finset.range (n + 1), part κ (total κ n ξ a) j * total κ n ξ a j)) := by
    refine tendsto_finsetSum _ fun j hj => ?_
    have hj' : j ≤ n := by have := Finset.mem_range.1 hj; omega
    refine Tendsto.mul ?_ (gap_tendsto hκ hκ1 hξ hn hng hj')
    unfold part
    exact tendsto_finsetSum _ fun i hi => (gap_tendsto hκ hκ1 hξ hn hng (by have := Finset.mem_range.1 hi; omega)).const_mul _
  have hb : Tendsto (fun R : ℝ => 2 * δ - K / R ^ (κ * n - g)) atTop (𝓝 (2 * δ - 0)) := tendsto_const_nhds.sub (small_zero hμ K)
  have h0 : 2 * δ - 0 ≤ ∑ j ∈ Finset.range (n + 1), part κ (total κ n ξ a) j * total κ n ξ a j := by
    refine le_of_tendsto_of_tendsto hb hl ?_
    filter_upwards [big n ξ, eventually_ge_atTop R1] with R hR hR1
    have h1 := hK R hR1 hR.1 hR.2
    rw [line_conj hκ hκ1 (sorted_of_big hξ hR.1 hR.2) (by linarith [hR.1]) hn] at h1
    refine h1.trans (le_of_eq ?_)
    rw [im_sum]
    refine Finset.sum_congr rfl fun j _ => ?_
    rw [add_im, ofReal_im, add_zero, Finset.sum_mul, im_sum, part, Finset.sum_mul]
    refine Finset.sum_congr rfl fun i _ => ?_
    rw [show (starRingEnd ℂ) (phase κ) ^ i * (gap κ n ξ R a i : ℂ) * (phase κ ^ j * (gap κ n ξ R a j : ℂ)) = (starRingEnd ℂ) (phase κ) ^ i * phase κ ^ j * ((gap κ n ξ R a i * gap κ n ξ R a j : ℝ) : ℂ) by push_cast; ring, im_mul_ofReal, phase_im]
    ring
  rw [Finset.sum_range_succ, total_part hκ hκ1 hξ hn hng, zero_mul, add_zero] at h0
  linarith

end

end Hcp.PowPlane
