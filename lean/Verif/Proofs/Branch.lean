import Verif.Spec.Crossing
import Verif.Proofs.EdgeData

/-!
# The determination of `y` on an edge
-/

namespace Hcp
open Complex Spec Set

theorem cpow_line (c : ℂ) {v w : ℂ} (hw : w.im = 0) (h : ∀ t ∈ Icc (-1 : ℝ) 1, v + w * t ≠ 0) : ContinuousOn (fun t : ℝ => (v + w * t) ^ c) (Icc (-1) 1) := by
  by_cases hv : v.im = 0
  · -- real values without change of sign
    have e : ∀ t : ℝ, v + w * t = ((v.re + w.re * t : ℝ) : ℂ) := fun t => by
      apply Complex.ext <;> simp [hv, hw]
    have hne : ∀ t ∈ Icc (-1 : ℝ) 1, v.re + w.re * t ≠ 0 := fun t ht h0 => h t ht (by rw [e, h0, ofReal_zero])
    have hcont : Continuous fun t : ℝ => v.re + w.re * t := by fun_prop
    by_cases h1 : ∀ t ∈ Icc (-1 : ℝ) 1, 0 < v.re + w.re * t
    · refine ContinuousOn.cpow (by fun_prop) continuousOn_const fun t ht => ?_
      rw [e, ofReal_mem_slitPlane]
      exact h1 t ht
    · have h2 : ∀ t ∈ Icc (-1 : ℝ) 1, v.re + w.re * t < 0 := by
        push Not at h1
        obtain ⟨t0, ht0, h1⟩ := h1
        intro t ht
        by_contra hcon
        push Not at hcon
        have hpc : IsPreconnected (Icc (-1 : ℝ) 1) := isPreconnected_Icc
        obtain ⟨s, hs, hs0⟩ := hpc.intermediate_value ht0 ht hcont.continuousOn ⟨h1, hcon⟩
        exact hne s hs hs0
      have e3 : ∀ t ∈ Icc (-1 : ℝ) 1, (v + w * t) ^ c = (-(v + w * t)) ^ c * exp (Real.pi * I * c) := fun t ht => by
        rw [e, ofReal_cpow_of_nonpos (h2 t ht).le]
      refine ContinuousOn.congr (ContinuousOn.mul (ContinuousOn.cpow (by fun_prop) continuousOn_const fun t ht => ?_) continuousOn_const) e3
      rw [e, ← ofReal_neg, ofReal_mem_slitPlane]
      linarith [h2 t ht]
  · refine ContinuousOn.cpow (by fun_prop) continuousOn_const fun t _ => ?_
    rw [mem_slitPlane_iff]
    right
    simpa [hw] using hv

theorem edgeY_cont {m n1 d : Nat} {u : Nat → ℂ} (hn : n1 ≤ d) (h : ∀ i < d, ∀ t : ℝ, -1 ≤ t → t ≤ 1 → u i ≠ t) :
    ContinuousOn (fun t : ℝ => edgeY m n1 d u t) (Icc (-1) 1) := by
  unfold edgeY
  refine ContinuousOn.mul ?_ ?_
  · refine continuousOn_finsetProd _ fun k hk => ?_
    have hk : k < n1 := Finset.mem_range.1 hk
    have := cpow_line (m : ℂ)⁻¹ (v := u k) (w := -1) (by simp) (fun t ht h0 => h k (by omega) t ht.1 ht.2 (by linear_combination h0))
    refine this.congr fun t _ => ?_
    simp only
    congr 1
    ring
  · refine continuousOn_finsetProd _ fun k hk => ?_
    have hk := (Finset.mem_Ico.1 hk).2
    have := cpow_line (m : ℂ)⁻¹ (v := -u k) (w := 1) (by simp) (fun t ht h0 => h k (by omega) t ht.1 ht.2 (by linear_combination -h0))
    refine this.congr fun t _ => ?_
    simp only
    congr 1
    ring

theorem edgeY_ne {m n1 d : Nat} (hm : 0 < m) {u : Nat → ℂ} (hn : n1 ≤ d) (h : ∀ i < d, ∀ t : ℝ, -1 ≤ t → t ≤ 1 → u i ≠ t) {t : ℝ} (h1 : -1 ≤ t) (h2 : t ≤ 1) :
    edgeY m n1 d u t ≠ 0 := by
  have hm' : (m : ℂ)⁻¹ ≠ 0 := inv_ne_zero (by exact_mod_cast hm.ne')
  unfold edgeY
  refine mul_ne_zero (Finset.prod_ne_zero_iff.2 fun k hk => ?_) (Finset.prod_ne_zero_iff.2 fun k hk => ?_)
  · rw [cpow_ne_zero_iff_of_exponent_ne_zero hm']
    exact sub_ne_zero.2 (h k (lt_of_lt_of_le (Finset.mem_range.1 hk) hn) t h1 h2)
  · rw [cpow_ne_zero_iff_of_exponent_ne_zero hm']
    exact sub_ne_zero.2 (h k (Finset.mem_Ico.1 hk).2 t h1 h2).symm

/-- the numbers stored for an edge give a determination of `y`, and its rays at both ends -/
theorem branchY_spec {m n a b n1 : Nat} (hm : 0 < m) {x u : Nat → ℂ} (h : EdgeData m n x a b n1 u)
    (hx : x a ≠ x b) (hseg : ∀ k < n, k ≠ a → k ≠ b → ∀ t : ℝ, -1 ≤ t → t ≤ 1 → x k ≠ edgePt (x a) (x b) t) :
    IsBranchM m n x (x a) (x b) (branchY m n n1 u) ∧ LeavesAlong (branchY m n n1 u) (-1) (u (n + 1)) ∧ LeavesAlong (branchY m n n1 u) 1 (u (n + 2)) := by
  obtain ⟨τ, hτ, hp⟩ := h.pts
  have hne : ∀ i < n - 2, ∀ t : ℝ, -1 ≤ t → t ≤ 1 → u i ≠ t := by
    intro i hi t h1 h2 heq
    have hk := hτ.mapsTo (show i ∈ Iio (n - 2) from hi)
    simp only [mem_ofPred_eq] at hk
    exact hseg (τ i) hk.1 hk.2.1 hk.2.2 t h1 h2 (by rw [← hp i hi, heq])
  have hc := edgeY_cont (m := m) h.n1_le hne
  have hun : u n ≠ 0 := by
    intro h0
    have h1 := h.eqn 0
    rw [h0, zero_mul, zero_pow hm.ne', zero_mul] at h1
    obtain ⟨k, hk, hk0⟩ := Finset.prod_eq_zero_iff.1 h1.symm
    have hk1 := Finset.mem_range.1 hk
    have hk2 : edgePt (x a) (x b) 0 = x k := sub_eq_zero.1 hk0
    have hab' : (x a + x b) / 2 ≠ x a ∧ (x a + x b) / 2 ≠ x b := by
      constructor
      · intro g; exact hx (by linear_combination -2 * g)
      · intro g; exact hx (by linear_combination 2 * g)
    have hz : edgePt (x a) (x b) 0 = (x a + x b) / 2 := by unfold edgePt; ring
    rw [hz] at hk2
    have := hseg k hk1 (fun g => hab'.1 (by rw [hk2, g])) (fun g => hab'.2 (by rw [hk2, g])) 0 (by norm_num) (by norm_num)
    rw [ofReal_zero, hz] at this
    exact this hk2.symm
  have hdir : ∀ (t0 : ℝ) (c : ℂ), t0 ∈ Icc (-1 : ℝ) 1 → c = u n * edgeY m n1 (n - 2) u t0 → LeavesAlong (branchY m n n1 u) t0 c := by
    intro t0 c ht0 hcc
    have hc0 : c ≠ 0 := by rw [hcc]; exact mul_ne_zero hun (edgeY_ne hm h.n1_le hne ht0.1 ht0.2)
    refine ⟨hc0, ?_⟩
    have hcw : ContinuousWithinAt (fun t : ℝ => u n * edgeY m n1 (n - 2) u t) (Ioo (-1) 1) t0 := ((continuousOn_const.mul hc) t0 ht0).mono Ioo_subset_Icc_self
    have ht : Filter.Tendsto (fun t : ℝ => u n * edgeY m n1 (n - 2) u t) (nhdsWithin t0 (Ioo (-1) 1)) (nhds c) := by
      have := hcw.tendsto
      rwa [← hcc] at this
    have hn : Filter.Tendsto (fun t : ℝ => ((‖u n * edgeY m n1 (n - 2) u t‖ : ℝ) : ℂ)) (nhdsWithin t0 (Ioo (-1) 1)) (nhds ((‖c‖ : ℝ) : ℂ)) :=
      (continuous_ofReal.tendsto _).comp ht.norm
    refine (ht.div hn (by exact_mod_cast norm_ne_zero_iff.2 hc0)).congr' ?_
    filter_upwards [self_mem_nhdsWithin] with t htt
    have hpos : 0 < (1 - t ^ 2) ^ ((m : ℝ)⁻¹) := Real.rpow_pos_of_pos (by nlinarith [htt.1, htt.2]) _
    unfold branchY
    rw [norm_mul, norm_real, Real.norm_of_nonneg hpos.le, ofReal_mul]
    exact (mul_div_mul_right _ _ (by exact_mod_cast hpos.ne')).symm
  refine ⟨⟨?_, fun t ht => ?_⟩, hdir _ _ (by simp) (by rw [h.ya]; simp), hdir _ _ (by simp) (by rw [h.yb]; simp)⟩
  · unfold branchY
    refine (continuousOn_const.mul hc).mul ?_
    refine (continuous_ofReal.comp ?_).continuousOn
    exact (by fun_prop : Continuous fun t : ℝ => 1 - t ^ 2).rpow_const fun _ => Or.inr (by positivity)
  · unfold branchY
    rw [mul_pow, ← ofReal_pow, ← Real.rpow_natCast, ← Real.rpow_mul (by nlinarith [ht.1, ht.2]), inv_mul_cancel₀ (by exact_mod_cast hm.ne'), Real.rpow_one, ← h.eqn]
    push_cast
    rfl

end Hcp
