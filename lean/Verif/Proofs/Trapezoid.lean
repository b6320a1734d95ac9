import Mathlib.Analysis.Complex.CauchyIntegral
import Mathlib.Analysis.Fourier.PoissonSummation
import Mathlib.Analysis.SpecialFunctions.ImproperIntegrals
import Mathlib.MeasureTheory.Integral.IntegralEqImproper
import Mathlib.MeasureTheory.Function.LocallyIntegrable
import Mathlib.MeasureTheory.Integral.Asymptotics

/-!
# Error of the trapezoidal rule for a function holomorphic in a strip
-/

namespace Hcp

open MeasureTheory Set Filter Topology Asymptotics FourierTransform

/-- decay of a function of a strip, uniform in the height -/
def StripDecay (F : ℂ → ℂ) (r : ℝ) : Prop :=
  ∃ C X0 : ℝ, ∀ x y : ℝ, X0 ≤ |x| → |y| ≤ r → ‖F (x + y * Complex.I)‖ ≤ C / (1 + x ^ 2)

/-- the open strip `|Im t| < ρ` -/
def openStrip (ρ : ℝ) : Set ℂ := {t | |t.im| < ρ}

theorem isOpen_openStrip (ρ : ℝ) : IsOpen (openStrip ρ) := isOpen_lt (by fun_prop) continuous_const

theorem mem_openStrip {ρ x y : ℝ} (h : |y| < ρ) : (x : ℂ) + y * Complex.I ∈ openStrip ρ := by
  simp [openStrip, h]

theorem strip_line_continuous {F : ℂ → ℂ} {ρ y : ℝ} (hF : DifferentiableOn ℂ F (openStrip ρ)) (hy : |y| < ρ) :
    Continuous fun x : ℝ => F (x + y * Complex.I) := by
  rw [continuous_iff_continuousAt]
  intro x
  have h1 : ContinuousAt F (x + y * Complex.I) := (hF.differentiableAt ((isOpen_openStrip ρ).mem_nhds (mem_openStrip hy))).continuousAt
  exact ContinuousAt.comp (f := fun x : ℝ => (x : ℂ) + y * Complex.I) h1 (by fun_prop)

theorem decay_isBigO {f : ℝ → ℂ} {C X0 : ℝ} (h : ∀ x : ℝ, X0 ≤ |x| → ‖f x‖ ≤ C / (1 + x ^ 2)) :
    f =O[cocompact ℝ] fun x : ℝ => (1 + x ^ 2)⁻¹ := by
  refine IsBigO.of_bound C ?_
  rw [Filter.Eventually, Metric.mem_cocompact_iff_closedBall_compl_subset 0]
  refine ⟨X0, fun x hx => ?_⟩
  simp only [mem_compl_iff, Metric.mem_closedBall, dist_zero_right, Real.norm_eq_abs, not_le] at hx
  simp only [mem_ofPred_eq]
  rw [Real.norm_of_nonneg (by positivity)]
  have := h x hx.le
  rwa [div_eq_mul_inv] at this

theorem strip_line_integrable {F : ℂ → ℂ} {ρ r y : ℝ} (hF : DifferentiableOn ℂ F (openStrip ρ)) (hr : r < ρ) (hd : StripDecay F r) (hy : |y| ≤ r) :
    Integrable fun x : ℝ => F (x + y * Complex.I) := by
  obtain ⟨C, X0, hC⟩ := hd
  refine (strip_line_continuous hF (lt_of_le_of_lt hy hr)).locallyIntegrable.integrable_of_isBigO_cocompact (decay_isBigO fun x hx => hC x y hx hy) ?_
  exact integrable_inv_one_add_sq.integrableAtFilter _

/-- the line of integration can be moved in the strip -/
theorem strip_shift {F : ℂ → ℂ} {ρ r y : ℝ} (hF : DifferentiableOn ℂ F (openStrip ρ)) (hr : r < ρ) (hd : StripDecay F r) (hy : |y| ≤ r) :
    ∫ x : ℝ, F (x + y * Complex.I) = ∫ x : ℝ, F x := by
  have hr0 : 0 ≤ r := le_trans (abs_nonneg _) hy
  have i1 := strip_line_integrable hF hr hd hy
  have i0 := strip_line_integrable hF hr hd (y := 0) (by simpa using hr0)
  simp only [Complex.ofReal_zero, zero_mul, add_zero] at i0
  have t1 := intervalIntegral_tendsto_integral i1 tendsto_neg_atTop_atBot tendsto_id
  have t0 := intervalIntegral_tendsto_integral i0 tendsto_neg_atTop_atBot tendsto_id
  have hv : Tendsto (fun T : ℝ => (∫ x in (-T)..T, F (x + y * Complex.I)) - ∫ x in (-T)..T, F x) atTop (𝓝 0) := by
    obtain ⟨C, X0, hC⟩ := hd
    have hb : ∀ᶠ T : ℝ in atTop, ‖(∫ x in (-T)..T, F (x + y * Complex.I)) - ∫ x in (-T)..T, F x‖ ≤ 2 * (C * |y|) * (1 + T ^ 2)⁻¹ := by
      filter_upwards [eventually_ge_atTop X0, eventually_ge_atTop 0] with T hT hT0
      have h := Complex.integral_boundary_rect_eq_zero_of_differentiableOn F (-T : ℝ) (T + y * Complex.I) (by
        refine hF.mono fun z hz => ?_
        have := hz.2
        simp only [mem_preimage, Complex.ofReal_im, Complex.add_im, Complex.mul_im, Complex.ofReal_re, Complex.I_im, Complex.I_re, mul_one, mul_zero, add_zero, zero_add] at this
        have h2 := abs_sub_left_of_mem_uIcc this
        simp only [openStrip, mem_ofPred_eq]
        rw [sub_zero, sub_zero] at h2
        linarith)
      simp only [Complex.ofReal_im, Complex.add_im, Complex.mul_im, Complex.ofReal_re, Complex.I_im, Complex.I_re, mul_one, mul_zero, add_zero, zero_add, Complex.add_re, Complex.mul_re, sub_zero,
        Complex.ofReal_zero, zero_mul, Complex.ofReal_neg, Complex.neg_im, neg_zero, Complex.neg_re] at h
      have hl : ∀ s : ℝ, |s| = T → ‖∫ t in (0 : ℝ)..y, F (s + t * Complex.I)‖ ≤ C * |y| * (1 + T ^ 2)⁻¹ := by
        intro s hs
        have := intervalIntegral.norm_integral_le_of_norm_le_const (a := (0 : ℝ)) (b := y) (C := C / (1 + s ^ 2)) (f := fun t : ℝ => F (s + t * Complex.I)) (by
          intro t ht
          refine hC s t (hs ▸ hT) ?_
          have h2 := abs_sub_left_of_mem_uIcc (uIoc_subset_uIcc ht)
          rw [sub_zero, sub_zero] at h2
          linarith)
        rw [sub_zero] at this
        refine this.trans (le_of_eq ?_)
        rw [← hs, sq_abs, div_eq_mul_inv]
        ring
      have h1 := hl T (abs_of_nonneg hT0)
      have h2 := hl (-T) (by rw [abs_neg, abs_of_nonneg hT0])
      rw [Complex.ofReal_neg] at h2
      have e : (∫ x in (-T)..T, F (x + y * Complex.I)) - ∫ x in (-T)..T, F x =
          Complex.I • (∫ t in (0 : ℝ)..y, F (T + t * Complex.I)) - Complex.I • ∫ t in (0 : ℝ)..y, F (-T + t * Complex.I) := by
        linear_combination -h
      rw [e]
      refine (norm_sub_le _ _).trans ?_
      rw [norm_smul, norm_smul, Complex.norm_I, one_mul, one_mul]
      linarith
    refine squeeze_zero_norm' hb ?_
    have : Tendsto (fun T : ℝ => (1 + T ^ 2)⁻¹) atTop (𝓝 0) :=
      tendsto_inv_atTop_zero.comp (tendsto_atTop_add_const_left _ _ (tendsto_pow_atTop (by norm_num)))
    simpa using this.const_mul (2 * (C * |y|))
  have := tendsto_nhds_unique hv (t1.sub t0)
  exact (sub_eq_zero.1 this.symm)

/-- the Fourier transform decays at a speed given by the width of the strip -/
theorem strip_fourier {F : ℂ → ℂ} {ρ r : ℝ} (hF : DifferentiableOn ℂ F (openStrip ρ)) (hr0 : 0 ≤ r) (hr : r < ρ) (hd : StripDecay F r) {N : ℝ}
    (hN : ∀ y : ℝ, |y| = r → ∫ x : ℝ, ‖F (x + y * Complex.I)‖ ≤ N) (ξ : ℝ) :
    ‖∫ x : ℝ, Complex.exp (-2 * Real.pi * x * ξ * Complex.I) * F x‖ ≤ N * Real.exp (-(2 * Real.pi * r * |ξ|)) := by
  obtain ⟨y, hy, hyξ⟩ : ∃ y : ℝ, |y| = r ∧ y * ξ = -(r * |ξ|) := by
    rcases le_total 0 ξ with h | h
    · exact ⟨-r, by rw [abs_neg, abs_of_nonneg hr0], by rw [abs_of_nonneg h]; ring⟩
    · exact ⟨r, abs_of_nonneg hr0, by rw [abs_of_nonpos h]; ring⟩
  have hexp : ∀ x y : ℝ, ‖Complex.exp (-2 * Real.pi * (x + y * Complex.I) * ξ * Complex.I)‖ = Real.exp (2 * Real.pi * (y * ξ)) := by
    intro x y
    rw [Complex.norm_exp]
    congr 1
    simp
    ring
  have hG : DifferentiableOn ℂ (fun t => Complex.exp (-2 * Real.pi * t * ξ * Complex.I) * F t) (openStrip ρ) := by
    refine DifferentiableOn.mul ?_ hF
    fun_prop
  have hGd : StripDecay (fun t => Complex.exp (-2 * Real.pi * t * ξ * Complex.I) * F t) r := by
    obtain ⟨C, X0, hC⟩ := hd
    refine ⟨Real.exp (2 * Real.pi * (r * |ξ|)) * C, X0, fun x y hx hy => ?_⟩
    rw [norm_mul, hexp, mul_div_assoc]
    refine mul_le_mul (Real.exp_le_exp.2 ?_) (hC x y hx hy) (norm_nonneg _) (Real.exp_pos _).le
    refine mul_le_mul_of_nonneg_left ?_ (by positivity)
    refine (le_abs_self _).trans ?_
    rw [abs_mul]
    exact mul_le_mul_of_nonneg_right hy (abs_nonneg _)
  have hs := strip_shift hG hr hGd hy.le
  rw [← hs]
  refine (norm_integral_le_integral_norm _).trans ?_
  simp only [norm_mul, hexp]
  rw [integral_const_mul, hyξ, mul_comm]
  refine mul_le_mul (hN y hy) (le_of_eq (by congr 1; ring)) (Real.exp_pos _).le ?_
  exact le_trans (integral_nonneg fun _ => norm_nonneg _) (hN y hy)

/-- **Trapezoidal rule.** `F` is holomorphic in a strip, decays, and the integrals of its absolute value on the lines at height `± r` are at most `N`. -/
theorem trapezoid {F : ℂ → ℂ} {ρ r : ℝ} (hF : DifferentiableOn ℂ F (openStrip ρ)) (hr0 : 0 < r) (hr : r < ρ) (hd : StripDecay F r) {N : ℝ}
    (hN : ∀ y : ℝ, |y| = r → ∫ x : ℝ, ‖F (x + y * Complex.I)‖ ≤ N) {h : ℝ} (hh : 0 < h) :
    (Summable fun k : ℤ => F ((k * h : ℝ) : ℂ)) ∧
      ‖(h : ℂ) * ∑' k : ℤ, F ((k * h : ℝ) : ℂ) - ∫ x : ℝ, F x‖ ≤ 2 * N / (Real.exp (2 * Real.pi * r / h) - 1) := by
  have hN0 : 0 ≤ N := le_trans (integral_nonneg fun _ => norm_nonneg _) (hN r (abs_of_pos hr0))
  let f : ℝ → ℂ := fun x => h * F ((x * h : ℝ) : ℂ)
  have hcF : Continuous fun x : ℝ => F x := by
    have := strip_line_continuous hF (y := 0) (by rw [abs_zero]; linarith)
    simpa using this
  have hc : Continuous f := continuous_const.mul (hcF.comp (continuous_id.mul continuous_const))
  have hbig : f =O[cocompact ℝ] fun x : ℝ => |x| ^ (-2 : ℝ) := by
    obtain ⟨C, X0, hC⟩ := hd
    refine IsBigO.of_bound (C / h) ?_
    rw [Filter.Eventually, Metric.mem_cocompact_iff_closedBall_compl_subset 0]
    refine ⟨|X0| / h, fun x hx => ?_⟩
    simp only [mem_compl_iff, Metric.mem_closedBall, dist_zero_right, Real.norm_eq_abs, not_le] at hx
    simp only [mem_ofPred_eq, f]
    have hx0 : 0 < |x| := lt_of_le_of_lt (by positivity) hx
    have h1 := hC (x * h) 0 (by
      rw [abs_mul, abs_of_pos hh]
      rw [div_lt_iff₀ hh] at hx
      linarith [le_abs_self X0]) (by rw [abs_zero]; exact hr0.le)
    simp only [Complex.ofReal_zero, zero_mul, add_zero] at h1
    have hC0 : 0 ≤ C := by
      by_contra hneg
      push Not at hneg
      have : C / (1 + (x * h) ^ 2) < 0 := div_neg_of_neg_of_pos hneg (by positivity)
      linarith [norm_nonneg (F ((x * h : ℝ) : ℂ))]
    rw [norm_mul, Complex.norm_real, Real.norm_of_nonneg hh.le, Real.norm_of_nonneg (by positivity), Real.rpow_neg hx0.le]
    norm_cast
    rw [sq_abs]
    calc h * ‖F ((x * h : ℝ) : ℂ)‖ ≤ h * (C / (1 + (x * h) ^ 2)) := mul_le_mul_of_nonneg_left h1 hh.le
      _ ≤ h * (C / (x * h) ^ 2) := by
        refine mul_le_mul_of_nonneg_left (div_le_div_of_nonneg_left hC0 ?_ (by linarith)) hh.le
        have : x ≠ 0 := abs_pos.1 hx0
        positivity
      _ = C / h * (x ^ 2)⁻¹ := by
        have : x ≠ 0 := abs_pos.1 hx0
        field_simp
  have hfou : ∀ ξ : ℝ, 𝓕 f ξ = ∫ x : ℝ, Complex.exp (-2 * Real.pi * x * ((ξ / h : ℝ) : ℂ) * Complex.I) * F x := by
    intro ξ
    rw [Real.fourier_real_eq_integral_exp_smul]
    have := MeasureTheory.Measure.integral_comp_mul_right (fun x : ℝ => Complex.exp (-2 * Real.pi * x * ((ξ / h : ℝ) : ℂ) * Complex.I) * F x) h
    rw [abs_of_pos (inv_pos.2 hh)] at this
    have e : ∫ x : ℝ, Complex.exp (-2 * Real.pi * x * ((ξ / h : ℝ) : ℂ) * Complex.I) * F x =
        h • ∫ x : ℝ, (fun x : ℝ => Complex.exp (-2 * Real.pi * x * ((ξ / h : ℝ) : ℂ) * Complex.I) * F x) (x * h) := by
      rw [this, smul_smul, mul_inv_cancel₀ hh.ne', one_smul]
    rw [e, ← integral_smul]
    congr 1
    ext x
    simp only [f, smul_eq_mul, Complex.real_smul]
    have hh' : (h : ℂ) ≠ 0 := by exact_mod_cast hh.ne'
    rw [show ((-2 * Real.pi * x * ξ : ℝ) : ℂ) * Complex.I = -2 * Real.pi * ((x * h : ℝ) : ℂ) * ((ξ / h : ℝ) : ℂ) * Complex.I by push_cast; field_simp]
    ring
  have hle : ∀ ξ : ℝ, ‖𝓕 f ξ‖ ≤ N * Real.exp (-(2 * Real.pi * r / h * |ξ|)) := by
    intro ξ
    rw [hfou]
    refine (strip_fourier hF hr0.le hr hd hN (ξ / h)).trans (le_of_eq ?_)
    rw [abs_div, abs_of_pos hh]
    congr 2
    field_simp
  set q : ℝ := Real.exp (-(2 * Real.pi * r / h)) with hq
  have hq0 : 0 < q := Real.exp_pos _
  have hq1 : q < 1 := by rw [hq, Real.exp_lt_one_iff]; have := Real.pi_pos; have : 0 < 2 * Real.pi * r / h := by positivity
                         linarith
  have hqn : ∀ n : ℕ, Real.exp (-(2 * Real.pi * r / h * n)) = q ^ n := by
    intro n
    rw [hq, ← Real.exp_nat_mul]
    congr 1
    ring
  have hgeo : ∀ k : ℤ, ‖𝓕 f k‖ ≤ N * q ^ k.natAbs := by
    intro k
    refine (hle k).trans (le_of_eq ?_)
    rw [← hqn]
    congr 4
    rw [Nat.cast_natAbs]
    push_cast
    rfl
  have hsq : HasSum (fun n : ℕ => N * q ^ (n + 1)) (N * (q / (1 - q))) := by
    have := (hasSum_geometric_of_lt_one hq0.le hq1).mul_left (N * q)
    convert! this using 1
    · ext n
      ring
    · rw [div_eq_mul_inv]
      ring
  have hsumq : Summable fun k : ℤ => N * q ^ k.natAbs := by
    refine Summable.mul_left _ ?_
    refine Summable.of_nat_of_neg (by simpa using summable_geometric_of_lt_one hq0.le hq1) (by simpa using summable_geometric_of_lt_one hq0.le hq1)
  have hsf : Summable fun k : ℤ => 𝓕 f (k : ℝ) := Summable.of_norm_bounded hsumq hgeo
  have hpo := Real.tsum_eq_tsum_fourier_of_rpow_decay_of_summable hc (by norm_num : (1 : ℝ) < 2) hbig hsf 0
  simp only [zero_add, QuotientAddGroup.mk_zero, fourier_eval_zero, mul_one] at hpo
  have hsum : Summable fun k : ℤ => F ((k * h : ℝ) : ℂ) := by
    have h1 : Summable fun k : ℤ => f (k : ℝ) :=
      summable_of_isBigO (Real.summable_abs_int_rpow (by norm_num : (1 : ℝ) < 2)) (hbig.comp_tendsto Int.tendsto_coe_cofinite)
    have h2 := h1.mul_left (h : ℂ)⁻¹
    refine h2.congr fun k => ?_
    have hh' : (h : ℂ) ≠ 0 := by exact_mod_cast hh.ne'
    simp only [f]
    rw [← mul_assoc, inv_mul_cancel₀ hh', one_mul]
  refine ⟨hsum, ?_⟩
  have e1 : (h : ℂ) * ∑' k : ℤ, F ((k * h : ℝ) : ℂ) = ∑' k : ℤ, 𝓕 f (k : ℝ) := by
    rw [← hpo, ← tsum_mul_left]
  have e2 : 𝓕 f ((0 : ℤ) : ℝ) = ∫ x : ℝ, F x := by
    rw [Int.cast_zero, hfou]
    simp
  rw [e1, hsf.tsum_eq_add_tsum_ite 0, e2, add_sub_cancel_left]
  have hg : HasSum (fun k : ℤ => if k = 0 then 0 else N * q ^ k.natAbs) (N * (q / (1 - q)) + N * (q / (1 - q))) := by
    refine HasSum.of_nat_of_neg_add_one ?_ ?_
    · rw [← hasSum_nat_add_iff' 1]
      simp only [Finset.range_one, Finset.sum_singleton, Nat.cast_zero, if_true, sub_zero]
      convert! hsq using 1
    · convert! hsq using 1
  have hfin : N * (q / (1 - q)) + N * (q / (1 - q)) = 2 * N / (Real.exp (2 * Real.pi * r / h) - 1) := by
    have e3 : Real.exp (2 * Real.pi * r / h) = q⁻¹ := by rw [hq, Real.exp_neg, inv_inv]
    rw [e3]
    have h1 : 1 - q ≠ 0 := by linarith
    have h2 : q⁻¹ - 1 = (1 - q) / q := by field_simp
    rw [h2]
    field_simp
    norm_num
  rw [← hfin]
  refine tsum_of_norm_bounded hg fun k => ?_
  split_ifs
  · rw [norm_zero]
  · exact hgeo k

end Hcp
