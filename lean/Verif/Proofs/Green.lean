import Mathlib.Analysis.Complex.HasPrimitives
import Mathlib.MeasureTheory.Integral.IntervalIntegral.FundThmCalculus

/-!
# The theorems of Cauchy and Green on rectangles of the upper half plane
-/

namespace Hcp.HalfPlane
open Complex Set MeasureTheory Filter Topology Interval

/-- the rectangle `[-R, R] × [ε, R]` -/
def Rect (ε R : ℝ) (z : ℂ) : Prop := |z.re| ≤ R ∧ ε ≤ z.im ∧ z.im ≤ R

section
variable {F U : ℂ → ℂ} {ε R : ℝ}

theorem prim (hF : ∀ z : ℂ, 0 < z.im → DifferentiableAt ℂ F z) (hε : 0 < ε) (hR : ε < R) :
    ∃ U : ℂ → ℂ, (∀ z, Rect ε R z → HasDerivAt U (F z) z) ∧ U ((-R : ℝ) + ε * I) = 0 := by
  set ρ := R ^ 2 / ε + R with hρ
  have hR0 : 0 < R := hε.trans hR
  have hρR : R < ρ := by rw [hρ]; have : 0 < R ^ 2 / ε := by positivity
                         linarith
  have hb : ∀ z ∈ Metric.ball ((ρ : ℂ) * I) ρ, 0 < z.im := by
    intro z hz
    rw [Metric.mem_ball, dist_eq_norm] at hz
    have := (abs_im_le_norm (z - ρ * I)).trans_lt hz
    simp only [sub_im, mul_im, ofReal_re, I_im, mul_one, ofReal_im, I_re, mul_zero, add_zero] at this
    have := abs_lt.1 this
    linarith
  obtain ⟨U, hU0, hU⟩ := (DifferentiableOn.isExactOn_ball (f := F) (c := (ρ : ℂ) * I) (r := ρ) fun z hz => (hF z (hb z hz)).differentiableWithinAt).with_val_at ((-R : ℝ) + ε * I) 0
  refine ⟨U, fun z hz => hU z ?_, hU0⟩
  obtain ⟨h1, h2, h3⟩ := hz
  rw [Metric.mem_ball, dist_eq_norm, norm_eq_sqrt_sq_add_sq, Real.sqrt_lt' (by linarith)]
  simp only [sub_im, mul_im, ofReal_re, I_im, mul_one, ofReal_im, I_re, mul_zero, add_zero, sub_re, mul_re, sub_zero]
  have e1 : z.re ^ 2 ≤ R ^ 2 := sq_le_sq' (by linarith [(abs_le.1 h1).1]) (abs_le.1 h1).2
  have e2 : ρ * ε = R ^ 2 + R * ε := by rw [hρ]; field_simp
  have e3 : ρ * ε ≤ ρ * z.im := mul_le_mul_of_nonneg_left h2 (by linarith)
  nlinarith [mul_nonneg (by linarith : 0 ≤ z.im) (by linarith : 0 ≤ R - z.im), mul_pos hR0 hε]

theorem horiz (hF : ∀ z : ℂ, 0 < z.im → DifferentiableAt ℂ F z) (hε : 0 < ε) (hU : ∀ z, Rect ε R z → HasDerivAt U (F z) z) {y : ℝ} (hy : y ∈ Icc ε R) {x x' : ℝ} (hx : x ∈ Icc (-R) R) (hx' : x' ∈ Icc (-R) R) :
    ∫ s in x..x', F (s + y * I) = U (x' + y * I) - U (x + y * I) := by
  have hs : ∀ s ∈ uIcc x x', |s| ≤ R := fun s hs => abs_le.2 ((uIcc_subset_Icc hx hx') hs)
  refine intervalIntegral.integral_eq_sub_of_hasDerivAt (f := fun s : ℝ => U (s + y * I)) (fun s h => ?_) (ContinuousOn.intervalIntegrable fun s h => ?_)
  · have h1 : HasDerivAt U (F (s + y * I)) (s + y * I) := hU _ ⟨by simpa using hs s h, by simpa using hy.1, by simpa using hy.2⟩
    have h2 : HasDerivAt (fun s : ℝ => (s : ℂ) + y * I) 1 s := (ofRealCLM.hasDerivAt (x := s)).add_const _
    have := h1.comp s h2
    rw [mul_one] at this
    exact this
  · have h1 : ContinuousAt F (s + y * I) := (hF _ (by simpa using lt_of_lt_of_le hε hy.1)).continuousAt
    exact (ContinuousAt.comp (g := F) (f := fun s : ℝ => (s : ℂ) + y * I) h1 (by fun_prop)).continuousWithinAt

theorem vert (hF : ∀ z : ℂ, 0 < z.im → DifferentiableAt ℂ F z) (hε : 0 < ε) (hU : ∀ z, Rect ε R z → HasDerivAt U (F z) z) {x : ℝ} (hx : x ∈ Icc (-R) R) {y y' : ℝ} (hy : y ∈ Icc ε R) (hy' : y' ∈ Icc ε R) :
    ∫ s in y..y', F (x + s * I) * I = U (x + y' * I) - U (x + y * I) := by
  have hs : ∀ s ∈ uIcc y y', s ∈ Icc ε R := fun s hs => (uIcc_subset_Icc hy hy') hs
  refine intervalIntegral.integral_eq_sub_of_hasDerivAt (f := fun s : ℝ => U (x + s * I)) (fun s h => ?_) (ContinuousOn.intervalIntegrable fun s h => ?_)
  · have h1 : HasDerivAt U (F (x + s * I)) (x + s * I) := hU _ ⟨by simpa using abs_le.2 hx, by simpa using (hs s h).1, by simpa using (hs s h).2⟩
    have h2 : HasDerivAt (fun s : ℝ => (x : ℂ) + s * I) I s := by
      have := ((ofRealCLM.hasDerivAt (x := s)).mul_const I).const_add (x : ℂ)
      simpa using this
    exact h1.comp s h2
  · have h1 : ContinuousAt F (x + s * I) := (hF _ (by simpa using lt_of_lt_of_le hε (hs s h).1)).continuousAt
    have := ContinuousAt.comp (g := F) (f := fun s : ℝ => (x : ℂ) + s * I) h1 (by fun_prop)
    exact (this.mul continuousAt_const).continuousWithinAt

/-- bounds on the sides of the rectangle -/
theorem prim_le (hF : ∀ z : ℂ, 0 < z.im → DifferentiableAt ℂ F z) (hε : 0 < ε) (hR : ε < R) (hU : ∀ z, Rect ε R z → HasDerivAt U (F z) z) (hU0 : U ((-R : ℝ) + ε * I) = 0) {M B : ℝ} (hB : ∀ z, R ≤ ‖z‖ → ‖F z‖ ≤ B)
    (hM : ∀ x ∈ Icc (-R) R, ‖∫ s in (-R)..x, F (s + ε * I)‖ ≤ M) :
    (∀ y ∈ Icc ε R, ‖U ((-R : ℝ) + y * I)‖ ≤ M + 3 * (R * B)) ∧ (∀ y ∈ Icc ε R, ‖U (R + y * I)‖ ≤ M + 3 * (R * B)) ∧ ∀ x ∈ Icc (-R) R, ‖U (x + R * I)‖ ≤ M + 3 * (R * B) := by
  have hR0 : 0 < R := hε.trans hR
  have hlR : -R ∈ Icc (-R) R := ⟨le_rfl, by linarith⟩
  have hrR : R ∈ Icc (-R) R := ⟨by linarith, le_rfl⟩
  have hεε : ε ∈ Icc ε R := ⟨le_rfl, hR.le⟩
  have hRR : R ∈ Icc ε R := ⟨hR.le, le_rfl⟩
  have hM0 : 0 ≤ M := (norm_nonneg _).trans (hM _ hlR)
  have hB0 : 0 ≤ B := (norm_nonneg _).trans (hB R (by simp [abs_of_pos hR0]))
  have far : ∀ x y : ℝ, R ≤ |x| ∨ R ≤ |y| → R ≤ ‖(x : ℂ) + y * I‖ := by
    intro x y h
    rcases h with h | h
    · have := abs_re_le_norm ((x : ℂ) + y * I)
      simp at this
      linarith
    · have := abs_im_le_norm ((x : ℂ) + y * I)
      simp at this
      linarith
  have hv : ∀ x : ℝ, x ∈ Icc (-R) R → R ≤ |x| → ∀ y ∈ Icc ε R, ‖U (x + y * I) - U (x + ε * I)‖ ≤ R * B := by
    intro x hx hxR y hy
    rw [← vert hF hε hU hx hεε hy]
    refine (intervalIntegral.norm_integral_le_of_norm_le_const (C := B) fun s _ => ?_).trans ?_
    · rw [norm_mul, norm_I, mul_one]
      exact hB _ (far _ _ (Or.inl hxR))
    · rw [mul_comm, abs_of_nonneg (by linarith [hy.1])]
      exact mul_le_mul_of_nonneg_right (by linarith [hy.2]) hB0
  have hl : ∀ y ∈ Icc ε R, ‖U ((-R : ℝ) + y * I)‖ ≤ R * B := by
    intro y hy
    have := hv (-R) hlR (by rw [abs_neg, abs_of_pos hR0]) y hy
    rwa [hU0, sub_zero] at this
  have hRB : 0 ≤ R * B := by positivity
  refine ⟨fun y hy => (hl y hy).trans (by linarith), fun y hy => ?_, fun x hx => ?_⟩
  · have h1 := hv R hrR (by rw [abs_of_pos hR0]) y hy
    have h2 := hM R hrR
    rw [horiz hF hε hU hεε hlR hrR, hU0, sub_zero] at h2
    have := norm_add_le (U (R + y * I) - U (R + ε * I)) (U (R + ε * I))
    rw [sub_add_cancel] at this
    linarith
  · have h1 : ‖U (x + R * I) - U ((-R : ℝ) + R * I)‖ ≤ 2 * (R * B) := by
      rw [← horiz hF hε hU hRR hlR hx]
      refine (intervalIntegral.norm_integral_le_of_norm_le_const (C := B) fun s _ => hB _ (far _ _ (Or.inr (by rw [abs_of_pos hR0])))).trans ?_
      rw [abs_of_nonneg (by linarith [hx.1])]
      nlinarith [hx.2]
    have h2 := hl R hRR
    have := norm_add_le (U (x + R * I) - U ((-R : ℝ) + R * I)) (U ((-R : ℝ) + R * I))
    rw [sub_add_cancel] at this
    linarith

theorem far_norm {R : ℝ} (x y : ℝ) (h : R ≤ |x| ∨ R ≤ |y|) : R ≤ ‖(x : ℂ) + y * I‖ := by
  rcases h with h | h
  · have := abs_re_le_norm ((x : ℂ) + y * I)
    simp at this
    linarith
  · have := abs_im_le_norm ((x : ℂ) + y * I)
    simp at this
    linarith

/-- the integrals over the three sides other than the real one -/
theorem sides_le {f : ℂ → ℂ} (hε : 0 < ε) (hR : ε < R) {D : ℝ} (hl : ∀ y ∈ Icc ε R, ‖f ((-R : ℝ) + y * I)‖ ≤ D) (hr : ∀ y ∈ Icc ε R, ‖f (R + y * I)‖ ≤ D) (ht : ∀ x ∈ Icc (-R) R, ‖f (x + R * I)‖ ≤ D) :
    ‖(∫ x : ℝ in (-R)..R, f (x + R * I)) - I • (∫ y : ℝ in ε..R, f (R + y * I)) + I • ∫ y : ℝ in ε..R, f ((-R : ℝ) + y * I)‖ ≤ 4 * R * D := by
  have hR0 : 0 < R := hε.trans hR
  have hD0 : 0 ≤ D := (norm_nonneg _).trans (hl ε ⟨le_rfl, hR.le⟩)
  have h1 : ‖∫ x : ℝ in (-R)..R, f (x + R * I)‖ ≤ D * |R - -R| :=
    intervalIntegral.norm_integral_le_of_norm_le_const fun x hx => ht x (by rw [uIoc_of_le (by linarith)] at hx; exact ⟨hx.1.le, hx.2⟩)
  have h2 : ‖∫ y : ℝ in ε..R, f (R + y * I)‖ ≤ D * |R - ε| :=
    intervalIntegral.norm_integral_le_of_norm_le_const fun x hx => hr x (by rw [uIoc_of_le hR.le] at hx; exact ⟨hx.1.le, hx.2⟩)
  have h3 : ‖∫ y : ℝ in ε..R, f ((-R : ℝ) + y * I)‖ ≤ D * |R - ε| :=
    intervalIntegral.norm_integral_le_of_norm_le_const fun x hx => hl x (by rw [uIoc_of_le hR.le] at hx; exact ⟨hx.1.le, hx.2⟩)
  rw [abs_of_nonneg (by linarith)] at h1 h2 h3
  refine (norm_add_le _ _).trans ((add_le_add_left (norm_sub_le _ _) _).trans ?_)
  rw [norm_smul, norm_smul, norm_I, one_mul, one_mul]
  nlinarith

theorem rect_of {z : ℂ} (hε : 0 < ε) (hR : ε < R) (hz : z ∈ [[(((-R : ℝ) : ℂ) + ε * I).re, ((R : ℂ) + R * I).re]] ×ℂ [[(((-R : ℝ) : ℂ) + ε * I).im, ((R : ℂ) + R * I).im]]) : Rect ε R z := by
  rw [mem_reProdIm] at hz
  obtain ⟨h1, h2⟩ := hz
  simp only [add_re, ofReal_re, mul_re, I_re, mul_zero, ofReal_im, I_im, mul_one, sub_self, add_zero, add_im, mul_im, zero_add] at h1 h2
  rw [uIcc_of_le (by linarith)] at h1 h2
  exact ⟨abs_le.2 h1, h2.1, h2.2⟩

/-- Cauchy: the integral of `U dV` over the real side is small. -/
theorem cauchy_le {G : ℂ → ℂ} (hF : ∀ z : ℂ, 0 < z.im → DifferentiableAt ℂ F z) (hG : ∀ z : ℂ, 0 < z.im → DifferentiableAt ℂ G z) (hε : 0 < ε) (hR : ε < R) {M B : ℝ} (hB : ∀ z, R ≤ ‖z‖ → ‖F z‖ ≤ B)
    (hB' : ∀ z, R ≤ ‖z‖ → ‖G z‖ ≤ B) (hM : ∀ x ∈ Icc (-R) R, ‖∫ s in (-R)..x, F (s + ε * I)‖ ≤ M) :
    ‖∫ x in (-R)..R, (∫ s in (-R)..x, F (s + ε * I)) * G (x + ε * I)‖ ≤ 4 * R * ((M + 3 * (R * B)) * B) := by
  have hR0 : 0 < R := hε.trans hR
  have hlR : -R ∈ Icc (-R) R := ⟨le_rfl, by linarith⟩
  obtain ⟨U, hU, hU0⟩ := prim hF hε hR
  obtain ⟨b1, b2, b3⟩ := prim_le hF hε hR hU hU0 hB hM
  have hc := integral_boundary_rect_eq_zero_of_differentiableOn (fun z => U z * G z) ((-R : ℝ) + ε * I) (R + R * I) fun z hz => by
    have hz' := rect_of hε hR hz
    exact ((hU z hz').differentiableAt.mul (hG z (lt_of_lt_of_le hε hz'.2.1))).differentiableWithinAt
  simp only [add_re, ofReal_re, mul_re, I_re, mul_zero, ofReal_im, I_im, mul_one, sub_self, add_zero, add_im, mul_im, zero_add] at hc
  have hM0 : 0 ≤ M + 3 * (R * B) := (norm_nonneg _).trans (b1 ε ⟨le_rfl, hR.le⟩)
  have hs := sides_le (f := fun z => U z * G z) hε hR (D := (M + 3 * (R * B)) * B)
    (fun y hy => by rw [norm_mul]; exact mul_le_mul (b1 y hy) (hB' _ (far_norm _ _ (Or.inl (by rw [abs_neg, abs_of_pos hR0])))) (norm_nonneg _) hM0)
    (fun y hy => by rw [norm_mul]; exact mul_le_mul (b2 y hy) (hB' _ (far_norm _ _ (Or.inl (by rw [abs_of_pos hR0])))) (norm_nonneg _) hM0)
    (fun x hx => by rw [norm_mul]; exact mul_le_mul (b3 x hx) (hB' _ (far_norm _ _ (Or.inr (by rw [abs_of_pos hR0])))) (norm_nonneg _) hM0)
  have e : ∫ x in (-R)..R, (∫ s in (-R)..x, F (s + ε * I)) * G (x + ε * I) = ∫ x in (-R)..R, U (x + ε * I) * G (x + ε * I) := by
    refine intervalIntegral.integral_congr fun x hx => ?_
    rw [uIcc_of_le (by linarith)] at hx
    rw [horiz hF hε hU ⟨le_rfl, hR.le⟩ hlR hx, hU0, sub_zero]
  rw [e]
  refine le_trans (le_of_eq ?_) hs
  congr 1
  linear_combination hc

/-- Cauchy: the integral over the real side is small. -/
theorem cauchy_one (hF : ∀ z : ℂ, 0 < z.im → DifferentiableAt ℂ F z) (hε : 0 < ε) (hR : ε < R) {B : ℝ} (hB : ∀ z, R ≤ ‖z‖ → ‖F z‖ ≤ B) : ‖∫ x in (-R)..R, F (x + ε * I)‖ ≤ 4 * R * B := by
  have hR0 : 0 < R := hε.trans hR
  have hc := integral_boundary_rect_eq_zero_of_differentiableOn F ((-R : ℝ) + ε * I) (R + R * I) fun z hz => by
    have hz' := rect_of hε hR hz
    exact (hF z (lt_of_lt_of_le hε hz'.2.1)).differentiableWithinAt
  simp only [add_re, ofReal_re, mul_re, I_re, mul_zero, ofReal_im, I_im, mul_one, sub_self, add_zero, add_im, mul_im, zero_add] at hc
  have hs := sides_le (f := F) hε hR (D := B) (fun y hy => hB _ (far_norm _ _ (Or.inl (by rw [abs_neg, abs_of_pos hR0])))) (fun y hy => hB _ (far_norm _ _ (Or.inl (by rw [abs_of_pos hR0]))))
    (fun x hx => hB _ (far_norm _ _ (Or.inr (by rw [abs_of_pos hR0]))))
  refine le_trans (le_of_eq ?_) hs
  congr 1
  linear_combination hc

/-- Green: the integral of `conj U dU` over the real side is the area, up to a small error. -/
theorem green_le (hF : ∀ z : ℂ, 0 < z.im → DifferentiableAt ℂ F z) (hε : 0 < ε) (hR : ε < R) {M B : ℝ} (hB : ∀ z, R ≤ ‖z‖ → ‖F z‖ ≤ B)
    (hM : ∀ x ∈ Icc (-R) R, ‖∫ s in (-R)..x, F (s + ε * I)‖ ≤ M) :
    2 * (∫ x in (-R)..R, ∫ y in ε..R, ‖F (x + y * I)‖ ^ 2) - 4 * R * ((M + 3 * (R * B)) * B) ≤ (∫ x in (-R)..R, (starRingEnd ℂ) (∫ s in (-R)..x, F (s + ε * I)) * F (x + ε * I)).im := by
  have hR0 : 0 < R := hε.trans hR
  have hlR : -R ∈ Icc (-R) R := ⟨le_rfl, by linarith⟩
  obtain ⟨U, hU, hU0⟩ := prim hF hε hR
  obtain ⟨b1, b2, b3⟩ := prim_le hF hε hR hU hU0 hB hM
  set f' : ℂ → ℂ →L[ℝ] ℂ := fun z => (starRingEnd ℂ) (U z) • ((fderiv ℂ F z).restrictScalars ℝ) + F z • ((conjCLE : ℂ →L[ℝ] ℂ).comp (((ContinuousLinearMap.toSpanSingleton ℂ (F z))).restrictScalars ℝ)) with hf'
  have hd : ∀ z, Rect ε R z → HasFDerivAt (fun z => (starRingEnd ℂ) (U z) * F z) (f' z) z := by
    intro z hz
    have h1 : HasFDerivAt (fun z => (starRingEnd ℂ) (U z)) ((conjCLE : ℂ →L[ℝ] ℂ).comp (((ContinuousLinearMap.toSpanSingleton ℂ (F z))).restrictScalars ℝ)) z :=
      HasFDerivAt.comp z (conjCLE : ℂ →L[ℝ] ℂ).hasFDerivAt ((hU z hz).hasFDerivAt.restrictScalars ℝ)
    have h2 : HasFDerivAt F ((fderiv ℂ F z).restrictScalars ℝ) z := (hF z (lt_of_lt_of_le hε hz.2.1)).hasFDerivAt.restrictScalars ℝ
    exact h1.mul h2
  have hI : ∀ z, I • f' z 1 - f' z I = ((2 * ‖F z‖ ^ 2 : ℝ) : ℂ) * I := by
    intro z
    have e1 : (fderiv ℂ F z) I = I * (fderiv ℂ F z) 1 := by
      simp
    have e2 : F z * (starRingEnd ℂ) (F z) = ((‖F z‖ ^ 2 : ℝ) : ℂ) := by rw [mul_conj, normSq_eq_norm_sq]
    simp only [hf', add_apply, smul_apply, ContinuousLinearMap.coe_restrictScalars', ContinuousLinearMap.comp_apply, ContinuousLinearMap.toSpanSingleton_apply, smul_eq_mul, one_mul, e1]
    simp only [ContinuousLinearEquiv.coe_coe, conjCLE_apply, map_mul, conj_I]
    push_cast
    push_cast at e2
    linear_combination (2 * I) * e2
  have hcont : ContinuousOn (fun z => I • f' z 1 - f' z I) {z | Rect ε R z} := by
    simp only [hI]
    intro z hz
    have : ContinuousAt F z := (hF z (lt_of_lt_of_le hε hz.2.1)).continuousAt
    have h2 : ContinuousAt (fun z => ((2 * ‖F z‖ ^ 2 : ℝ) : ℂ) * I) z := by fun_prop
    exact h2.continuousWithinAt
  have hc := integral_boundary_rect_of_continuousOn_of_hasFDerivAt_real (fun z => (starRingEnd ℂ) (U z) * F z) f' ((-R : ℝ) + ε * I) (R + R * I)
    (fun z hz => (hd z (rect_of hε hR hz)).continuousAt.continuousWithinAt)
    (fun z hz => hd z (rect_of hε hR (by
      rw [mem_reProdIm] at hz ⊢
      exact ⟨Ioo_subset_Icc_self hz.1, Ioo_subset_Icc_self hz.2⟩)))
    ((hcont.mono fun z hz => rect_of hε hR hz).integrableOn_compact (isCompact_uIcc.reProdIm isCompact_uIcc))
  simp only [hI] at hc
  simp only [add_re, ofReal_re, mul_re, I_re, mul_zero, ofReal_im, I_im, mul_one, sub_self, add_zero, add_im, mul_im, zero_add] at hc
  have hM0 : 0 ≤ M + 3 * (R * B) := (norm_nonneg _).trans (b1 ε ⟨le_rfl, hR.le⟩)
  have hs := sides_le (f := fun z => (starRingEnd ℂ) (U z) * F z) hε hR (D := (M + 3 * (R * B)) * B)
    (fun y hy => by rw [norm_mul, norm_conj]; exact mul_le_mul (b1 y hy) (hB _ (far_norm _ _ (Or.inl (by rw [abs_neg, abs_of_pos hR0])))) (norm_nonneg _) hM0)
    (fun y hy => by rw [norm_mul, norm_conj]; exact mul_le_mul (b2 y hy) (hB _ (far_norm _ _ (Or.inl (by rw [abs_of_pos hR0])))) (norm_nonneg _) hM0)
    (fun x hx => by rw [norm_mul, norm_conj]; exact mul_le_mul (b3 x hx) (hB _ (far_norm _ _ (Or.inr (by rw [abs_of_pos hR0])))) (norm_nonneg _) hM0)
  have e : ∫ x in (-R)..R, (starRingEnd ℂ) (∫ s in (-R)..x, F (s + ε * I)) * F (x + ε * I) = ∫ x in (-R)..R, (starRingEnd ℂ) (U (x + ε * I)) * F (x + ε * I) := by
    refine intervalIntegral.integral_congr fun x hx => ?_
    rw [uIcc_of_le (by linarith)] at hx
    rw [horiz hF hε hU ⟨le_rfl, hR.le⟩ hlR hx, hU0, sub_zero]
  have e2 : ∫ x : ℝ in (-R)..R, ∫ y : ℝ in ε..R, ((2 * ‖F (x + y * I)‖ ^ 2 : ℝ) : ℂ) * I = ((2 * ∫ x in (-R)..R, ∫ y in ε..R, ‖F (x + y * I)‖ ^ 2 : ℝ) : ℂ) * I := by
    simp only [intervalIntegral.integral_mul_const, intervalIntegral.integral_ofReal, intervalIntegral.integral_const_mul]
  rw [e2] at hc
  rw [e]
  have hc' := congrArg im hc
  have h3 := (abs_im_le_norm _).trans hs
  have h4 := abs_le.1 h3
  simp only [sub_im, add_im, im_ofReal_mul, I_im, mul_one] at hc' h4
  linarith [h4.1]

end

end Hcp.HalfPlane
