import Mathlib.Analysis.Complex.HasPrimitives
import Mathlib.Analysis.SpecialFunctions.Pow.Deriv
import Mathlib.Analysis.SpecialFunctions.Integrals.Basic
import Mathlib.Analysis.SpecialFunctions.Sqrt
import Mathlib.MeasureTheory.Integral.DominatedConvergence
import Mathlib.Analysis.SpecialFunctions.Trigonometric.Chebyshev.Orthogonality

/-!
# Integrals of `dx / √((576 - x²)(2304 - x²)(100 + x²)(121 + x²))`

Cauchy's theorem on the triangle with vertices `0`, `±24`, `±10 i`.
-/

namespace Hcp.Eight
open Complex Set MeasureTheory Filter Topology

/-- the root which is positive at `0` -/
noncomputable def y0 (x : ℂ) : ℂ := (576 - x ^ 2) ^ (1 / 2 : ℂ) * (2304 - x ^ 2) ^ (1 / 2 : ℂ) * (100 + x ^ 2) ^ (1 / 2 : ℂ) * (121 + x ^ 2) ^ (1 / 2 : ℂ)

theorem half_sq (w : ℂ) : (w ^ (1 / 2 : ℂ)) ^ 2 = w := by
  rw [show (1 / 2 : ℂ) = ((2 : ℕ) : ℂ)⁻¹ by norm_num]
  exact cpow_nat_inv_pow _ two_ne_zero

theorem y0_sq (x : ℂ) : y0 x ^ 2 = (576 - x ^ 2) * (2304 - x ^ 2) * (100 + x ^ 2) * (121 + x ^ 2) := by
  unfold y0
  simp only [mul_pow, half_sq]

/-- where the four factors are off the negative axis -/
def Dom (x : ℂ) : Prop := 576 - x ^ 2 ∈ slitPlane ∧ 2304 - x ^ 2 ∈ slitPlane ∧ 100 + x ^ 2 ∈ slitPlane ∧ 121 + x ^ 2 ∈ slitPlane

theorem dom_of {x : ℂ} (h1 : x.im = 0 → x.re ^ 2 < 576) (h2 : x.re = 0 → x.im ^ 2 < 100) : Dom x := by
  have hre : (x ^ 2).re = x.re ^ 2 - x.im ^ 2 := by rw [sq, mul_re]; ring
  have him : (x ^ 2).im = 2 * (x.re * x.im) := by rw [sq, mul_im]; ring
  refine ⟨?_, ?_, ?_, ?_⟩ <;> rw [mem_slitPlane_iff] <;> simp only [sub_re, sub_im, add_re, add_im, hre, him] <;> norm_num <;> by_contra hc <;> push Not at hc
  · obtain ⟨q1, q3⟩ := hc
    rcases (or_iff_not_imp_left.2 q3 : x.re = 0 ∨ x.im = 0) with q2 | q2
    · rw [q2] at q1; nlinarith
    · have := h1 q2; rw [q2] at q1; nlinarith
  · obtain ⟨q1, q3⟩ := hc
    rcases (or_iff_not_imp_left.2 q3 : x.re = 0 ∨ x.im = 0) with q2 | q2
    · rw [q2] at q1; nlinarith
    · have := h1 q2; rw [q2] at q1; nlinarith
  · obtain ⟨q1, q3⟩ := hc
    rcases (or_iff_not_imp_left.2 q3 : x.re = 0 ∨ x.im = 0) with q2 | q2
    · have := h2 q2; rw [q2] at q1; nlinarith
    · rw [q2] at q1; nlinarith
  · obtain ⟨q1, q3⟩ := hc
    rcases (or_iff_not_imp_left.2 q3 : x.re = 0 ∨ x.im = 0) with q2 | q2
    · have := h2 q2; rw [q2] at q1; nlinarith
    · rw [q2] at q1; nlinarith

theorem y0_diff {x : ℂ} (h : Dom x) : DifferentiableAt ℂ y0 x := by
  obtain ⟨h1, h2, h3, h4⟩ := h
  unfold y0
  refine DifferentiableAt.mul (DifferentiableAt.mul (DifferentiableAt.mul ?_ ?_) ?_) ?_
  · exact DifferentiableAt.cpow (by fun_prop) (by fun_prop) h1
  · exact DifferentiableAt.cpow (by fun_prop) (by fun_prop) h2
  · exact DifferentiableAt.cpow (by fun_prop) (by fun_prop) h3
  · exact DifferentiableAt.cpow (by fun_prop) (by fun_prop) h4

theorem y0_ne {x : ℂ} (h : Dom x) : y0 x ≠ 0 := by
  intro h0
  have h1 := y0_sq x
  rw [h0] at h1
  obtain ⟨k1, k2, k3, k4⟩ := h
  have := mul_ne_zero (mul_ne_zero (mul_ne_zero (slitPlane_ne_zero k1) (slitPlane_ne_zero k2)) (slitPlane_ne_zero k3)) (slitPlane_ne_zero k4)
  apply this
  rw [← h1]
  norm_num

section
variable {δ ε : ℝ}

/-- the disc around the triangle with vertices `0`, `24 s δ`, `10 i s ε` -/
theorem dom_ball (hδ : δ = 1 ∨ δ = -1) (hε : ε = 1 ∨ ε = -1) {s : ℝ} (h0 : 0 ≤ s) (h1 : s < 1) {x : ℂ} (hx : x ∈ Metric.ball ((12 * s * δ : ℝ) + (5 * s * ε : ℝ) * I) √(169 * s ^ 2 + 100 * (1 - s))) : Dom x := by
  rw [Metric.mem_ball, dist_eq, Real.lt_sqrt (norm_nonneg _), ← normSq_eq_norm_sq, normSq_apply] at hx
  simp only [sub_re, add_re, ofReal_re, mul_re, ofReal_im, I_re, I_im, sub_im, add_im, mul_im] at hx
  have hδ2 : δ ^ 2 = 1 := by rcases hδ with rfl | rfl <;> norm_num
  have hε2 : ε ^ 2 = 1 := by rcases hε with rfl | rfl <;> norm_num
  refine dom_of (fun h => ?_) fun h => ?_
  · rw [h] at hx
    by_contra hc
    have hc : 576 ≤ x.re ^ 2 := not_lt.1 hc
    have ha : 24 ≤ |x.re| := by rw [← abs_of_pos (show (0 : ℝ) < 24 by norm_num), ← sq_le_sq]; linarith
    have hd : δ * x.re ≤ |x.re| := by
      rcases hδ with rfl | rfl
      · rw [one_mul]; exact le_abs_self _
      · rw [neg_one_mul]; exact neg_le_abs _
    have hsq : |x.re| ^ 2 = x.re ^ 2 := sq_abs _
    have key : 0 ≤ (|x.re| - 24) * (|x.re| + 24 - 24 * s) := mul_nonneg (by linarith) (by linarith)
    have key2 : s * (δ * x.re) ≤ s * |x.re| := mul_le_mul_of_nonneg_left hd h0
    have e1 : (12 * s * δ) ^ 2 = 144 * s ^ 2 := by rw [mul_pow, hδ2]; ring
    have e2 : (5 * s * ε) ^ 2 = 25 * s ^ 2 := by rw [mul_pow, hε2]; ring
    nlinarith
  · rw [h] at hx
    by_contra hc
    have hc : 100 ≤ x.im ^ 2 := not_lt.1 hc
    have ha : 10 ≤ |x.im| := by rw [← abs_of_pos (show (0 : ℝ) < 10 by norm_num), ← sq_le_sq]; linarith
    have hd : ε * x.im ≤ |x.im| := by
      rcases hε with rfl | rfl
      · rw [one_mul]; exact le_abs_self _
      · rw [neg_one_mul]; exact neg_le_abs _
    have hsq : |x.im| ^ 2 = x.im ^ 2 := sq_abs _
    have key : 0 ≤ (|x.im| - 10) * (|x.im| + 10 - 10 * s) := mul_nonneg (by linarith) (by linarith)
    have key2 : s * (ε * x.im) ≤ s * |x.im| := mul_le_mul_of_nonneg_left hd h0
    have e1 : (12 * s * δ) ^ 2 = 144 * s ^ 2 := by rw [mul_pow, hδ2]; ring
    have e2 : (5 * s * ε) ^ 2 = 25 * s ^ 2 := by rw [mul_pow, hε2]; ring
    nlinarith

/-- the closed triangle is in the disc -/
theorem mem_tri (hδ : δ = 1 ∨ δ = -1) (hε : ε = 1 ∨ ε = -1) {s : ℝ} (h1 : s < 1) {p q : ℝ} (hp : 0 ≤ p) (hq : 0 ≤ q) (hpq : p + q ≤ 1) :
    ((s * (24 * δ * p) : ℝ) : ℂ) + (s * (10 * ε * q) : ℝ) * I ∈ Metric.ball ((12 * s * δ : ℝ) + (5 * s * ε : ℝ) * I) √(169 * s ^ 2 + 100 * (1 - s)) := by
  rw [Metric.mem_ball, dist_eq, Real.lt_sqrt (norm_nonneg _), ← normSq_eq_norm_sq, normSq_apply]
  simp only [sub_re, add_re, ofReal_re, mul_re, ofReal_im, I_re, I_im, sub_im, add_im, mul_im]
  have hδ2 : δ ^ 2 = 1 := by rcases hδ with rfl | rfl <;> norm_num
  have hε2 : ε ^ 2 = 1 := by rcases hε with rfl | rfl <;> norm_num
  have e : (s * (24 * δ * p) + (s * (10 * ε * q) * 0 - 0 * 1) - (12 * s * δ + (5 * s * ε * 0 - 0 * 1))) * (s * (24 * δ * p) + (s * (10 * ε * q) * 0 - 0 * 1) - (12 * s * δ + (5 * s * ε * 0 - 0 * 1))) +
      (0 + (s * (10 * ε * q) * 1 + 0 * 0) - (0 + (5 * s * ε * 1 + 0 * 0))) * (0 + (s * (10 * ε * q) * 1 + 0 * 0) - (0 + (5 * s * ε * 1 + 0 * 0))) =
      s ^ 2 * (δ ^ 2 * (24 * p - 12) ^ 2 + ε ^ 2 * (10 * q - 5) ^ 2) := by ring
  rw [e, hδ2, hε2]
  have h2 : (24 * p - 12) ^ 2 + (10 * q - 5) ^ 2 ≤ 169 := by
    have t1 : 0 ≤ p * (1 - p) := mul_nonneg hp (by linarith)
    have t2 : 0 ≤ q * (1 - q) := mul_nonneg hq (by linarith)
    nlinarith
  have h3 : s ^ 2 * (1 * (24 * p - 12) ^ 2 + 1 * (10 * q - 5) ^ 2) ≤ s ^ 2 * 169 := mul_le_mul_of_nonneg_left (by linarith) (sq_nonneg s)
  linarith

/-- points of the sides -/
noncomputable def hyp (δ ε t : ℝ) : ℂ := (24 * δ * ((1 - t) / 2) : ℝ) + (10 * ε * ((1 + t) / 2) : ℝ) * I

theorem hasDerivAt_hyp (t : ℝ) : HasDerivAt (fun t : ℝ => hyp δ ε t) ((10 * ε * I - 24 * δ) / 2) t := by
  unfold hyp
  have h1 : HasDerivAt (fun t : ℝ => 24 * δ * ((1 - t) / 2)) (24 * δ * (-1 / 2)) t := (((hasDerivAt_id t).const_sub 1).div_const 2).const_mul _
  have h2 : HasDerivAt (fun t : ℝ => 10 * ε * ((1 + t) / 2)) (10 * ε * (1 / 2)) t := (((hasDerivAt_id t).const_add 1).div_const 2).const_mul _
  have := (h1.ofReal_comp).add ((h2.ofReal_comp).mul_const I)
  refine this.congr_deriv ?_
  push_cast
  ring

/-- Cauchy's theorem for the smaller triangles -/
theorem cauchy_lt (hδ : δ = 1 ∨ δ = -1) (hε : ε = 1 ∨ ε = -1) {s : ℝ} (h0 : 0 ≤ s) (h1 : s < 1) :
    ∫ t in (-1 : ℝ)..1, (y0 (s * hyp δ ε t))⁻¹ * (s * ((10 * ε * I - 24 * δ) / 2)) =
      (∫ t in (0 : ℝ)..1, (y0 (s * (10 * ε * t * I)))⁻¹ * (s * (10 * ε * I))) - ∫ t in (0 : ℝ)..1, (y0 (s * (24 * δ * t)))⁻¹ * (s * (24 * δ)) := by
  obtain ⟨G, hG⟩ := DifferentiableOn.isExactOn_ball (f := fun x => (y0 x)⁻¹) (c := ((12 * s * δ : ℝ) + (5 * s * ε : ℝ) * I)) (r := √(169 * s ^ 2 + 100 * (1 - s)))
    fun x hx => ((y0_diff (dom_ball hδ hε h0 h1 hx)).inv (y0_ne (dom_ball hδ hε h0 h1 hx))).differentiableWithinAt
  have hcont : ∀ x ∈ Metric.ball (((12 * s * δ : ℝ) : ℂ) + (5 * s * ε : ℝ) * I) √(169 * s ^ 2 + 100 * (1 - s)), ContinuousAt (fun x => (y0 x)⁻¹) x := fun x hx =>
    ((y0_diff (dom_ball hδ hε h0 h1 hx)).inv (y0_ne (dom_ball hδ hε h0 h1 hx))).continuousAt
  have key : ∀ (u : ℝ → ℂ) (u' : ℂ) (a b : ℝ), a ≤ b → (∀ t, HasDerivAt u u' t) → (∀ t ∈ Icc a b, u t ∈ Metric.ball (((12 * s * δ : ℝ) : ℂ) + (5 * s * ε : ℝ) * I) √(169 * s ^ 2 + 100 * (1 - s))) →
      ∫ t in a..b, (y0 (u t))⁻¹ * u' = G (u b) - G (u a) := by
    intro u u' a b hab hu hm
    refine intervalIntegral.integral_eq_sub_of_hasDerivAt (f := fun t => G (u t)) (fun t ht => ?_) (ContinuousOn.intervalIntegrable ?_)
    · rw [uIcc_of_le hab] at ht
      exact (hG _ (hm t ht)).comp_of_eq t (hu t) rfl
    · rw [uIcc_of_le hab]
      intro t ht
      exact ((ContinuousAt.comp (f := u) (g := fun x => (y0 x)⁻¹) (hcont _ (hm t ht)) (hu t).continuousAt).mul continuousAt_const).continuousWithinAt
  have k1 := key (fun t => s * hyp δ ε t) (s * ((10 * ε * I - 24 * δ) / 2)) (-1) 1 (by norm_num) (fun t => (hasDerivAt_hyp t).const_mul _) fun t ht => by
    have := mem_tri hδ hε h1 (p := (1 - t) / 2) (q := (1 + t) / 2) (by linarith [ht.2]) (by linarith [ht.1]) (by linarith)
    convert this using 1
    unfold hyp
    push_cast
    ring
  have k2 := key (fun t => s * (10 * ε * t * I)) (s * (10 * ε * I)) 0 1 (by norm_num) (fun t => by
      have := ((((hasDerivAt_id t).ofReal_comp).const_mul (10 * ε : ℂ)).mul_const I).const_mul (s : ℂ)
      simpa using this) fun t ht => by
    have := mem_tri hδ hε h1 (p := 0) (q := t) le_rfl ht.1 (by linarith [ht.2])
    convert this using 1
    push_cast
    ring
  have k3 := key (fun t => s * (24 * δ * t)) (s * (24 * δ)) 0 1 (by norm_num) (fun t => by
      have := (((hasDerivAt_id t).ofReal_comp).const_mul (24 * δ : ℂ)).const_mul (s : ℂ)
      simpa using this) fun t ht => by
    have := mem_tri hδ hε h1 (p := t) (q := 0) ht.1 le_rfl (by linarith [ht.2])
    convert this using 1
    push_cast
    ring
  rw [k1, k2, k3]
  have e1 : (s : ℂ) * hyp δ ε 1 = s * (10 * ε * ((1 : ℝ) : ℂ) * I) := by unfold hyp; push_cast; ring
  have e2 : (s : ℂ) * hyp δ ε (-1) = s * (24 * δ * ((1 : ℝ) : ℂ)) := by unfold hyp; push_cast; ring
  rw [e1, e2]
  simp

/-- passing to the limit on one side -/
theorem limit_side {u : ℝ → ℂ} {c : ℂ} {a b : ℝ} {B : ℝ → ℝ} (hab : a ≤ b) (hu : Continuous u) (hB : IntervalIntegrable B volume a b)
    (hd : ∀ s : ℝ, 1 / 2 ≤ s → s ≤ 1 → ∀ t ∈ Ioo a b, Dom (s * u t)) (hb : ∀ s : ℝ, 1 / 2 ≤ s → s ≤ 1 → ∀ t ∈ Ioo a b, ‖(y0 (s * u t))⁻¹‖ ≤ B t) :
    Tendsto (fun s : ℝ => ∫ t in a..b, (y0 (s * u t))⁻¹ * (s * c)) (𝓝[<] 1) (𝓝 (∫ t in a..b, (y0 (u t))⁻¹ * c)) := by
  have hev : ∀ᶠ s : ℝ in 𝓝[<] 1, 1 / 2 ≤ s ∧ s ≤ 1 := by
    have h1 : Ioo (1 / 2 : ℝ) 1 ∈ 𝓝[<] (1 : ℝ) := Ioo_mem_nhdsLT (by norm_num)
    filter_upwards [h1] with s hs using ⟨hs.1.le, hs.2.le⟩
  have hae : ∀ᵐ t ∂(volume : Measure ℝ), t ∈ uIoc a b → t ∈ Ioo a b := by
    have : ∀ᵐ t ∂(volume : Measure ℝ), t ≠ b := by simp [ae_iff]
    filter_upwards [this] with t ht h
    rw [uIoc_of_le hab] at h
    exact ⟨h.1, lt_of_le_of_ne h.2 ht⟩
  refine intervalIntegral.tendsto_integral_filter_of_dominated_convergence (fun t => B t * ‖c‖) ?_ ?_ (hB.mul_const _) ?_
  · filter_upwards [hev] with s hs
    rw [uIoc_of_le hab, ← restrict_Ioo_eq_restrict_Ioc]
    refine ContinuousOn.aestronglyMeasurable (fun t ht => ?_) measurableSet_Ioo
    have h1 : ContinuousAt y0 (s * u t) := (y0_diff (hd s hs.1 hs.2 t ht)).continuousAt
    have h2 : ContinuousAt (fun t => y0 (s * u t)) t := ContinuousAt.comp (f := fun t => s * u t) h1 (by fun_prop)
    exact ((h2.inv₀ (y0_ne (hd s hs.1 hs.2 t ht))).mul continuousAt_const).continuousWithinAt
  · filter_upwards [hev] with s hs
    filter_upwards [hae] with t ht h
    rw [norm_mul, norm_mul]
    have h1 := hb s hs.1 hs.2 t (ht h)
    have h2 : ‖(s : ℂ)‖ ≤ 1 := by rw [norm_real, Real.norm_eq_abs, abs_le]; constructor <;> linarith [hs.1, hs.2]
    calc ‖(y0 (s * u t))⁻¹‖ * (‖(s : ℂ)‖ * ‖c‖) ≤ ‖(y0 (s * u t))⁻¹‖ * (1 * ‖c‖) := by gcongr
      _ ≤ B t * ‖c‖ := by rw [one_mul]; gcongr
  · filter_upwards [hae] with t ht h
    have hdt := hd 1 (by norm_num) le_rfl t (ht h)
    have h1 : ContinuousAt y0 (((1 : ℝ) : ℂ) * u t) := (y0_diff hdt).continuousAt
    have h2 : ContinuousAt (fun s : ℝ => (y0 (s * u t))⁻¹ * (s * c)) 1 := by
      have h3 : ContinuousAt (fun s : ℝ => y0 (s * u t)) 1 := ContinuousAt.comp (f := fun s : ℝ => (s : ℂ) * u t) h1 (by fun_prop)
      exact (h3.inv₀ (y0_ne hdt)).mul (by fun_prop)
    have h4 := h2.tendsto.mono_left (nhdsWithin_le_nhds (s := Iio 1))
    simpa using h4

theorem norm_y0 (x : ℂ) : ‖y0 x‖ = √(‖576 - x ^ 2‖ * ‖2304 - x ^ 2‖ * ‖100 + x ^ 2‖ * ‖121 + x ^ 2‖) := by
  rw [← norm_mul, ← norm_mul, ← norm_mul, ← y0_sq, norm_pow, Real.sqrt_sq (norm_nonneg _)]

theorem inv_le {x : ℂ} {c r : ℝ} (hc : 0 < c) (hr : 0 < r) (h : r ≤ c ^ 2 * (‖576 - x ^ 2‖ * ‖2304 - x ^ 2‖ * ‖100 + x ^ 2‖ * ‖121 + x ^ 2‖)) : ‖(y0 x)⁻¹‖ ≤ c * √(r⁻¹) := by
  rw [norm_inv, norm_y0, Real.sqrt_inv, ← div_eq_mul_inv, inv_eq_one_div]
  set N := ‖576 - x ^ 2‖ * ‖2304 - x ^ 2‖ * ‖100 + x ^ 2‖ * ‖121 + x ^ 2‖
  have hN : 0 < N := by
    by_contra h0
    have : c ^ 2 * N ≤ 0 := mul_nonpos_of_nonneg_of_nonpos (sq_nonneg _) (not_lt.1 h0)
    linarith
  have h1 : √r ≤ c * √N := by
    rw [← Real.sqrt_sq hc.le, ← Real.sqrt_mul (sq_nonneg _)]
    exact Real.sqrt_le_sqrt h
  rw [div_le_div_iff₀ (Real.sqrt_pos.2 hN) (Real.sqrt_pos.2 hr)]
  linarith

/-- the weight is integrable -/
theorem weight_int {a b : ℝ} (ha : -1 ≤ a) (hb : b ≤ 1) (hab : a ≤ b) (c : ℝ) : IntervalIntegrable (fun t : ℝ => c * √((1 - t ^ 2)⁻¹)) volume a b := by
  have hw : IntervalIntegrable (fun x : ℝ => √(1 - x ^ 2)⁻¹) volume (-1) 1 := Polynomial.Chebyshev.intervalIntegrable_sqrt_one_sub_sq_inv
  refine (hw.mono_set ?_).const_mul c
  rw [uIcc_of_le hab, uIcc_of_le (by norm_num)]
  exact Icc_subset_Icc ha hb

/-- the three limits -/
theorem limit_real (hδ : δ = 1 ∨ δ = -1) : Tendsto (fun s : ℝ => ∫ t in (0 : ℝ)..1, (y0 (s * (24 * δ * t)))⁻¹ * (s * (24 * δ))) (𝓝[<] 1) (𝓝 (∫ t in (0 : ℝ)..1, (y0 (24 * δ * t))⁻¹ * (24 * δ))) := by
  have hδ2 : δ ^ 2 = 1 := by rcases hδ with rfl | rfl <;> norm_num
  have hre : ∀ s t : ℝ, (s : ℂ) * (24 * δ * t) = ((24 * δ * (s * t) : ℝ) : ℂ) := fun s t => by push_cast; ring
  have hle : ∀ s t : ℝ, 1 / 2 ≤ s → s ≤ 1 → t ∈ Ioo (0 : ℝ) 1 → (s * t) ^ 2 ≤ t ^ 2 ∧ t ^ 2 < 1 := by
    intro s t h1 h2 ht
    constructor
    · rw [mul_pow]
      have : s ^ 2 ≤ 1 := by nlinarith
      nlinarith [sq_nonneg t]
    · nlinarith [ht.1, ht.2]
  refine limit_side (B := fun t => 1 * √((1 - t ^ 2)⁻¹)) (by norm_num) (by fun_prop) (weight_int (by norm_num) le_rfl (by norm_num) 1) (fun s h1 h2 t ht => ?_) fun s h1 h2 t ht => ?_
  · obtain ⟨h3, h4⟩ := hle s t h1 h2 ht
    rw [hre]
    refine dom_of (fun _ => ?_) fun _ => ?_
    · rw [ofReal_re, mul_pow, mul_pow, hδ2]; linarith
    · rw [ofReal_im]; norm_num
  · obtain ⟨h3, h4⟩ := hle s t h1 h2 ht
    refine inv_le one_pos (by linarith) ?_
    rw [hre]
    have e : (((24 * δ * (s * t) : ℝ) : ℂ)) ^ 2 = ((576 * (s * t) ^ 2 : ℝ) : ℂ) := by
      rw [← ofReal_pow, mul_pow, mul_pow, hδ2]; norm_num
    rw [e]
    have n1 : ‖(576 : ℂ) - ((576 * (s * t) ^ 2 : ℝ) : ℂ)‖ = 576 * (1 - (s * t) ^ 2) := by
      rw [show (576 : ℂ) - ((576 * (s * t) ^ 2 : ℝ) : ℂ) = ((576 * (1 - (s * t) ^ 2) : ℝ) : ℂ) by push_cast; ring, norm_real, Real.norm_eq_abs, abs_of_nonneg (by linarith)]
    have n2 : ‖(2304 : ℂ) - ((576 * (s * t) ^ 2 : ℝ) : ℂ)‖ = 2304 - 576 * (s * t) ^ 2 := by
      rw [show (2304 : ℂ) - ((576 * (s * t) ^ 2 : ℝ) : ℂ) = ((2304 - 576 * (s * t) ^ 2 : ℝ) : ℂ) by push_cast; ring, norm_real, Real.norm_eq_abs, abs_of_nonneg (by linarith)]
    have n3 : ‖(100 : ℂ) + ((576 * (s * t) ^ 2 : ℝ) : ℂ)‖ = 100 + 576 * (s * t) ^ 2 := by
      rw [show (100 : ℂ) + ((576 * (s * t) ^ 2 : ℝ) : ℂ) = ((100 + 576 * (s * t) ^ 2 : ℝ) : ℂ) by push_cast; ring, norm_real, Real.norm_eq_abs, abs_of_nonneg (by positivity)]
    have n4 : ‖(121 : ℂ) + ((576 * (s * t) ^ 2 : ℝ) : ℂ)‖ = 121 + 576 * (s * t) ^ 2 := by
      rw [show (121 : ℂ) + ((576 * (s * t) ^ 2 : ℝ) : ℂ) = ((121 + 576 * (s * t) ^ 2 : ℝ) : ℂ) by push_cast; ring, norm_real, Real.norm_eq_abs, abs_of_nonneg (by positivity)]
    rw [n1, n2, n3, n4]
    have q := sq_nonneg (s * t)
    generalize (s * t) ^ 2 = w at *
    have m1 : 1 - t ^ 2 ≤ 576 * (1 - w) := by linarith
    have m2 : 1 ≤ 2304 - 576 * w := by linarith
    have m3 : 1 ≤ 100 + 576 * w := by linarith
    have m4 : 1 ≤ 121 + 576 * w := by linarith
    calc 1 - t ^ 2 ≤ 576 * (1 - w) := m1
      _ = 1 ^ 2 * (576 * (1 - w) * 1 * 1 * 1) := by ring
      _ ≤ _ := by
        have : 0 ≤ 576 * (1 - w) := by linarith
        gcongr

theorem limit_imag (hε : ε = 1 ∨ ε = -1) : Tendsto (fun s : ℝ => ∫ t in (0 : ℝ)..1, (y0 (s * (10 * ε * t * I)))⁻¹ * (s * (10 * ε * I))) (𝓝[<] 1) (𝓝 (∫ t in (0 : ℝ)..1, (y0 (10 * ε * t * I))⁻¹ * (10 * ε * I))) := by
  have hε2 : ε ^ 2 = 1 := by rcases hε with rfl | rfl <;> norm_num
  have hre : ∀ s t : ℝ, (s : ℂ) * (10 * ε * t * I) = ((10 * ε * (s * t) : ℝ) : ℂ) * I := fun s t => by push_cast; ring
  have hle : ∀ s t : ℝ, 1 / 2 ≤ s → s ≤ 1 → t ∈ Ioo (0 : ℝ) 1 → (s * t) ^ 2 ≤ t ^ 2 ∧ t ^ 2 < 1 := by
    intro s t h1 h2 ht
    constructor
    · rw [mul_pow]
      have : s ^ 2 ≤ 1 := by nlinarith
      nlinarith [sq_nonneg t]
    · nlinarith [ht.1, ht.2]
  refine limit_side (B := fun t => 1 * √((1 - t ^ 2)⁻¹)) (by norm_num) (by fun_prop) (weight_int (by norm_num) le_rfl (by norm_num) 1) (fun s h1 h2 t ht => ?_) fun s h1 h2 t ht => ?_
  · obtain ⟨h3, h4⟩ := hle s t h1 h2 ht
    rw [hre]
    refine dom_of (fun _ => ?_) fun _ => ?_
    · simp
    · rw [mul_im, ofReal_re, I_im, ofReal_im, I_re, mul_one, mul_zero, add_zero, mul_pow, mul_pow, hε2]; linarith
  · obtain ⟨h3, h4⟩ := hle s t h1 h2 ht
    refine inv_le one_pos (by linarith) ?_
    rw [hre]
    have e : (((10 * ε * (s * t) : ℝ) : ℂ) * I) ^ 2 = ((-(100 * (s * t) ^ 2) : ℝ) : ℂ) := by
      rw [mul_pow, I_sq, ← ofReal_pow, mul_pow (10 * ε), mul_pow 10 ε, hε2]; push_cast; ring
    rw [e]
    have n1 : ‖(576 : ℂ) - ((-(100 * (s * t) ^ 2) : ℝ) : ℂ)‖ = 576 + 100 * (s * t) ^ 2 := by
      rw [show (576 : ℂ) - ((-(100 * (s * t) ^ 2) : ℝ) : ℂ) = ((576 + 100 * (s * t) ^ 2 : ℝ) : ℂ) by push_cast; ring, norm_real, Real.norm_eq_abs, abs_of_nonneg (by positivity)]
    have n2 : ‖(2304 : ℂ) - ((-(100 * (s * t) ^ 2) : ℝ) : ℂ)‖ = 2304 + 100 * (s * t) ^ 2 := by
      rw [show (2304 : ℂ) - ((-(100 * (s * t) ^ 2) : ℝ) : ℂ) = ((2304 + 100 * (s * t) ^ 2 : ℝ) : ℂ) by push_cast; ring, norm_real, Real.norm_eq_abs, abs_of_nonneg (by positivity)]
    have n3 : ‖(100 : ℂ) + ((-(100 * (s * t) ^ 2) : ℝ) : ℂ)‖ = 100 * (1 - (s * t) ^ 2) := by
      rw [show (100 : ℂ) + ((-(100 * (s * t) ^ 2) : ℝ) : ℂ) = ((100 * (1 - (s * t) ^ 2) : ℝ) : ℂ) by push_cast; ring, norm_real, Real.norm_eq_abs, abs_of_nonneg (by linarith)]
    have n4 : ‖(121 : ℂ) + ((-(100 * (s * t) ^ 2) : ℝ) : ℂ)‖ = 121 - 100 * (s * t) ^ 2 := by
      rw [show (121 : ℂ) + ((-(100 * (s * t) ^ 2) : ℝ) : ℂ) = ((121 - 100 * (s * t) ^ 2 : ℝ) : ℂ) by push_cast; ring, norm_real, Real.norm_eq_abs, abs_of_nonneg (by linarith)]
    rw [n1, n2, n3, n4]
    have q := sq_nonneg (s * t)
    generalize (s * t) ^ 2 = w at *
    have m1 : 1 - t ^ 2 ≤ 100 * (1 - w) := by linarith
    have m2 : 1 ≤ 2304 + 100 * w := by linarith
    have m3 : 1 ≤ 576 + 100 * w := by linarith
    have m4 : 1 ≤ 121 - 100 * w := by linarith
    calc 1 - t ^ 2 ≤ 100 * (1 - w) := m1
      _ = 1 ^ 2 * (1 * 1 * (100 * (1 - w)) * 1) := by ring
      _ ≤ _ := by
        have : 0 ≤ 100 * (1 - w) := by linarith
        gcongr

theorem hyp_re (s t : ℝ) : ((s : ℂ) * hyp δ ε t).re = δ * (24 * (s * ((1 - t) / 2))) := by
  unfold hyp
  simp only [mul_re, add_re, ofReal_re, ofReal_im, I_re, I_im, add_im, mul_im]
  ring

theorem hyp_im (s t : ℝ) : ((s : ℂ) * hyp δ ε t).im = ε * (10 * (s * ((1 + t) / 2))) := by
  unfold hyp
  simp only [mul_re, add_re, ofReal_re, ofReal_im, I_re, I_im, add_im, mul_im]
  ring

theorem dom_hyp (hδ : δ = 1 ∨ δ = -1) (hε : ε = 1 ∨ ε = -1) {s : ℝ} (h1 : 0 < s) {t : ℝ} (ht : t ∈ Ioo (-1 : ℝ) 1) : Dom (s * hyp δ ε t) := by
  have hδ0 : δ ≠ 0 := by rcases hδ with rfl | rfl <;> norm_num
  have hε0 : ε ≠ 0 := by rcases hε with rfl | rfl <;> norm_num
  have a1 : 0 < s * ((1 - t) / 2) := mul_pos h1 (by linarith [ht.2])
  have a2 : 0 < s * ((1 + t) / 2) := mul_pos h1 (by linarith [ht.1])
  refine dom_of (fun h => ?_) fun h => ?_
  · rw [hyp_im] at h
    exact absurd h (mul_ne_zero hε0 (by linarith))
  · rw [hyp_re] at h
    exact absurd h (mul_ne_zero hδ0 (by linarith))

theorem re_le' {z : ℂ} {c : ℝ} (hδ : δ = 1 ∨ δ = -1) (h : c ≤ δ * z.re) : c ≤ ‖z‖ := by
  refine h.trans ?_
  rcases hδ with rfl | rfl
  · rw [one_mul]; exact (le_abs_self _).trans (abs_re_le_norm z)
  · rw [neg_one_mul]; exact (neg_le_abs _).trans (abs_re_le_norm z)

theorem im_le' {z : ℂ} {c : ℝ} (hδ : δ = 1 ∨ δ = -1) (h : c ≤ δ * z.im) : c ≤ ‖z‖ := by
  refine h.trans ?_
  rcases hδ with rfl | rfl
  · rw [one_mul]; exact (le_abs_self _).trans (abs_im_le_norm z)
  · rw [neg_one_mul]; exact (neg_le_abs _).trans (abs_im_le_norm z)

theorem limit_hyp (hδ : δ = 1 ∨ δ = -1) (hε : ε = 1 ∨ ε = -1) : Tendsto (fun s : ℝ => ∫ t in (-1 : ℝ)..1, (y0 (s * hyp δ ε t))⁻¹ * (s * ((10 * ε * I - 24 * δ) / 2))) (𝓝[<] 1) (𝓝 (∫ t in (-1 : ℝ)..1, (y0 (hyp δ ε t))⁻¹ * ((10 * ε * I - 24 * δ) / 2))) := by
  have hδ2 : δ ^ 2 = 1 := by rcases hδ with rfl | rfl <;> norm_num
  have hε2 : ε ^ 2 = 1 := by rcases hε with rfl | rfl <;> norm_num
  have hδm : -δ = 1 ∨ -δ = -1 := by rcases hδ with rfl | rfl <;> norm_num
  have hεm : -ε = 1 ∨ -ε = -1 := by rcases hε with rfl | rfl <;> norm_num
  refine limit_side (B := fun t => 2 * √((1 - t ^ 2)⁻¹)) (by norm_num) (by unfold hyp; fun_prop) (weight_int le_rfl le_rfl (by norm_num) 2) (fun s h1 h2 t ht => dom_hyp hδ hε (by linarith) ht) fun s h1 h2 t ht => ?_
  refine inv_le two_pos (by nlinarith [ht.1, ht.2]) ?_
  have k1 := hyp_re (δ := δ) (ε := ε) s t
  have k2 := hyp_im (δ := δ) (ε := ε) s t
  set z := (s : ℂ) * hyp δ ε t
  have a1 : 0 ≤ (1 - t) / 2 := by linarith [ht.2]
  have a2 : 0 ≤ (1 + t) / 2 := by linarith [ht.1]
  have b1 : (1 - t) / 2 / 2 ≤ s * ((1 - t) / 2) := by nlinarith
  have b2 : (1 + t) / 2 / 2 ≤ s * ((1 + t) / 2) := by nlinarith
  have b3 : s * ((1 - t) / 2) ≤ 1 := by nlinarith [ht.1]
  have b4 : s * ((1 + t) / 2) ≤ 1 := by nlinarith [ht.2]
  generalize s * ((1 - t) / 2) = v at *
  generalize s * ((1 + t) / 2) = w at *
  have e1 : (576 : ℂ) - z ^ 2 = ((24 * δ : ℝ) - z) * ((24 * δ : ℝ) + z) := by
    have : (((24 * δ : ℝ)) : ℂ) ^ 2 = 576 := by rw [← ofReal_pow, mul_pow, hδ2]; norm_num
    linear_combination -this
  have e2 : (2304 : ℂ) - z ^ 2 = ((48 * δ : ℝ) - z) * ((48 * δ : ℝ) + z) := by
    have : (((48 * δ : ℝ)) : ℂ) ^ 2 = 2304 := by rw [← ofReal_pow, mul_pow, hδ2]; norm_num
    linear_combination -this
  have e3 : (100 : ℂ) + z ^ 2 = (z - (10 * ε : ℝ) * I) * (z + (10 * ε : ℝ) * I) := by
    have : (((10 * ε : ℝ)) : ℂ) ^ 2 = 100 := by rw [← ofReal_pow, mul_pow, hε2]; norm_num
    linear_combination -this + (((10 * ε : ℝ)) : ℂ) ^ 2 * I_sq
  have e4 : (121 : ℂ) + z ^ 2 = (z - (11 * ε : ℝ) * I) * (z + (11 * ε : ℝ) * I) := by
    have : (((11 * ε : ℝ)) : ℂ) ^ 2 = 121 := by rw [← ofReal_pow, mul_pow, hε2]; norm_num
    linear_combination -this + (((11 * ε : ℝ)) : ℂ) ^ 2 * I_sq
  have c1 : 5 * ((1 + t) / 2) ≤ ‖((24 * δ : ℝ) : ℂ) - z‖ := im_le' hεm (by
    rw [sub_im, ofReal_im, k2]; nlinarith)
  have c2 : 24 ≤ ‖((24 * δ : ℝ) : ℂ) + z‖ := re_le' hδ (by
    rw [add_re, ofReal_re, k1]; nlinarith)
  have c3 : 24 ≤ ‖((48 * δ : ℝ) : ℂ) - z‖ := re_le' hδ (by
    rw [sub_re, ofReal_re, k1]; nlinarith)
  have c4 : 48 ≤ ‖((48 * δ : ℝ) : ℂ) + z‖ := re_le' hδ (by
    rw [add_re, ofReal_re, k1]; nlinarith)
  have c5 : 12 * ((1 - t) / 2) ≤ ‖z - ((10 * ε : ℝ) : ℂ) * I‖ := re_le' hδ (by
    simp only [sub_re, mul_re, ofReal_re, ofReal_im, I_re, I_im, k1]; nlinarith)
  have c6 : 10 ≤ ‖z + ((10 * ε : ℝ) : ℂ) * I‖ := im_le' hε (by
    simp only [add_im, mul_im, ofReal_re, ofReal_im, I_re, I_im, k2]; nlinarith)
  have c7 : 1 ≤ ‖z - ((11 * ε : ℝ) : ℂ) * I‖ := im_le' hεm (by
    simp only [sub_im, mul_im, ofReal_re, ofReal_im, I_re, I_im, k2]; nlinarith)
  have c8 : 11 ≤ ‖z + ((11 * ε : ℝ) : ℂ) * I‖ := im_le' hε (by
    simp only [add_im, mul_im, ofReal_re, ofReal_im, I_re, I_im, k2]; nlinarith)
  rw [e1, e2, e3, e4, norm_mul, norm_mul, norm_mul, norm_mul]
  have d1 : 5 * ((1 + t) / 2) * 24 ≤ ‖((24 * δ : ℝ) : ℂ) - z‖ * ‖((24 * δ : ℝ) : ℂ) + z‖ := mul_le_mul c1 c2 (by norm_num) (norm_nonneg _)
  have d2 : 1 ≤ ‖((48 * δ : ℝ) : ℂ) - z‖ * ‖((48 * δ : ℝ) : ℂ) + z‖ := by nlinarith
  have d3 : 12 * ((1 - t) / 2) * 10 ≤ ‖z - ((10 * ε : ℝ) : ℂ) * I‖ * ‖z + ((10 * ε : ℝ) : ℂ) * I‖ := mul_le_mul c5 c6 (by norm_num) (norm_nonneg _)
  have d4 : 1 ≤ ‖z - ((11 * ε : ℝ) : ℂ) * I‖ * ‖z + ((11 * ε : ℝ) : ℂ) * I‖ := by nlinarith
  calc 1 - t ^ 2 ≤ 2 ^ 2 * (5 * ((1 + t) / 2) * 24 * 1 * (12 * ((1 - t) / 2) * 10) * 1) := by nlinarith [mul_nonneg a1 a2]
    _ ≤ _ := by gcongr

/-- **Cauchy's theorem for the triangle**. -/
theorem cauchy (hδ : δ = 1 ∨ δ = -1) (hε : ε = 1 ∨ ε = -1) :
    ∫ t in (-1 : ℝ)..1, (y0 (hyp δ ε t))⁻¹ * ((10 * ε * I - 24 * δ) / 2) =
      (∫ t in (0 : ℝ)..1, (y0 (10 * ε * t * I))⁻¹ * (10 * ε * I)) - ∫ t in (0 : ℝ)..1, (y0 (24 * δ * t))⁻¹ * (24 * δ) := by
  refine tendsto_nhds_unique (limit_hyp hδ hε) (((limit_imag hε).sub (limit_real hδ)).congr' ?_)
  have h1 : Ioo (1 / 2 : ℝ) 1 ∈ 𝓝[<] (1 : ℝ) := Ioo_mem_nhdsLT (by norm_num)
  filter_upwards [h1] with s hs
  exact (cauchy_lt hδ hε (by linarith [hs.1]) hs.2).symm

end

end Hcp.Eight
