import Mathlib.Analysis.Complex.HasPrimitives
import Mathlib.MeasureTheory.Integral.IntegralEqImproper
import Mathlib.MeasureTheory.Integral.DominatedConvergence

/-!
# The theorems of Cauchy and Green on horizontal strips
-/

namespace Hcp.Cut
open Complex Set MeasureTheory Filter Topology Interval

/-- primitive from `-∞` -/
noncomputable def prim (φ : ℝ → ℂ) (t : ℝ) : ℂ := ∫ τ in Iic t, φ τ

/-- integral of `c(∫ φ) ψ` -/
noncomputable def bil (c : ℂ → ℂ) (φ ψ : ℝ → ℂ) : ℂ := ∫ t, c (prim φ t) * ψ t

/-- values on a horizontal line -/
noncomputable def line (ω : ℂ → ℂ) (s : ℝ) (t : ℝ) : ℂ := ω (t + s * I)

section prim
variable {φ ψ : ℝ → ℂ} {H H' : ℝ → ℝ} {c : ℂ → ℂ}

theorem prim_sub (hφ : Integrable φ) (t t' : ℝ) : prim φ t' - prim φ t = ∫ τ in t..t', φ τ :=
  intervalIntegral.integral_Iic_sub_Iic hφ.integrableOn hφ.integrableOn

theorem prim_continuous (hφ : Integrable φ) : Continuous (prim φ) := by
  have h : prim φ = fun t => prim φ 0 + ∫ τ in (0 : ℝ)..t, φ τ := by
    funext t
    rw [← prim_sub hφ]
    ring
  rw [h]
  exact continuous_const.add (intervalIntegral.continuous_primitive (fun a b => hφ.intervalIntegrable) 0)

theorem prim_le (h : ∀ᵐ t, ‖φ t‖ ≤ H t) (hH : Integrable H) (h0 : ∀ t, 0 ≤ H t) (t : ℝ) : ‖prim φ t‖ ≤ ∫ t, H t := by
  unfold prim
  refine (norm_integral_le_of_norm_le hH.integrableOn (ae_restrict_of_ae h)).trans ?_
  exact setIntegral_le_integral hH (Eventually.of_forall h0)

theorem bil_integrable (hc : Continuous c) (hn : ∀ z, ‖c z‖ = ‖z‖) (hφ : Integrable φ) (hψ : Integrable ψ) : Integrable fun t => c (prim φ t) * ψ t := by
  refine Integrable.bdd_mul (c := ∫ t, ‖φ t‖) hψ ((hc.comp (prim_continuous hφ)).aestronglyMeasurable) (Eventually.of_forall fun t => ?_)
  rw [hn]
  exact prim_le (Eventually.of_forall fun t => le_rfl) hφ.norm (fun t => norm_nonneg _) t

end prim

section limits
variable {l : Filter ℝ} [l.IsCountablyGenerated] {φ ψ : ℝ → ℝ → ℂ} {φ0 ψ0 : ℝ → ℂ} {H H' : ℝ → ℝ} {c : ℂ → ℂ}

theorem tot_tendsto (hm : ∀ᶠ s in l, AEStronglyMeasurable (φ s)) (hb : ∀ᶠ s in l, ∀ᵐ t, ‖φ s t‖ ≤ H t) (hH : Integrable H) (hl : ∀ᵐ t, Tendsto (fun s => φ s t) l (𝓝 (φ0 t))) :
    Tendsto (fun s => ∫ t, φ s t) l (𝓝 (∫ t, φ0 t)) :=
  tendsto_integral_filter_of_dominated_convergence H hm hb hH hl

theorem prim_tendsto (hm : ∀ᶠ s in l, AEStronglyMeasurable (φ s)) (hb : ∀ᶠ s in l, ∀ᵐ t, ‖φ s t‖ ≤ H t) (hH : Integrable H) (hl : ∀ᵐ t, Tendsto (fun s => φ s t) l (𝓝 (φ0 t))) (t : ℝ) :
    Tendsto (fun s => prim (φ s) t) l (𝓝 (prim φ0 t)) :=
  tendsto_integral_filter_of_dominated_convergence H (hm.mono fun _ h => h.restrict) (hb.mono fun _ h => ae_restrict_of_ae h) hH.integrableOn (ae_restrict_of_ae hl)

theorem bil_tendsto (hc : Continuous c) (hn : ∀ z, ‖c z‖ = ‖z‖) (hm : ∀ᶠ s in l, AEStronglyMeasurable (φ s)) (hb : ∀ᶠ s in l, ∀ᵐ t, ‖φ s t‖ ≤ H t) (hH : Integrable H) (h0 : ∀ t, 0 ≤ H t) (hl : ∀ᵐ t, Tendsto (fun s => φ s t) l (𝓝 (φ0 t)))
    (hm' : ∀ᶠ s in l, AEStronglyMeasurable (ψ s)) (hb' : ∀ᶠ s in l, ∀ᵐ t, ‖ψ s t‖ ≤ H' t) (hH' : Integrable H') (hl' : ∀ᵐ t, Tendsto (fun s => ψ s t) l (𝓝 (ψ0 t))) :
    Tendsto (fun s => bil c (φ s) (ψ s)) l (𝓝 (bil c φ0 ψ0)) := by
  refine tendsto_integral_filter_of_dominated_convergence (fun t => (∫ t, H t) * H' t) ?_ ?_ (hH'.const_mul _) ?_
  · filter_upwards [hm, hb, hm'] with s h1 h2 h3
    have : Integrable (φ s) := hH.mono' h1 h2
    exact ((hc.comp (prim_continuous this)).aestronglyMeasurable).mul h3
  · filter_upwards [hb, hb'] with s h1 h2
    filter_upwards [h2] with t ht
    rw [norm_mul, hn]
    have h3 := prim_le h1 hH h0 t
    exact mul_le_mul h3 ht (norm_nonneg _) ((norm_nonneg _).trans h3)
  · filter_upwards [hl'] with t ht
    exact ((hc.tendsto _).comp (prim_tendsto hm hb hH hl t)).mul ht

end limits

/-- bounds on horizontal lines and at infinity -/
structure Tame (ω : ℂ → ℂ) (H : ℝ → ℝ) : Prop where
  int : Integrable H
  nn : ∀ t, 0 ≤ H t
  bd : ∀ᵐ t : ℝ, ∀ s : ℝ, ‖ω (t + s * I)‖ ≤ H t
  small : ∀ ε > 0, ∃ R : ℝ, ∀ z, R ≤ ‖z‖ → ‖ω z‖ ≤ ε
  meas : ∀ s, AEStronglyMeasurable (line ω s)

section tame
variable {ω ω' : ℂ → ℂ} {H H' : ℝ → ℝ} {c : ℂ → ℂ}

theorem Tame.bd' (h : Tame ω H) (s : ℝ) : ∀ᵐ t, ‖line ω s t‖ ≤ H t := by
  filter_upwards [h.bd] with t ht using ht s

theorem Tame.integrable (h : Tame ω H) (s : ℝ) : Integrable (line ω s) := h.int.mono' (h.meas s) (h.bd' s)

theorem Tame.prim_le (h : Tame ω H) (s t : ℝ) : ‖prim (line ω s) t‖ ≤ ∫ t, H t := Cut.prim_le (h.bd' s) h.int h.nn t

theorem Tame.line_zero (h : Tame ω H) {l : Filter ℝ} (hl : Tendsto (fun s => |s|) l atTop) (t : ℝ) : Tendsto (fun s => line ω s t) l (𝓝 0) := by
  rw [Metric.tendsto_nhds]
  intro ε hε
  obtain ⟨R, hR⟩ := h.small (ε / 2) (by linarith)
  filter_upwards [hl.eventually_ge_atTop R] with s hs
  rw [dist_zero_right]
  have h2 : |s| ≤ ‖(t : ℂ) + s * I‖ := by simpa using abs_im_le_norm ((t : ℂ) + s * I)
  exact (hR _ (hs.trans h2)).trans_lt (by linarith)

theorem Tame.tot_zero (h : Tame ω H) {l : Filter ℝ} [l.IsCountablyGenerated] (hl : Tendsto (fun s => |s|) l atTop) : Tendsto (fun s => ∫ t, line ω s t) l (𝓝 0) := by
  have := tot_tendsto (φ0 := fun _ => 0) (Eventually.of_forall h.meas) (Eventually.of_forall h.bd') h.int (Eventually.of_forall (h.line_zero hl))
  simpa using this

theorem Tame.bil_zero (h : Tame ω H) (h' : Tame ω' H') (hc : Continuous c) (hn : ∀ z, ‖c z‖ = ‖z‖) {l : Filter ℝ} [l.IsCountablyGenerated] (hl : Tendsto (fun s => |s|) l atTop) :
    Tendsto (fun s => bil c (line ω s) (line ω' s)) l (𝓝 0) := by
  have := bil_tendsto (φ0 := fun _ => 0) (ψ0 := fun _ => 0) hc hn (Eventually.of_forall h.meas) (Eventually.of_forall h.bd') h.int h.nn (Eventually.of_forall (h.line_zero hl))
    (Eventually.of_forall h'.meas) (Eventually.of_forall h'.bd') h'.int (Eventually.of_forall (h'.line_zero hl))
  simpa [bil] using this

/-- integrals along the boundary of long rectangles -/
theorem rect_limit {f : ℂ → ℂ} {s1 s2 : ℝ} (h1 : Integrable (line f s1)) (h2 : Integrable (line f s2)) (hs : ∀ ε > 0, ∃ R0 : ℝ, ∀ t y : ℝ, R0 ≤ |t| → ‖f (t + y * I)‖ ≤ ε) :
    Tendsto (fun R : ℝ => (((∫ t : ℝ in (-R)..R, f (t + s1 * I)) - ∫ t : ℝ in (-R)..R, f (t + s2 * I)) + I • ∫ y : ℝ in s1..s2, f ((R : ℝ) + y * I)) - I • ∫ y : ℝ in s1..s2, f ((-R : ℝ) + y * I)) atTop
      (𝓝 ((∫ t, line f s1 t) - ∫ t, line f s2 t)) := by
  have l1 := intervalIntegral_tendsto_integral h1 tendsto_neg_atTop_atBot (tendsto_id (α := ℝ))
  have l2 := intervalIntegral_tendsto_integral h2 tendsto_neg_atTop_atBot (tendsto_id (α := ℝ))
  have key : ∀ σ : ℝ, |σ| = 1 → Tendsto (fun R : ℝ => I • ∫ y : ℝ in s1..s2, f ((σ * R : ℝ) + y * I)) atTop (𝓝 0) := by
    intro σ hσ
    rw [Metric.tendsto_nhds]
    intro ε hε
    have hd : 0 < |s2 - s1| + 1 := by positivity
    obtain ⟨R0, hR0⟩ := hs (ε / 2 / (|s2 - s1| + 1)) (by positivity)
    filter_upwards [eventually_ge_atTop R0] with R hR
    rw [dist_zero_right, norm_smul, norm_I, one_mul]
    refine (intervalIntegral.norm_integral_le_of_norm_le_const fun y _ => hR0 (σ * R) y ?_).trans_lt ?_
    · rw [abs_mul, hσ, one_mul]
      exact hR.trans (le_abs_self R)
    · rw [div_mul_eq_mul_div, div_lt_iff₀ hd]
      nlinarith [abs_nonneg (s2 - s1)]
  have k1 := key 1 (by simp)
  have k2 := key (-1) (by simp)
  simp only [one_mul, neg_one_mul] at k1 k2
  have := ((l1.sub l2).add k1).sub k2
  simpa [line] using this

/-- the strip where the function is holomorphic -/
def Holo (ω : ℂ → ℂ) (α β : ℝ) : Prop := ∀ z : ℂ, z.im ∈ Ioo α β → DifferentiableAt ℂ ω z

variable {α β s1 s2 : ℝ}

theorem uIcc_strip {s : ℝ} (h1 : s1 ∈ Ioo α β) (h2 : s2 ∈ Ioo α β) (h : s ∈ [[s1, s2]]) : s ∈ Ioo α β :=
  (ordConnected_Ioo.uIcc_subset h1 h2) h

theorem Tame.small_side (h : Tame ω H) {f : ℂ → ℂ} {M : ℝ} (hf : ∀ z, ‖f z‖ ≤ M) : ∀ ε > 0, ∃ R0 : ℝ, ∀ t y : ℝ, R0 ≤ |t| → ‖f (t + y * I) * ω (t + y * I)‖ ≤ ε := by
  intro ε hε
  have hM : 0 ≤ M := (norm_nonneg _).trans (hf 0)
  obtain ⟨R, hR⟩ := h.small (ε / (M + 1)) (by positivity)
  refine ⟨R, fun t y ht => ?_⟩
  have h2 : |t| ≤ ‖(t : ℂ) + y * I‖ := by simpa using abs_re_le_norm ((t : ℂ) + y * I)
  rw [norm_mul]
  refine (mul_le_mul (hf _) (hR _ (ht.trans h2)) (norm_nonneg _) hM).trans ?_
  rw [mul_div_assoc', div_le_iff₀ (by positivity)]
  nlinarith

/-- **Cauchy**: the integral is the same on all lines of a strip -/
theorem Tame.tot_const (h : Tame ω H) (ho : Holo ω α β) (h1 : s1 ∈ Ioo α β) (h2 : s2 ∈ Ioo α β) : ∫ t, line ω s1 t = ∫ t, line ω s2 t := by
  have hs := h.small_side (f := fun _ => 1) (M := 1) (by simp)
  simp only [one_mul] at hs
  have hl := rect_limit (h.integrable s1) (h.integrable s2) hs
  have h0 : ∀ R : ℝ, (((∫ t : ℝ in (-R)..R, ω (t + s1 * I)) - ∫ t : ℝ in (-R)..R, ω (t + s2 * I)) + I • ∫ y : ℝ in s1..s2, ω ((R : ℝ) + y * I)) - I • ∫ y : ℝ in s1..s2, ω ((-R : ℝ) + y * I) = 0 := by
    intro R
    have := integral_boundary_rect_eq_zero_of_differentiableOn ω ((-R : ℝ) + s1 * I) ((R : ℝ) + s2 * I) fun z hz => by
      rw [mem_reProdIm] at hz
      refine (ho z (uIcc_strip h1 h2 ?_)).differentiableWithinAt
      simpa using hz.2
    simpa using this
  simp only [h0] at hl
  have := tendsto_nhds_unique hl tendsto_const_nhds
  exact sub_eq_zero.1 this

/-- the primitive in a strip -/
noncomputable def pr (ω : ℂ → ℂ) (z : ℂ) : ℂ := prim (line ω z.im) z.re

theorem pr_mk (ω : ℂ → ℂ) (t s : ℝ) : pr ω (t + s * I) = prim (line ω s) t := by
  unfold pr
  simp

theorem Tame.pr_le (h : Tame ω H) (z : ℂ) : ‖pr ω z‖ ≤ ∫ t, H t := h.prim_le _ _

theorem Tame.vert (h : Tame ω H) (ho : Holo ω α β) (h1 : s1 ∈ Ioo α β) (h2 : s2 ∈ Ioo α β) (t : ℝ) :
    prim (line ω s2) t - prim (line ω s1) t = I * ∫ y in s1..s2, ω (t + y * I) := by
  have hs := h.small_side (f := fun _ => 1) (M := 1) (by simp)
  simp only [one_mul] at hs
  have l1 := intervalIntegral_tendsto_integral_Iic t (h.integrable s1).integrableOn (tendsto_neg_atTop_atBot (G := ℝ))
  have l2 := intervalIntegral_tendsto_integral_Iic t (h.integrable s2).integrableOn (tendsto_neg_atTop_atBot (G := ℝ))
  have l3 : Tendsto (fun R : ℝ => I • ∫ y : ℝ in s1..s2, ω ((-R : ℝ) + y * I)) atTop (𝓝 0) := by
    rw [Metric.tendsto_nhds]
    intro ε hε
    have hd : 0 < |s2 - s1| + 1 := by positivity
    obtain ⟨R0, hR0⟩ := hs (ε / 2 / (|s2 - s1| + 1)) (by positivity)
    filter_upwards [eventually_ge_atTop R0] with R hR
    rw [dist_zero_right, norm_smul, norm_I, one_mul]
    refine (intervalIntegral.norm_integral_le_of_norm_le_const fun y _ => hR0 (-R) y ?_).trans_lt ?_
    · rw [abs_neg]
      exact hR.trans (le_abs_self R)
    · rw [div_mul_eq_mul_div, div_lt_iff₀ hd]
      nlinarith [abs_nonneg (s2 - s1)]
  have hl := ((l1.sub l2).add (tendsto_const_nhds (x := I • ∫ y in s1..s2, ω (t + y * I)))).sub l3
  have h0 : ∀ R : ℝ, (((∫ τ : ℝ in (-R)..t, line ω s1 τ) - ∫ τ : ℝ in (-R)..t, line ω s2 τ) + I • ∫ y : ℝ in s1..s2, ω (t + y * I)) - I • ∫ y : ℝ in s1..s2, ω ((-R : ℝ) + y * I) = 0 := by
    intro R
    have := integral_boundary_rect_eq_zero_of_differentiableOn ω ((-R : ℝ) + s1 * I) ((t : ℝ) + s2 * I) fun z hz => by
      rw [mem_reProdIm] at hz
      refine (ho z (uIcc_strip h1 h2 ?_)).differentiableWithinAt
      simpa using hz.2
    simpa [line] using this
  simp only [h0] at hl
  have := tendsto_nhds_unique hl tendsto_const_nhds
  unfold prim
  rw [smul_eq_mul] at this
  linear_combination -this

theorem Tame.hasDerivAt (h : Tame ω H) (ho : Holo ω α β) {z0 : ℂ} (hz0 : z0.im ∈ Ioo α β) : HasDerivAt (pr ω) (ω z0) z0 := by
  obtain ⟨r, hr, hball⟩ : ∃ r > 0, ∀ z ∈ Metric.ball z0 r, z.im ∈ Ioo α β := by
    have : ∀ᶠ z in 𝓝 z0, z.im ∈ Ioo α β := continuous_im.continuousAt.eventually (isOpen_Ioo.mem_nhds hz0)
    exact Metric.eventually_nhds_iff_ball.1 this
  obtain ⟨P, -, hP⟩ := (DifferentiableOn.isExactOn_ball (f := ω) (c := z0) (r := r) fun z hz => (ho z (hball z hz)).differentiableWithinAt).with_val_at z0 0
  have hcont : ∀ z ∈ Metric.ball z0 r, ContinuousAt ω z := fun z hz => (ho z (hball z hz)).continuousAt
  have hev : pr ω =ᶠ[𝓝 z0] fun z => P z + (pr ω z0 - P z0) := by
    filter_upwards [Metric.ball_mem_nhds z0 hr] with z hz
    set t := z.re with ht
    set s := z.im with hs
    have hz' : z = t + s * I := (re_add_im z).symm
    have hz0' : z0 = (z0.re : ℂ) + z0.im * I := (re_add_im z0).symm
    rw [Metric.mem_ball, dist_eq_norm] at hz
    have hv : ∀ y ∈ [[z0.im, s]], ((t : ℂ) + y * I) ∈ Metric.ball z0 r := by
      intro y hy
      rw [Metric.mem_ball, dist_eq_norm]
      refine lt_of_le_of_lt ?_ hz
      rw [norm_eq_sqrt_sq_add_sq, norm_eq_sqrt_sq_add_sq]
      refine Real.sqrt_le_sqrt ?_
      simp only [sub_re, add_re, ofReal_re, mul_re, I_re, mul_zero, ofReal_im, I_im, mul_one, sub_self, add_zero, sub_im, add_im, mul_im, zero_add]
      have : (y - z0.im) ^ 2 ≤ (s - z0.im) ^ 2 := by
        rcases le_total z0.im s with q | q
        · rw [uIcc_of_le q] at hy
          nlinarith [hy.1, hy.2]
        · rw [uIcc_of_ge q] at hy
          nlinarith [hy.1, hy.2]
      rw [← ht, ← hs]
      linarith
    have hh : ∀ y ∈ [[z0.re, t]], ((y : ℂ) + z0.im * I) ∈ Metric.ball z0 r := by
      intro y hy
      rw [Metric.mem_ball, dist_eq_norm]
      refine lt_of_le_of_lt ?_ hz
      rw [norm_eq_sqrt_sq_add_sq, norm_eq_sqrt_sq_add_sq]
      refine Real.sqrt_le_sqrt ?_
      simp only [sub_re, add_re, ofReal_re, mul_re, I_re, mul_zero, ofReal_im, I_im, mul_one, sub_self, add_zero, sub_im, add_im, mul_im, zero_add]
      have : (y - z0.re) ^ 2 ≤ (t - z0.re) ^ 2 := by
        rcases le_total z0.re t with q | q
        · rw [uIcc_of_le q] at hy
          nlinarith [hy.1, hy.2]
        · rw [uIcc_of_ge q] at hy
          nlinarith [hy.1, hy.2]
      rw [← ht, ← hs]
      nlinarith [sq_nonneg (s - z0.im)]
    have e1 : ∫ y in z0.im..s, ω (t + y * I) * I = P (t + s * I) - P (t + z0.im * I) := by
      refine intervalIntegral.integral_eq_sub_of_hasDerivAt (f := fun y : ℝ => P (t + y * I)) (fun y hy => ?_) (ContinuousOn.intervalIntegrable fun y hy => ?_)
      · have k2 : HasDerivAt (fun s : ℝ => (t : ℂ) + s * I) I y := by
          have := ((ofRealCLM.hasDerivAt (x := y)).mul_const I).const_add (t : ℂ)
          simpa using this
        exact (hP _ (hv y hy)).comp y k2
      · have := ContinuousAt.comp (g := ω) (f := fun s : ℝ => (t : ℂ) + s * I) (hcont _ (hv y hy)) (by fun_prop)
        exact (this.mul continuousAt_const).continuousWithinAt
    have e2 : ∫ y in z0.re..t, ω (y + z0.im * I) = P (t + z0.im * I) - P (z0.re + z0.im * I) := by
      refine intervalIntegral.integral_eq_sub_of_hasDerivAt (f := fun y : ℝ => P (y + z0.im * I)) (fun y hy => ?_) (ContinuousOn.intervalIntegrable fun y hy => ?_)
      · have k2 : HasDerivAt (fun s : ℝ => (s : ℂ) + z0.im * I) 1 y := (ofRealCLM.hasDerivAt (x := y)).add_const _
        have := (hP _ (hh y hy)).comp y k2
        rwa [mul_one] at this
      · exact (ContinuousAt.comp (g := ω) (f := fun s : ℝ => (s : ℂ) + z0.im * I) (hcont _ (hh y hy)) (by fun_prop)).continuousWithinAt
    have e3 := h.vert ho hz0 (hball z (by rw [Metric.mem_ball, dist_eq_norm]; exact hz)) t
    have e4 := prim_sub (h.integrable z0.im) z0.re t
    rw [intervalIntegral.integral_mul_const] at e1
    have e5 : ∫ τ in z0.re..t, line ω z0.im τ = ∫ y in z0.re..t, ω (y + z0.im * I) := rfl
    rw [e5, e2, ← hz0'] at e4
    rw [← hs, mul_comm, e1, ← hz'] at e3
    unfold pr
    rw [← ht, ← hs]
    linear_combination e3 + e4
  have := (hP z0 (Metric.mem_ball_self hr)).add_const (pr ω z0 - P z0)
  exact this.congr_of_eventuallyEq hev

/-- **Cauchy**: the integral of `(∫ ω) ω'` is the same on all lines of a strip -/
theorem Tame.bil_const (h : Tame ω H) (h' : Tame ω' H') (ho : Holo ω α β) (ho' : Holo ω' α β) (h1 : s1 ∈ Ioo α β) (h2 : s2 ∈ Ioo α β) :
    bil id (line ω s1) (line ω' s1) = bil id (line ω s2) (line ω' s2) := by
  have hi : ∀ s, Integrable (line (fun z => pr ω z * ω' z) s) := fun s => by
    have := bil_integrable (c := id) continuous_id (fun z => rfl) (h.integrable s) (h'.integrable s)
    refine this.congr (Eventually.of_forall fun t => ?_)
    simp [line, pr_mk]
  have hl := rect_limit (hi s1) (hi s2) (h'.small_side h.pr_le)
  have h0 : ∀ R : ℝ, (((∫ t : ℝ in (-R)..R, pr ω (t + s1 * I) * ω' (t + s1 * I)) - ∫ t : ℝ in (-R)..R, pr ω (t + s2 * I) * ω' (t + s2 * I)) + I • ∫ y : ℝ in s1..s2, pr ω ((R : ℝ) + y * I) * ω' ((R : ℝ) + y * I)) - I • ∫ y : ℝ in s1..s2, pr ω ((-R : ℝ) + y * I) * ω' ((-R : ℝ) + y * I) = 0 := by
    intro R
    have := integral_boundary_rect_eq_zero_of_differentiableOn (fun z => pr ω z * ω' z) ((-R : ℝ) + s1 * I) ((R : ℝ) + s2 * I) fun z hz => by
      rw [mem_reProdIm] at hz
      have hz2 : z.im ∈ Ioo α β := uIcc_strip h1 h2 (by simpa using hz.2)
      exact ((h.hasDerivAt ho hz2).differentiableAt.mul (ho' z hz2)).differentiableWithinAt
    simpa using this
  simp only [h0] at hl
  have := sub_eq_zero.1 (tendsto_nhds_unique hl tendsto_const_nhds)
  simpa [bil, line, pr_mk] using this

/-- **Green**: the integral of `conj (∫ ω) ω` decreases by the area -/
theorem Tame.green (h : Tame ω H) (ho : Holo ω α β) (h1 : s1 ∈ Ioo α β) (h2 : s2 ∈ Ioo α β) (hs : s1 ≤ s2) {R : ℝ} (hR : 0 ≤ R) :
    2 * (∫ t in (-R)..R, ∫ y in s1..s2, ‖ω (t + y * I)‖ ^ 2) ≤ (bil (starRingEnd ℂ) (line ω s1) (line ω s1)).im - (bil (starRingEnd ℂ) (line ω s2) (line ω s2)).im := by
  set f' : ℂ → ℂ →L[ℝ] ℂ := fun z => (starRingEnd ℂ) (pr ω z) • ((fderiv ℂ ω z).restrictScalars ℝ) + ω z • ((conjCLE : ℂ →L[ℝ] ℂ).comp (((ContinuousLinearMap.toSpanSingleton ℂ (ω z))).restrictScalars ℝ)) with hf'
  have hd : ∀ z, z.im ∈ Ioo α β → HasFDerivAt (fun z => (starRingEnd ℂ) (pr ω z) * ω z) (f' z) z := by
    intro z hz
    have h1 : HasFDerivAt (fun z => (starRingEnd ℂ) (pr ω z)) ((conjCLE : ℂ →L[ℝ] ℂ).comp (((ContinuousLinearMap.toSpanSingleton ℂ (ω z))).restrictScalars ℝ)) z :=
      HasFDerivAt.comp z (conjCLE : ℂ →L[ℝ] ℂ).hasFDerivAt ((h.hasDerivAt ho hz).hasFDerivAt.restrictScalars ℝ)
    have h2 : HasFDerivAt ω ((fderiv ℂ ω z).restrictScalars ℝ) z := (ho z hz).hasFDerivAt.restrictScalars ℝ
    exact h1.mul h2
  have hI : ∀ z, I • f' z 1 - f' z I = ((2 * ‖ω z‖ ^ 2 : ℝ) : ℂ) * I := by
    intro z
    have e1 : (fderiv ℂ ω z) I = I * (fderiv ℂ ω z) 1 := by
      simp
    have e2 : ω z * (starRingEnd ℂ) (ω z) = ((‖ω z‖ ^ 2 : ℝ) : ℂ) := by rw [mul_conj, normSq_eq_norm_sq]
    simp only [hf', add_apply, smul_apply, ContinuousLinearMap.coe_restrictScalars', ContinuousLinearMap.comp_apply, ContinuousLinearMap.toSpanSingleton_apply, smul_eq_mul, one_mul, e1]
    simp only [ContinuousLinearEquiv.coe_coe, conjCLE_apply, map_mul, conj_I]
    push_cast
    push_cast at e2
    linear_combination (2 * I) * e2
  have hcont : ContinuousOn (fun z => I • f' z 1 - f' z I) {z | z.im ∈ Ioo α β} := by
    simp only [hI]
    intro z hz
    have : ContinuousAt ω z := (ho z hz).continuousAt
    have h2 : ContinuousAt (fun z => ((2 * ‖ω z‖ ^ 2 : ℝ) : ℂ) * I) z := by fun_prop
    exact h2.continuousWithinAt
  have hin : ∀ (R : ℝ) (z : ℂ), z ∈ [[(((-R : ℝ) : ℂ) + s1 * I).re, ((R : ℂ) + s2 * I).re]] ×ℂ [[(((-R : ℝ) : ℂ) + s1 * I).im, ((R : ℂ) + s2 * I).im]] → z.im ∈ Ioo α β := by
    intro R z hz
    rw [mem_reProdIm] at hz
    exact uIcc_strip h1 h2 (by simpa using hz.2)
  have hgr : ∀ R : ℝ, (((∫ t : ℝ in (-R)..R, (starRingEnd ℂ) (pr ω (t + s1 * I)) * ω (t + s1 * I)) - ∫ t : ℝ in (-R)..R, (starRingEnd ℂ) (pr ω (t + s2 * I)) * ω (t + s2 * I)) + I • ∫ y : ℝ in s1..s2, (starRingEnd ℂ) (pr ω ((R : ℝ) + y * I)) * ω ((R : ℝ) + y * I)) -
      I • ∫ y : ℝ in s1..s2, (starRingEnd ℂ) (pr ω ((-R : ℝ) + y * I)) * ω ((-R : ℝ) + y * I) = ((2 * ∫ t in (-R)..R, ∫ y in s1..s2, ‖ω (t + y * I)‖ ^ 2 : ℝ) : ℂ) * I := by
    intro R
    have hc := integral_boundary_rect_of_continuousOn_of_hasFDerivAt_real (fun z => (starRingEnd ℂ) (pr ω z) * ω z) f' ((-R : ℝ) + s1 * I) (R + s2 * I)
      (fun z hz => (hd z (hin R z hz)).continuousAt.continuousWithinAt)
      (fun z hz => hd z (hin R z (by
        rw [mem_reProdIm] at hz ⊢
        exact ⟨Ioo_subset_Icc_self hz.1, Ioo_subset_Icc_self hz.2⟩)))
      ((hcont.mono fun z hz => hin R z hz).integrableOn_compact (isCompact_uIcc.reProdIm isCompact_uIcc))
    simp only [hI] at hc
    simp only [add_re, ofReal_re, mul_re, I_re, mul_zero, ofReal_im, I_im, mul_one, sub_self, add_zero, add_im, mul_im, zero_add] at hc
    rw [hc]
    simp only [intervalIntegral.integral_mul_const, intervalIntegral.integral_ofReal, intervalIntegral.integral_const_mul]
  have hi : ∀ s, Integrable (line (fun z => (starRingEnd ℂ) (pr ω z) * ω z) s) := fun s => by
    have := bil_integrable (c := starRingEnd ℂ) continuous_conj (fun z => norm_conj z) (h.integrable s) (h.integrable s)
    refine this.congr (Eventually.of_forall fun t => ?_)
    simp [line, pr_mk]
  have hl := rect_limit (hi s1) (hi s2) (h.small_side (f := fun z => (starRingEnd ℂ) (pr ω z)) (fun z => by rw [norm_conj]; exact h.pr_le z))
  simp only [hgr] at hl
  have hl2 := (continuous_im.tendsto _).comp hl
  have hl3 : Tendsto (fun R : ℝ => 2 * ∫ t in (-R)..R, ∫ y in s1..s2, ‖ω (t + y * I)‖ ^ 2) atTop (𝓝 ((bil (starRingEnd ℂ) (line ω s1) (line ω s1)).im - (bil (starRingEnd ℂ) (line ω s2) (line ω s2)).im)) := by
    have e : ∀ s, ∫ t, line (fun z => (starRingEnd ℂ) (pr ω z) * ω z) s t = bil (starRingEnd ℂ) (line ω s) (line ω s) := by
      intro s
      unfold bil line
      simp only [pr_mk]
      rfl
    rw [e, e] at hl2
    refine (hl2.congr fun R => ?_)
    simp
  -- the areas increase
  have hcontG : ContinuousOn (fun q : ℝ × ℝ => ‖ω ((q.1 : ℂ) + q.2 * I)‖ ^ 2) (univ ×ˢ [[s1, s2]]) := by
    rintro ⟨t, y⟩ ⟨-, hy⟩
    have k1 : ContinuousAt ω ((t : ℂ) + y * I) := (ho _ (by simpa using uIcc_strip h1 h2 hy)).continuousAt
    have k2 : ContinuousAt (fun q : ℝ × ℝ => ω ((q.1 : ℂ) + q.2 * I)) (t, y) :=
      ContinuousAt.comp (g := ω) (f := fun q : ℝ × ℝ => (q.1 : ℂ) + q.2 * I) k1 (by fun_prop)
    exact (k2.norm.pow 2).continuousWithinAt
  have hcontA : Continuous fun t : ℝ => ∫ y in s1..s2, ‖ω (t + y * I)‖ ^ 2 := by
    have e : ∀ t : ℝ, ∫ y in s1..s2, ‖ω (t + y * I)‖ ^ 2 = ∫ y in s1..s2, ‖ω (t + (projIcc s1 s2 hs y : ℝ) * I)‖ ^ 2 := by
      intro t
      refine intervalIntegral.integral_congr fun y hy => ?_
      rw [uIcc_of_le hs] at hy
      simp only [projIcc_of_mem hs hy]
    simp only [e]
    refine intervalIntegral.continuous_parametric_intervalIntegral_of_continuous' (f := fun t y => ‖ω ((t : ℝ) + (projIcc s1 s2 hs y : ℝ) * I)‖ ^ 2) ?_ _ _
    refine hcontG.comp_continuous (f := fun q : ℝ × ℝ => (q.1, (projIcc s1 s2 hs q.2 : ℝ))) ?_ ?_
    · exact continuous_fst.prodMk (continuous_subtype_val.comp (continuous_projIcc.comp continuous_snd))
    · rintro ⟨t, y⟩
      refine ⟨mem_univ _, ?_⟩
      rw [uIcc_of_le hs]
      exact (projIcc s1 s2 hs y).2
  refine ge_of_tendsto hl3 ?_
  filter_upwards [eventually_ge_atTop R] with R' hR'
  have : ∫ t in (-R)..R, ∫ y in s1..s2, ‖ω (t + y * I)‖ ^ 2 ≤ ∫ t in (-R')..R', ∫ y in s1..s2, ‖ω (t + y * I)‖ ^ 2 :=
    intervalIntegral.integral_mono_interval (by linarith) (by linarith) hR' (Eventually.of_forall fun t => intervalIntegral.integral_nonneg hs fun y _ => by positivity) (hcontA.intervalIntegrable _ _)
  linarith

end tame

end Hcp.Cut
