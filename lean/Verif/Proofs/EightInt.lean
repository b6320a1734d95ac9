import Verif.Proofs.EightCauchy
import Verif.Proofs.CrossLines

/-!
# The curve `y^2 = (x^2 - 576)(x^2 - 2304)(x^2 + 100)(x^2 + 121)`: determinations of `y` on some edges, their rays and integrals
-/

namespace Hcp.Eight
open Spec Set Filter Topology MeasureTheory Complex

/-- the polynomial, as a function of the square -/
def pol (X : ℝ) : ℝ := (576 - X) * (2304 - X) * (100 + X) * (121 + X)

theorem cont_pol : Continuous pol := by unfold pol; fun_prop

/-- the points are the roots of the polynomial -/
def IsCurve (x : Nat → ℂ) : Prop := ∀ z, ∏ k ∈ Finset.range 8, (z - x k) = (576 - z ^ 2) * (2304 - z ^ 2) * (100 + z ^ 2) * (121 + z ^ 2)

theorem leaves_of {Z h : ℝ → ℂ} {ρ : ℝ → ℝ} {t0 : ℝ} {o : ℂ} {r : ℝ} (ho : o ≠ 0) (hr : 0 < r) (hρ : ∀ t ∈ Ioo (-1 : ℝ) 1, 0 < ρ t) (hZ : ∀ t ∈ Ioo (-1 : ℝ) 1, Z t = ρ t * h t)
    (hh : Tendsto h (𝓝[Ioo (-1) 1] t0) (𝓝 (r * o))) : LeavesAlong Z t0 o := by
  refine ⟨ho, ?_⟩
  have hr' : (r : ℂ) ≠ 0 := ofReal_ne_zero.2 hr.ne'
  have h0 : (r : ℂ) * o ≠ 0 := mul_ne_zero hr' ho
  have h1 : Tendsto (fun t => h t / (‖h t‖ : ℝ)) (𝓝[Ioo (-1) 1] t0) (𝓝 ((r * o) / (‖(r : ℂ) * o‖ : ℝ))) :=
    hh.div ((continuous_ofReal.tendsto _).comp hh.norm) (ofReal_ne_zero.2 (norm_ne_zero_iff.2 h0))
  have e : ((r : ℂ) * o) / (‖(r : ℂ) * o‖ : ℝ) = o / ‖o‖ := by
    rw [norm_mul, norm_real, Real.norm_of_nonneg hr.le, ofReal_mul, mul_div_mul_left _ _ hr']
  rw [e] at h1
  refine h1.congr' ?_
  filter_upwards [self_mem_nhdsWithin] with t ht
  have := hρ t ht
  rw [hZ t ht, norm_mul, norm_real, Real.norm_of_nonneg this.le, ofReal_mul, mul_div_mul_left _ _ (ofReal_ne_zero.2 this.ne')]

/-- an edge on which the polynomial is real of constant sign -/
theorem real_std {x : Nat → ℂ} (hx : IsCurve x) {u v : Nat} {X : ℝ → ℝ} {κ : ℂ} (hX : ∀ t : ℝ, edgePt (x u) (x v) t ^ 2 = X t) (hc : Continuous X) (hκ : κ ≠ 0)
    (hsq : ∀ t ∈ Icc (-1 : ℝ) 1, κ ^ 2 * (|pol (X t)| : ℝ) = pol (X t)) (hne : ∀ t ∈ Ioo (-1 : ℝ) 1, pol (X t) ≠ 0) :
    Standard 8 x u v (fun t => κ * (√|pol (X t)| : ℝ)) κ (-κ) := by
  have hpos : ∀ t ∈ Ioo (-1 : ℝ) 1, 0 < √|pol (X t)| := fun t ht => Real.sqrt_pos.2 (abs_pos.2 (hne t ht))
  have lv : ∀ t0, LeavesAlong (fun t => κ * (√|pol (X t)| : ℝ)) t0 κ := fun t0 =>
    leaves_of hκ one_pos hpos (h := fun _ => κ) (fun t _ => mul_comm _ _) (by rw [ofReal_one, one_mul]; exact tendsto_const_nhds)
  refine ⟨⟨?_, fun t ht => ?_⟩, fun t ht => mul_ne_zero hκ (ofReal_ne_zero.2 (hpos t ht).ne'), lv _, by rw [neg_neg]; exact lv _⟩
  · exact (continuous_const.mul (continuous_ofReal.comp (cont_pol.comp hc).abs.sqrt)).continuousOn
  · rw [hx, hX, mul_pow, ← ofReal_pow, Real.sq_sqrt (abs_nonneg _), hsq t ht]
    unfold pol
    push_cast
    ring

theorem seg_real (a b : ℂ) (i : Nat) (κ : ℂ) (f : ℝ → ℝ) {p : ℝ → ℝ} {c : ℂ} (hp : ∀ t : ℝ, edgePt a b t = c * p t) :
    segIntM a b i 1 (fun t => κ * (√(f t) : ℝ)) = c ^ i * κ⁻¹ * ((b - a) / 2) * ((∫ t in (-1 : ℝ)..1, p t ^ i / √(f t) : ℝ) : ℂ) := by
  unfold segIntM
  rw [← intervalIntegral.integral_ofReal, ← intervalIntegral.integral_const_mul]
  refine intervalIntegral.integral_congr fun t _ => ?_
  simp only [hp, pow_one]
  rw [mul_pow, div_eq_mul_inv, mul_inv]
  push_cast
  ring

theorem odd_zero {f : ℝ → ℝ} (h : ∀ t, f (-t) = -f t) : ∫ t in (-1 : ℝ)..1, f t = 0 := by
  have := intervalIntegral.integral_comp_neg (a := -1) (b := 1) f
  rw [neg_neg] at this
  simp only [h, intervalIntegral.integral_neg] at this
  linarith

theorem even_half {f : ℝ → ℝ} (h : ∀ t, f (-t) = f t) (hi : IntervalIntegrable f volume (-1) 1) : ∫ t in (-1 : ℝ)..1, f t = 2 * ∫ t in (0 : ℝ)..1, f t := by
  have h1 := intervalIntegral.integral_comp_neg (a := 0) (b := 1) f
  rw [neg_zero] at h1
  simp only [h] at h1
  have i1 : IntervalIntegrable f volume (-1) 0 := hi.mono_set (by rw [uIcc_of_le (by norm_num), uIcc_of_le (by norm_num)]; exact Icc_subset_Icc le_rfl (by norm_num))
  have i2 : IntervalIntegrable f volume 0 1 := hi.mono_set (by rw [uIcc_of_le (by norm_num), uIcc_of_le (by norm_num)]; exact Icc_subset_Icc (by norm_num) le_rfl)
  rw [← intervalIntegral.integral_add_adjacent_intervals i1 i2, ← h1]
  ring

/-- integrability of the integrands -/
theorem inv_int {f : ℝ → ℝ} (hf : Continuous f) {p : ℝ → ℝ} (hp : Continuous p) {M : ℝ} (hM : ∀ t ∈ Icc (-1 : ℝ) 1, |p t| ≤ M) (hf1 : f 1 = 0) (h : ∀ t ∈ Icc (-1 : ℝ) 1, 1 - t ^ 2 ≤ |f t|) :
    IntervalIntegrable (fun t => p t / √|f t|) volume (-1) 1 := by
  have hw := weight_int (a := -1) (b := 1) le_rfl le_rfl (by norm_num) M
  refine hw.mono_fun ?_ ?_
  · exact (hp.measurable.div (hf.abs.sqrt).measurable).aestronglyMeasurable
  · rw [uIoc_of_le (by norm_num), EventuallyLE, ae_restrict_iff' measurableSet_Ioc]
    refine ae_of_all _ fun t ht => ?_
    have ht' : t ∈ Icc (-1 : ℝ) 1 := Ioc_subset_Icc_self ht
    have h1 := h t ht'
    have hM0 : 0 ≤ M := (abs_nonneg _).trans (hM t ht')
    have h0 : 0 ≤ 1 - t ^ 2 := by nlinarith [ht'.1, ht'.2]
    rw [Real.norm_eq_abs, Real.norm_eq_abs, abs_div, abs_mul, abs_of_nonneg hM0, abs_of_nonneg (Real.sqrt_nonneg _), abs_of_nonneg (Real.sqrt_nonneg _), Real.sqrt_inv]
    rcases h0.eq_or_lt with q | q
    · have : t = 1 ∨ t = -1 := by
        have : t ^ 2 = 1 := by linarith
        simpa using sq_eq_sq_iff_eq_or_eq_neg.1 (this.trans (one_pow 2).symm)
      rcases this with rfl | rfl
      · rw [hf1, abs_zero, Real.sqrt_zero, div_zero]; positivity
      · exact absurd ht.1 (lt_irrefl _)
    · have h2 : √(1 - t ^ 2) ≤ √|f t| := Real.sqrt_le_sqrt h1
      have h3 : 0 < √(1 - t ^ 2) := Real.sqrt_pos.2 q
      rw [div_eq_mul_inv]
      gcongr
      exact hM t ht'


section
variable {x : Nat → ℂ} {δ ε : ℝ} {u v : Nat}

theorem sign_sq (hδ : δ = 1 ∨ δ = -1) : δ ^ 2 = 1 := by rcases hδ with rfl | rfl <;> norm_num

theorem pol_f {t : ℝ} (ht : t ∈ Icc (-1 : ℝ) 1) : 1 - t ^ 2 ≤ pol (576 * t ^ 2) := by
  have h0 : 0 ≤ 1 - t ^ 2 := by nlinarith [ht.1, ht.2]
  have h1 := sq_nonneg t
  unfold pol
  generalize t ^ 2 = w at *
  calc 1 - w ≤ (576 * (1 - w)) * 1 * 1 * 1 := by linarith
    _ ≤ (576 - 576 * w) * (2304 - 576 * w) * (100 + 576 * w) * (121 + 576 * w) := by
      have a : 0 ≤ 576 - 576 * w := by linarith
      have b : 1 ≤ 2304 - 576 * w := by linarith
      have c : 1 ≤ 100 + 576 * w := by linarith
      have d : 1 ≤ 121 + 576 * w := by linarith
      have e : 576 * (1 - w) ≤ 576 - 576 * w := by linarith
      gcongr

theorem pol_g {t : ℝ} (ht : t ∈ Icc (-1 : ℝ) 1) : 1 - t ^ 2 ≤ pol (-(100 * t ^ 2)) := by
  have h0 : 0 ≤ 1 - t ^ 2 := by nlinarith [ht.1, ht.2]
  have h1 := sq_nonneg t
  unfold pol
  generalize t ^ 2 = w at *
  calc 1 - w ≤ 1 * 1 * (100 * (1 - w)) * 1 := by linarith
    _ ≤ (576 - -(100 * w)) * (2304 - -(100 * w)) * (100 + -(100 * w)) * (121 + -(100 * w)) := by
      have a : 0 ≤ 100 + -(100 * w) := by linarith
      have b : 1 ≤ 2304 - -(100 * w) := by linarith
      have c : 1 ≤ 576 - -(100 * w) := by linarith
      have d : 1 ≤ 121 + -(100 * w) := by linarith
      have e : 100 * (1 - w) ≤ 100 + -(100 * w) := by linarith
      gcongr

theorem pol_p {t : ℝ} (ht : t ∈ Icc (-1 : ℝ) 1) : pol ((36 + 12 * t) ^ 2) ≤ -(1 - t ^ 2) := by
  have h0 : 0 ≤ 1 - t ^ 2 := by nlinarith [ht.1, ht.2]
  unfold pol
  have a : 1 + t ≤ (36 + 12 * t) ^ 2 - 576 := by nlinarith [ht.1, ht.2]
  have b : 1 - t ≤ 2304 - (36 + 12 * t) ^ 2 := by nlinarith [ht.1, ht.2]
  have c : 1 ≤ 100 + (36 + 12 * t) ^ 2 := by nlinarith [sq_nonneg (36 + 12 * t)]
  have d : 1 ≤ 121 + (36 + 12 * t) ^ 2 := by nlinarith [sq_nonneg (36 + 12 * t)]
  have a0 : 0 ≤ 1 + t := by linarith [ht.1]
  have b0 : 0 ≤ 1 - t := by linarith [ht.2]
  have : (1 + t) * (1 - t) * 1 * 1 ≤ ((36 + 12 * t) ^ 2 - 576) * (2304 - (36 + 12 * t) ^ 2) * (100 + (36 + 12 * t) ^ 2) * (121 + (36 + 12 * t) ^ 2) := by
    have := a0.trans a
    have := b0.trans b
    gcongr
  nlinarith

theorem pol_q {t : ℝ} (ht : t ∈ Icc (-1 : ℝ) 1) : pol (-((21 + t) / 2) ^ 2) ≤ -(1 - t ^ 2) := by
  have h0 : 0 ≤ 1 - t ^ 2 := by nlinarith [ht.1, ht.2]
  unfold pol
  have a : 1 + t ≤ ((21 + t) / 2) ^ 2 - 100 := by nlinarith [ht.1, ht.2]
  have b : 1 - t ≤ 121 - ((21 + t) / 2) ^ 2 := by nlinarith [ht.1, ht.2]
  have c : 1 ≤ 576 + ((21 + t) / 2) ^ 2 := by nlinarith [sq_nonneg ((21 + t) / 2)]
  have d : 1 ≤ 2304 + ((21 + t) / 2) ^ 2 := by nlinarith [sq_nonneg ((21 + t) / 2)]
  have a0 : 0 ≤ 1 + t := by linarith [ht.1]
  have b0 : 0 ≤ 1 - t := by linarith [ht.2]
  have : 1 * 1 * (1 + t) * (1 - t) ≤ (576 + ((21 + t) / 2) ^ 2) * (2304 + ((21 + t) / 2) ^ 2) * (((21 + t) / 2) ^ 2 - 100) * (121 - ((21 + t) / 2) ^ 2) := by
    have := a0.trans a
    have := b0.trans b
    gcongr
  nlinarith

theorem open_pos {t : ℝ} (ht : t ∈ Ioo (-1 : ℝ) 1) : 0 < 1 - t ^ 2 := by nlinarith [ht.1, ht.2]
theorem closed_nonneg {t : ℝ} (ht : t ∈ Icc (-1 : ℝ) 1) : 0 ≤ 1 - t ^ 2 := by nlinarith [ht.1, ht.2]

/-- the determinations on the real and imaginary edges -/
noncomputable def zF (t : ℝ) : ℂ := 1 * (√|pol (576 * t ^ 2)| : ℝ)
noncomputable def zG (t : ℝ) : ℂ := 1 * (√|pol (-(100 * t ^ 2))| : ℝ)
noncomputable def zP (t : ℝ) : ℂ := I * (√|pol ((36 + 12 * t) ^ 2)| : ℝ)
noncomputable def zQ (t : ℝ) : ℂ := I * (√|pol (-((21 + t) / 2) ^ 2)| : ℝ)

theorem std_f (hx : IsCurve x) (hδ : δ = 1 ∨ δ = -1) (hu : x u = -(24 * δ)) (hv : x v = 24 * δ) : Standard 8 x u v zF 1 (-1) := by
  have hδ2 : (δ : ℂ) ^ 2 = 1 := by exact_mod_cast sign_sq hδ
  refine real_std hx (X := fun t => 576 * t ^ 2) (fun t => ?_) (by fun_prop) one_ne_zero (fun t ht => ?_) fun t ht => ?_
  · rw [hu, hv]; unfold edgePt; push_cast; linear_combination 576 * (t : ℂ) ^ 2 * hδ2
  · rw [abs_of_nonneg ((closed_nonneg ht).trans (pol_f ht))]; ring
  · exact ((open_pos ht).trans_le (pol_f (Ioo_subset_Icc_self ht))).ne'

theorem std_g (hx : IsCurve x) (hε : ε = 1 ∨ ε = -1) (hu : x u = -(10 * ε * I)) (hv : x v = 10 * ε * I) : Standard 8 x u v zG 1 (-1) := by
  have hε2 : (ε : ℂ) ^ 2 = 1 := by exact_mod_cast sign_sq hε
  refine real_std hx (X := fun t => -(100 * t ^ 2)) (fun t => ?_) (by fun_prop) one_ne_zero (fun t ht => ?_) fun t ht => ?_
  · rw [hu, hv]; unfold edgePt; push_cast; linear_combination -100 * (t : ℂ) ^ 2 * hε2 + 100 * (t : ℂ) ^ 2 * (ε : ℂ) ^ 2 * I_sq
  · rw [abs_of_nonneg ((closed_nonneg ht).trans (pol_g ht))]; ring
  · exact ((open_pos ht).trans_le (pol_g (Ioo_subset_Icc_self ht))).ne'

theorem std_p (hx : IsCurve x) (hδ : δ = 1 ∨ δ = -1) (hu : x u = 24 * δ) (hv : x v = 48 * δ) : Standard 8 x u v zP I (-I) := by
  have hδ2 : (δ : ℂ) ^ 2 = 1 := by exact_mod_cast sign_sq hδ
  refine real_std hx (X := fun t => (36 + 12 * t) ^ 2) (fun t => ?_) (by fun_prop) I_ne_zero (fun t ht => ?_) fun t ht => ?_
  · rw [hu, hv]; unfold edgePt; push_cast; linear_combination (36 + 12 * (t : ℂ)) ^ 2 * hδ2
  · rw [abs_of_nonpos ((pol_p ht).trans (neg_nonpos.2 (closed_nonneg ht))), I_sq]; push_cast; ring
  · have := pol_p (Ioo_subset_Icc_self ht)
    have := open_pos ht
    linarith

theorem std_q (hx : IsCurve x) (hε : ε = 1 ∨ ε = -1) (hu : x u = 10 * ε * I) (hv : x v = 11 * ε * I) : Standard 8 x u v zQ I (-I) := by
  have hε2 : (ε : ℂ) ^ 2 = 1 := by exact_mod_cast sign_sq hε
  refine real_std hx (X := fun t => -((21 + t) / 2) ^ 2) (fun t => ?_) (by fun_prop) I_ne_zero (fun t ht => ?_) fun t ht => ?_
  · rw [hu, hv]; unfold edgePt; push_cast; linear_combination -((21 + (t : ℂ)) / 2) ^ 2 * hε2 + ((21 + (t : ℂ)) / 2) ^ 2 * (ε : ℂ) ^ 2 * I_sq
  · rw [abs_of_nonpos ((pol_q ht).trans (neg_nonpos.2 (closed_nonneg ht))), I_sq]; push_cast; ring
  · have := pol_q (Ioo_subset_Icc_self ht)
    have := open_pos ht
    linarith

/-- the real integrals -/
noncomputable def iF : ℝ := ∫ t in (-1 : ℝ)..1, t ^ 0 / √|pol (576 * t ^ 2)|
noncomputable def iG : ℝ := ∫ t in (-1 : ℝ)..1, t ^ 0 / √|pol (-(100 * t ^ 2))|
noncomputable def iP (i : Nat) : ℝ := ∫ t in (-1 : ℝ)..1, (36 + 12 * t) ^ i / √|pol ((36 + 12 * t) ^ 2)|
noncomputable def iQ (i : Nat) : ℝ := ∫ t in (-1 : ℝ)..1, ((21 + t) / 2) ^ i / √|pol (-((21 + t) / 2) ^ 2)|

theorem iP_pos : 0 < iP 0 := by
  refine intervalIntegral.intervalIntegral_pos_of_pos_on ?_ (fun t ht => ?_) (by norm_num)
  · refine inv_int (M := 1) (by unfold pol; fun_prop) (by fun_prop) (fun t _ => by simp) (by norm_num [pol]) fun t ht => ?_
    have := pol_p ht
    exact (by linarith : 1 - t ^ 2 ≤ -pol ((36 + 12 * t) ^ 2)).trans (neg_le_abs _)
  · have := pol_p (Ioo_subset_Icc_self ht)
    have := open_pos ht
    rw [pow_zero]
    exact div_pos one_pos (Real.sqrt_pos.2 (abs_pos.2 (by linarith)))

theorem iQ_pos : 0 < iQ 1 := by
  refine intervalIntegral.intervalIntegral_pos_of_pos_on ?_ (fun t ht => ?_) (by norm_num)
  · refine inv_int (M := 11) (by unfold pol; fun_prop) (by fun_prop) (fun t ht => ?_) (by norm_num [pol]) fun t ht => ?_
    · rw [pow_one, abs_of_nonneg] <;> linarith [ht.1, ht.2]
    · have := pol_q ht
      exact (by linarith : 1 - t ^ 2 ≤ -pol (-((21 + t) / 2) ^ 2)).trans (neg_le_abs _)
  · have := pol_q (Ioo_subset_Icc_self ht)
    have := open_pos ht
    rw [pow_one]
    exact div_pos (by linarith [ht.1]) (Real.sqrt_pos.2 (abs_pos.2 (by linarith)))

theorem seg_f (hu : x u = -(24 * δ)) (hv : x v = 24 * δ) : segIntM (x u) (x v) 0 1 zF = 24 * δ * iF ∧ segIntM (x u) (x v) 1 1 zF = 0 := by
  have h := fun i => seg_real (x u) (x v) i 1 (fun t => |pol (576 * t ^ 2)|) (p := fun t => t) (c := 24 * δ) fun t => by rw [hu, hv]; unfold edgePt; ring
  constructor
  · unfold zF; rw [h 0, hu, hv, iF]; ring
  · unfold zF; rw [h 1, odd_zero fun t => by rw [neg_sq, pow_one, pow_one, neg_div]]; simp

theorem seg_g (hu : x u = -(10 * ε * I)) (hv : x v = 10 * ε * I) : segIntM (x u) (x v) 0 1 zG = 10 * ε * I * iG ∧ segIntM (x u) (x v) 1 1 zG = 0 := by
  have h := fun i => seg_real (x u) (x v) i 1 (fun t => |pol (-(100 * t ^ 2))|) (p := fun t => t) (c := 10 * ε * I) fun t => by rw [hu, hv]; unfold edgePt; ring
  constructor
  · unfold zG; rw [h 0, hu, hv, iG]; ring
  · unfold zG; rw [h 1, odd_zero fun t => by rw [neg_sq, pow_one, pow_one, neg_div]]; simp

theorem seg_p (hδ : δ = 1 ∨ δ = -1) (hu : x u = 24 * δ) (hv : x v = 48 * δ) : segIntM (x u) (x v) 0 1 zP = -(12 * δ * I * iP 0) ∧ segIntM (x u) (x v) 1 1 zP = -(12 * I * iP 1) := by
  have hδ2 : (δ : ℂ) ^ 2 = 1 := by exact_mod_cast sign_sq hδ
  have h := fun i => seg_real (x u) (x v) i I (fun t => |pol ((36 + 12 * t) ^ 2)|) (p := fun t => 36 + 12 * t) (c := δ) fun t => by rw [hu, hv]; unfold edgePt; push_cast; ring
  constructor
  · unfold zP; rw [h 0, hu, hv, ← iP, inv_I]; ring
  · unfold zP; rw [h 1, hu, hv, ← iP, inv_I]; linear_combination -12 * I * (iP 1 : ℂ) * hδ2

theorem seg_q (hε : ε = 1 ∨ ε = -1) (hu : x u = 10 * ε * I) (hv : x v = 11 * ε * I) : segIntM (x u) (x v) 0 1 zQ = ε * iQ 0 / 2 ∧ segIntM (x u) (x v) 1 1 zQ = I * iQ 1 / 2 := by
  have hε2 : (ε : ℂ) ^ 2 = 1 := by exact_mod_cast sign_sq hε
  have h := fun i => seg_real (x u) (x v) i I (fun t => |pol (-((21 + t) / 2) ^ 2)|) (p := fun t => (21 + t) / 2) (c := ε * I) fun t => by rw [hu, hv]; unfold edgePt; push_cast; ring
  constructor
  · unfold zQ; rw [h 0, hu, hv, ← iQ, inv_I]; linear_combination -(ε : ℂ) * (iQ 0 : ℂ) / 2 * I_sq
  · unfold zQ; rw [h 1, hu, hv, ← iQ, inv_I]; linear_combination -I / 2 * (ε : ℂ) ^ 2 * (iQ 1 : ℂ) * I_sq + I / 2 * (iQ 1 : ℂ) * hε2

/-- `y0` on the axes -/
theorem half_real {r : ℝ} (hr : 0 ≤ r) : (r : ℂ) ^ (1 / 2 : ℂ) = (√r : ℝ) := by
  rw [Real.sqrt_eq_rpow, ofReal_cpow hr]
  push_cast
  rfl

theorem y0_real {z : ℂ} {X : ℝ} (hz : z ^ 2 = X) (h1 : 0 ≤ 576 - X) (h2 : 0 ≤ 2304 - X) (h3 : 0 ≤ 100 + X) (h4 : 0 ≤ 121 + X) : y0 z = (√|pol X| : ℝ) := by
  unfold y0 pol
  rw [hz, show (576 : ℂ) - X = ((576 - X : ℝ) : ℂ) by push_cast; ring, show (2304 : ℂ) - X = ((2304 - X : ℝ) : ℂ) by push_cast; ring,
    show (100 : ℂ) + X = ((100 + X : ℝ) : ℂ) by push_cast; ring, show (121 : ℂ) + X = ((121 + X : ℝ) : ℂ) by push_cast; ring, half_real h1, half_real h2, half_real h3, half_real h4,
    abs_of_nonneg (by positivity), Real.sqrt_mul (by positivity), Real.sqrt_mul (by positivity), Real.sqrt_mul (by positivity)]
  push_cast
  ring

theorem edgePt_hyp (hu : x u = 24 * δ) (hv : x v = 10 * ε * I) (t : ℝ) : edgePt (x u) (x v) t = hyp δ ε t := by
  rw [hu, hv]; unfold edgePt hyp; push_cast; ring

/-- the integral over the inclined edge -/
theorem seg_c (hδ : δ = 1 ∨ δ = -1) (hε : ε = 1 ∨ ε = -1) (hu : x u = 24 * δ) (hv : x v = 10 * ε * I) :
    segIntM (x u) (x v) 0 1 (fun t => y0 (hyp δ ε t)) = (10 * ε * I * iG - 24 * δ * iF) / 2 := by
  have hδ2 := sign_sq hδ
  have hε2 := sign_sq hε
  have e : segIntM (x u) (x v) 0 1 (fun t => y0 (hyp δ ε t)) = ∫ t in (-1 : ℝ)..1, (y0 (hyp δ ε t))⁻¹ * ((10 * ε * I - 24 * δ) / 2) := by
    unfold segIntM
    refine intervalIntegral.integral_congr fun t _ => ?_
    simp only [pow_zero, pow_one, one_div, hu, hv]
  have uI : ∀ t : ℝ, t ∈ uIcc (0 : ℝ) 1 → 0 ≤ t ^ 2 ∧ t ^ 2 ≤ 1 := by
    intro t ht
    rw [uIcc_of_le (by norm_num)] at ht
    exact ⟨sq_nonneg _, by nlinarith [ht.1, ht.2]⟩
  have eF : ∫ t in (0 : ℝ)..1, (y0 (24 * δ * t))⁻¹ * (24 * δ) = 24 * δ * iF / 2 := by
    have h : ∫ t in (0 : ℝ)..1, (y0 (24 * δ * t))⁻¹ * (24 * δ) = ∫ t in (0 : ℝ)..1, (24 * δ : ℂ) * ((t ^ 0 / √|pol (576 * t ^ 2)| : ℝ) : ℂ) := by
      refine intervalIntegral.integral_congr fun t ht => ?_
      obtain ⟨h1, h2⟩ := uI t ht
      rw [y0_real (X := 576 * t ^ 2) (by push_cast; rw [mul_pow, mul_pow, ← ofReal_pow δ, hδ2]; push_cast; ring) (by linarith) (by linarith) (by linarith) (by linarith)]
      push_cast
      rw [pow_zero, one_div, mul_comm]
    rw [h, intervalIntegral.integral_const_mul, intervalIntegral.integral_ofReal, iF, even_half (f := fun t => t ^ 0 / √|pol (576 * t ^ 2)|)]
    · push_cast; ring
    · intro t; simp
    · refine inv_int (M := 1) (by unfold pol; fun_prop) (by fun_prop) (fun t _ => by simp) (by norm_num [pol]) fun t ht => (pol_f ht).trans (le_abs_self _)
  have eG : ∫ t in (0 : ℝ)..1, (y0 (10 * ε * t * I))⁻¹ * (10 * ε * I) = 10 * ε * I * iG / 2 := by
    have h : ∫ t in (0 : ℝ)..1, (y0 (10 * ε * t * I))⁻¹ * (10 * ε * I) = ∫ t in (0 : ℝ)..1, (10 * ε * I : ℂ) * ((t ^ 0 / √|pol (-(100 * t ^ 2))| : ℝ) : ℂ) := by
      refine intervalIntegral.integral_congr fun t ht => ?_
      obtain ⟨h1, h2⟩ := uI t ht
      rw [y0_real (X := -(100 * t ^ 2)) (by push_cast; rw [mul_pow, mul_pow, mul_pow, I_sq, ← ofReal_pow ε, hε2]; push_cast; ring) (by linarith) (by linarith) (by linarith) (by linarith)]
      push_cast
      rw [pow_zero, one_div, mul_comm]
    rw [h, intervalIntegral.integral_const_mul, intervalIntegral.integral_ofReal, iG, even_half (f := fun t => t ^ 0 / √|pol (-(100 * t ^ 2))|)]
    · push_cast; ring
    · intro t; simp
    · refine inv_int (M := 1) (by unfold pol; fun_prop) (by fun_prop) (fun t _ => by simp) (by norm_num [pol]) fun t ht => (pol_g ht).trans (le_abs_self _)
  rw [e, cauchy hδ hε, eF, eG]
  ring

theorem half_pos {τ : ℝ} (hτ : 0 < τ) (w : ℂ) : ((τ : ℂ) * w) ^ (1 / 2 : ℂ) = (√τ : ℝ) * w ^ (1 / 2 : ℂ) := by
  rw [← half_real hτ.le]
  by_cases hw : w = 0
  · rw [hw, mul_zero, zero_cpow (by norm_num), mul_zero]
  have h0 : (τ : ℂ) ≠ 0 := ofReal_ne_zero.2 hτ.ne'
  rw [cpow_def_of_ne_zero (mul_ne_zero h0 hw), cpow_def_of_ne_zero h0, cpow_def_of_ne_zero hw, ← exp_add, log_ofReal_mul hτ hw, ofReal_log hτ.le]
  ring_nf

theorem half_square {w : ℂ} (h : 0 < w.re) : (w ^ 2) ^ (1 / 2 : ℂ) = w := by
  rw [one_div]; exact sq_cpow_two_inv h

theorem half_cont {z : ℂ} (h : 0 ≤ z.re ∨ z.im ≠ 0) : ContinuousAt (fun w : ℂ => w ^ (1 / 2 : ℂ)) z := continuousAt_cpow_const_of_re_pos h (by norm_num)

theorem std_c (hx : IsCurve x) (hδ : δ = 1 ∨ δ = -1) (hε : ε = 1 ∨ ε = -1) (hu : x u = 24 * δ) (hv : x v = 10 * ε * I) :
    Standard 8 x u v (fun t => y0 (hyp δ ε t)) (5 - δ * ε * I) (-(3 + 2 * δ * ε * I)) := by
  have hδ2 : (δ : ℂ) ^ 2 = 1 := by exact_mod_cast sign_sq hδ
  have hε2 : (ε : ℂ) ^ 2 = 1 := by exact_mod_cast sign_sq hε
  have dom : ∀ t ∈ Ioo (-1 : ℝ) 1, Dom (hyp δ ε t) := fun t ht => by
    have := dom_hyp hδ hε one_pos ht
    rwa [ofReal_one, one_mul] at this
  have hc : Continuous fun t => hyp δ ε t := by unfold hyp; fun_prop
  have em : hyp δ ε (-1) = 24 * δ := by unfold hyp; push_cast; ring
  have ep : hyp δ ε 1 = 10 * ε * I := by unfold hyp; push_cast; ring
  have em2 : hyp δ ε (-1) ^ 2 = 576 := by rw [em, mul_pow, hδ2]; norm_num
  have ep2 : hyp δ ε 1 ^ 2 = -100 := by rw [ep, mul_pow, mul_pow, hε2, I_sq]; norm_num
  -- continuity of the four roots
  have half_comp : ∀ {g : ℝ → ℂ} {t : ℝ}, ContinuousAt g t → (0 ≤ (g t).re ∨ (g t).im ≠ 0) → ContinuousAt (fun t => g t ^ (1 / 2 : ℂ)) t := by
    intro g t hg h
    exact ContinuousAt.comp (f := g) (g := fun w : ℂ => w ^ (1 / 2 : ℂ)) (half_cont h) hg
  have slit : ∀ {z : ℂ}, z ∈ slitPlane → 0 ≤ z.re ∨ z.im ≠ 0 := by
    intro z hz
    rcases mem_slitPlane_iff.1 hz with h | h
    · exact .inl h.le
    · exact .inr h
  have c1 : Continuous fun t : ℝ => 576 - hyp δ ε t ^ 2 := by fun_prop
  have c2 : Continuous fun t : ℝ => 2304 - hyp δ ε t ^ 2 := by fun_prop
  have c3 : Continuous fun t : ℝ => 100 + hyp δ ε t ^ 2 := by fun_prop
  have c4 : Continuous fun t : ℝ => 121 + hyp δ ε t ^ 2 := by fun_prop
  have side : ∀ t ∈ Icc (-1 : ℝ) 1, (0 ≤ (576 - hyp δ ε t ^ 2).re ∨ (576 - hyp δ ε t ^ 2).im ≠ 0) ∧ (0 ≤ (2304 - hyp δ ε t ^ 2).re ∨ (2304 - hyp δ ε t ^ 2).im ≠ 0) ∧
      (0 ≤ (100 + hyp δ ε t ^ 2).re ∨ (100 + hyp δ ε t ^ 2).im ≠ 0) ∧ (0 ≤ (121 + hyp δ ε t ^ 2).re ∨ (121 + hyp δ ε t ^ 2).im ≠ 0) := by
    intro t ht
    rcases ht.1.eq_or_lt with rfl | h1
    · rw [em2]; norm_num
    rcases ht.2.eq_or_lt with rfl | h2
    · rw [ep2]; norm_num
    obtain ⟨d1, d2, d3, d4⟩ := dom t ⟨h1, h2⟩
    exact ⟨slit d1, slit d2, slit d3, slit d4⟩
  have rootAt : ∀ t ∈ Icc (-1 : ℝ) 1, ContinuousAt (fun t => y0 (hyp δ ε t)) t := by
    intro t ht
    obtain ⟨s1, s2, s3, s4⟩ := side t ht
    unfold y0
    exact (((half_comp c1.continuousAt s1).mul (half_comp c2.continuousAt s2)).mul (half_comp c3.continuousAt s3)).mul (half_comp c4.continuousAt s4)
  have sr : ∀ {r : ℝ} {z : ℂ}, 0 < r → z = r → z ^ (1 / 2 : ℂ) = (√r : ℝ) := by
    intro r z hr hz
    rw [hz, half_real hr.le]
  refine ⟨⟨fun t ht => (rootAt t ht).continuousWithinAt, fun t ht => ?_⟩, fun t ht => y0_ne (dom t ht), ?_, ?_⟩
  · rw [y0_sq, hx, edgePt_hyp hu hv]
  · -- the ray at the start
    set w : ℂ := 24 * δ - 10 * ε * I with hw
    have fac : ∀ t : ℝ, 576 - hyp δ ε t ^ 2 = (((1 + t) / 2 : ℝ) : ℂ) * (w * (48 * δ - ((1 + t) / 2 : ℝ) * w)) := by
      intro t
      rw [hw]; unfold hyp
      push_cast
      linear_combination (-576 : ℂ) * hδ2
    have o0 : (5 - δ * ε * I : ℂ) ≠ 0 := by
      intro h
      have := congrArg Complex.re h
      simp at this
    have cg : Continuous fun t : ℝ => w * (48 * δ - ((1 + t) / 2 : ℝ) * w) := by fun_prop
    have hg1 : w * (48 * δ - (((1 + -1) / 2 : ℝ) : ℂ) * w) = (((√48 : ℝ) : ℂ) * (5 - δ * ε * I)) ^ 2 := by
      have q : ((√48 : ℝ) : ℂ) ^ 2 = 48 := by rw [← ofReal_pow, Real.sq_sqrt (by norm_num)]; norm_num
      rw [mul_pow, q, hw]
      push_cast
      linear_combination (1152 : ℂ) * hδ2 - 48 * (ε : ℂ) ^ 2 * (δ : ℂ) ^ 2 * I_sq + 48 * (δ : ℂ) ^ 2 * hε2 + 48 * hδ2
    have hpos : 0 < (((√48 : ℝ) : ℂ) * (5 - δ * ε * I)).re := by
      rw [re_ofReal_mul]
      refine mul_pos (by positivity) ?_
      simp
    refine leaves_of (ρ := fun t => √((1 + t) / 2)) (r := √48 * √1728 * √676 * √697) (h := fun t => (w * (48 * δ - ((1 + t) / 2 : ℝ) * w)) ^ (1 / 2 : ℂ) * (2304 - hyp δ ε t ^ 2) ^ (1 / 2 : ℂ) * (100 + hyp δ ε t ^ 2) ^ (1 / 2 : ℂ) * (121 + hyp δ ε t ^ 2) ^ (1 / 2 : ℂ))
      o0 (by positivity) (fun t ht => Real.sqrt_pos.2 (by linarith [ht.1])) (fun t ht => ?_) ?_
    · unfold y0
      rw [fac t, half_pos (by linarith [ht.1])]
      ring
    · have hside := side (-1) ⟨le_rfl, by norm_num⟩
      have k : ContinuousAt (fun t : ℝ => (w * (48 * δ - ((1 + t) / 2 : ℝ) * w)) ^ (1 / 2 : ℂ) * (2304 - hyp δ ε t ^ 2) ^ (1 / 2 : ℂ) * (100 + hyp δ ε t ^ 2) ^ (1 / 2 : ℂ) * (121 + hyp δ ε t ^ 2) ^ (1 / 2 : ℂ)) (-1) := by
        refine (((half_comp cg.continuousAt ?_).mul (half_comp c2.continuousAt hside.2.1)).mul (half_comp c3.continuousAt hside.2.2.1)).mul (half_comp c4.continuousAt hside.2.2.2)
        left
        rw [hg1, mul_pow, ← ofReal_pow, re_ofReal_mul]
        refine mul_nonneg (by positivity) ?_
        rw [show (5 - (δ : ℂ) * ε * I) ^ 2 = ((25 - (δ * ε) ^ 2 : ℝ) : ℂ) + ((-10 * δ * ε : ℝ) : ℂ) * I by push_cast; linear_combination (δ : ℂ) ^ 2 * (ε : ℂ) ^ 2 * I_sq]
        simp only [add_re, ofReal_re, mul_re, ofReal_im, I_re, I_im]
        rw [mul_pow, sign_sq hδ, sign_sq hε]
        norm_num
      have k2 := k.tendsto.mono_left (nhdsWithin_le_nhds (s := Ioo (-1) 1))
      rw [hg1, half_square hpos, sr (r := 1728) (by norm_num) (by rw [em2]; norm_num), sr (r := 676) (by norm_num) (by rw [em2]; norm_num), sr (r := 697) (by norm_num) (by rw [em2]; norm_num)] at k2
      convert k2 using 2
      push_cast
      ring
  · -- the ray at the end
    rw [neg_neg]
    set w : ℂ := 24 * δ - 10 * ε * I with hw
    have fac : ∀ t : ℝ, 100 + hyp δ ε t ^ 2 = (((1 - t) / 2 : ℝ) : ℂ) * (w * (20 * ε * I + ((1 - t) / 2 : ℝ) * w)) := by
      intro t
      rw [hw]; unfold hyp
      push_cast
      linear_combination (-100 : ℂ) * hε2 + 100 * (ε : ℂ) ^ 2 * I_sq
    have o0 : (3 + 2 * δ * ε * I : ℂ) ≠ 0 := by
      intro h
      have := congrArg Complex.re h
      simp at this
    have cg : Continuous fun t : ℝ => w * (20 * ε * I + ((1 - t) / 2 : ℝ) * w) := by fun_prop
    have hg1 : w * (20 * ε * I + (((1 - 1) / 2 : ℝ) : ℂ) * w) = (((√40 : ℝ) : ℂ) * (3 + 2 * δ * ε * I)) ^ 2 := by
      have q : ((√40 : ℝ) : ℂ) ^ 2 = 40 := by rw [← ofReal_pow, Real.sq_sqrt (by norm_num)]; norm_num
      rw [mul_pow, q, hw]
      push_cast
      linear_combination (-200 : ℂ) * (ε : ℂ) ^ 2 * I_sq + 360 * hε2 - 160 * hε2 - 160 * (ε : ℂ) ^ 2 * (δ : ℂ) ^ 2 * I_sq + 160 * (δ : ℂ) ^ 2 * hε2 + 160 * hδ2
    have hpos : 0 < (((√40 : ℝ) : ℂ) * (3 + 2 * δ * ε * I)).re := by
      rw [re_ofReal_mul]
      refine mul_pos (by positivity) ?_
      simp
    refine leaves_of (ρ := fun t => √((1 - t) / 2)) (r := √40 * √676 * √2404 * √21) (h := fun t => (576 - hyp δ ε t ^ 2) ^ (1 / 2 : ℂ) * (2304 - hyp δ ε t ^ 2) ^ (1 / 2 : ℂ) * (w * (20 * ε * I + ((1 - t) / 2 : ℝ) * w)) ^ (1 / 2 : ℂ) * (121 + hyp δ ε t ^ 2) ^ (1 / 2 : ℂ))
      o0 (by positivity) (fun t ht => Real.sqrt_pos.2 (by linarith [ht.2])) (fun t ht => ?_) ?_
    · unfold y0
      rw [fac t, half_pos (by linarith [ht.2])]
      ring
    · have hside := side 1 ⟨by norm_num, le_rfl⟩
      have k : ContinuousAt (fun t : ℝ => (576 - hyp δ ε t ^ 2) ^ (1 / 2 : ℂ) * (2304 - hyp δ ε t ^ 2) ^ (1 / 2 : ℂ) * (w * (20 * ε * I + ((1 - t) / 2 : ℝ) * w)) ^ (1 / 2 : ℂ) * (121 + hyp δ ε t ^ 2) ^ (1 / 2 : ℂ)) 1 := by
        refine (((half_comp c1.continuousAt hside.1).mul (half_comp c2.continuousAt hside.2.1)).mul (half_comp cg.continuousAt ?_)).mul (half_comp c4.continuousAt hside.2.2.2)
        left
        rw [hg1, mul_pow, ← ofReal_pow, re_ofReal_mul]
        refine mul_nonneg (by positivity) ?_
        rw [show (3 + 2 * (δ : ℂ) * ε * I) ^ 2 = ((9 - 4 * (δ * ε) ^ 2 : ℝ) : ℂ) + ((12 * δ * ε : ℝ) : ℂ) * I by push_cast; linear_combination 4 * (δ : ℂ) ^ 2 * (ε : ℂ) ^ 2 * I_sq]
        simp only [add_re, ofReal_re, mul_re, ofReal_im, I_re, I_im]
        rw [mul_pow, sign_sq hδ, sign_sq hε]
        norm_num
      have k2 := k.tendsto.mono_left (nhdsWithin_le_nhds (s := Ioo (-1) 1))
      rw [hg1, half_square hpos, sr (r := 676) (by norm_num) (by rw [ep2]; norm_num), sr (r := 2404) (by norm_num) (by rw [ep2]; norm_num), sr (r := 21) (by norm_num) (by rw [ep2]; norm_num)] at k2
      convert k2 using 2
      push_cast
      ring

end

end Hcp.Eight
