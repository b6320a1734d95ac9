import Verif.Props.TauTotal
import Verif.Proofs.CutRays
import Verif.Proofs.CrossLines
import Verif.Proofs.EightCauchy

/-!
# C76 for the triangle: explicit accuracy of `tau`
-/

namespace Hcp

open Set Spec MeasureTheory

/-- the real part of `1 / y` on the edge from `-1` to `1` -/
theorem tri_re {t : ℝ} (ht : t ∈ Ioo (-1 : ℝ) 1) {v : ℂ} (hv : v ^ 2 = (((t : ℂ) ^ 2 - 1) * (t - Complex.I * (√3 : ℝ)))⁻¹) : v.re ≠ 0 ∧ 1 / 4 ≤ |v.re| ∧ ‖v‖ ≤ √((1 - t ^ 2)⁻¹) := by
  have h3 : √3 ^ 2 = (3 : ℝ) := Real.sq_sqrt (by norm_num)
  have h30 : (0 : ℝ) ≤ √3 := Real.sqrt_nonneg _
  have h31 : (1.7 : ℝ) ≤ √3 := Real.le_sqrt_of_sq_le (by norm_num)
  have hd : 0 < 1 - t ^ 2 := by nlinarith [ht.1, ht.2]
  set q := (1 - t ^ 2) * (t ^ 2 + 3) with hq
  have hq0 : 0 < q := by positivity
  have hq4 : q ≤ 4 * (1 - t ^ 2) := by rw [hq]; nlinarith
  have hv' : v ^ 2 = -(t + Complex.I * (√3 : ℝ)) / (q : ℝ) := by
    rw [hv, eq_div_iff (by exact_mod_cast hq0.ne'), inv_mul_eq_iff_eq_mul₀]
    · rw [hq]
      push_cast
      linear_combination -((t : ℂ) ^ 2 - 1) * (sq3 * Complex.I ^ 2 + 3 * Complex.I_sq)
    · refine mul_ne_zero ?_ ?_
      · have : ((t ^ 2 - 1 : ℝ) : ℂ) ≠ 0 := by exact_mod_cast (by linarith : t ^ 2 - 1 < 0).ne
        simpa using this
      · intro h
        have := congrArg Complex.im h
        simp at this
  have hre : v.re ^ 2 - v.im ^ 2 = -t / q := by
    have := congrArg Complex.re hv'
    rw [Complex.div_ofReal_re] at this
    simpa [pow_two] using this
  have him : 2 * (v.re * v.im) = -√3 / q := by
    have := congrArg Complex.im hv'
    rw [Complex.div_ofReal_im] at this
    simp [pow_two] at this
    linarith
  have hre' : (v.re ^ 2 - v.im ^ 2) * q = -t := by rw [hre]; field_simp
  have him' : 2 * (v.re * v.im) * q = -√3 := by rw [him]; field_simp
  -- |v|^4 = 1 / ((1-t²)² (t²+3))
  have hn : (v.re ^ 2 + v.im ^ 2) ^ 2 * q ^ 2 = t ^ 2 + 3 := by
    have : (v.re ^ 2 + v.im ^ 2) ^ 2 * q ^ 2 = ((v.re ^ 2 - v.im ^ 2) * q) ^ 2 + (2 * (v.re * v.im) * q) ^ 2 := by ring
    rw [this, hre', him']
    linarith
  set N := (v.re ^ 2 + v.im ^ 2) * q with hN
  have hN0 : 0 ≤ N := by positivity
  have hN2 : N ^ 2 = t ^ 2 + 3 := by rw [hN, mul_pow]; exact hn
  have hN3 : √3 ≤ N := by
    refine abs_le_of_sq_le_sq' ?_ hN0 |>.2
    nlinarith [sq_nonneg t]
  have h2 : 2 * v.re ^ 2 * q = N - t := by rw [hN]; linarith
  have hlow : 0.7 ≤ N - t := by linarith [ht.2]
  have hsq : (1 / 4 : ℝ) ^ 2 ≤ v.re ^ 2 := by
    by_contra hc
    push Not at hc
    have : 2 * v.re ^ 2 * q ≤ 2 * (1 / 4) ^ 2 * 4 := by
      have hq44 : q ≤ 4 := by nlinarith [sq_nonneg t]
      have := sq_nonneg v.re
      nlinarith
    norm_num at this
    linarith
  have habs : 1 / 4 ≤ |v.re| := by
    have := sq_le_sq.1 hsq
    rwa [abs_of_pos (by norm_num : (0 : ℝ) < 1 / 4)] at this
  refine ⟨fun h => by rw [h, abs_zero] at habs; norm_num at habs, habs, ?_⟩
  apply Real.le_sqrt_of_sq_le
  rw [← Complex.normSq_eq_norm_sq, Complex.normSq_apply, ← pow_two, ← pow_two]
  rw [← one_div, le_div_iff₀ hd]
  -- N = |v|² q, |v|² (1-t²) = N/(t²+3) = 1/N ≤ 1
  have : (v.re ^ 2 + v.im ^ 2) * (1 - t ^ 2) * N ^ 2 = N := by rw [hN2, hN, hq]; ring
  have hN1 : 1 ≤ N := by linarith
  nlinarith

theorem tri_prod (t : ℂ) : ∏ k ∈ Finset.range 3, (edgePt (tri 0) (tri 1) t - tri k) = (t ^ 2 - 1) * (t - Complex.I * (√3 : ℝ)) := by
  simp only [Finset.prod_range_succ, Finset.prod_range_zero, one_mul, edgePt, tri]
  rw [if_pos trivial, if_neg (by norm_num), if_pos trivial, if_neg (by norm_num), if_neg (by norm_num)]
  ring

/-- the three sides of the triangle, in this order, are the same curve up to a rotation -/
theorem tri_prod' (t : ℂ) {a b : Nat} (h : (a, b) = (0, 1) ∨ (a, b) = (1, 2) ∨ (a, b) = (2, 0)) :
    ∏ k ∈ Finset.range 3, (edgePt (tri a) (tri b) t - tri k) = ∏ k ∈ Finset.range 3, (edgePt (tri 0) (tri 1) t - tri k) := by
  rw [tri_prod]
  have h3 := sq3
  have hI := Complex.I_sq
  rcases h with h | h | h <;> obtain ⟨rfl, rfl⟩ := Prod.mk.inj h
  · exact tri_prod t
  all_goals
    simp only [Finset.prod_range_succ, Finset.prod_range_zero, one_mul, edgePt, tri, if_true, one_ne_zero, if_false, OfNat.ofNat_ne_zero, OfNat.ofNat_ne_one]
    have hw : (Complex.I * ((√3 : ℝ) : ℂ)) ^ 2 = -3 := by rw [mul_pow, h3, hI]; ring
    generalize Complex.I * ((√3 : ℝ) : ℂ) = w at hw ⊢
    grind

theorem segIntM_zero (a b : ℂ) (Y : ℝ → ℂ) : segIntM a b 0 1 Y = (b - a) / 2 * ∫ t in (-1 : ℝ)..1, (Y t)⁻¹ := by
  unfold segIntM
  rw [← intervalIntegral.integral_const_mul]
  refine intervalIntegral.integral_congr fun t _ => ?_
  simp only [pow_zero, pow_one]
  ring

theorem tri_sq {Y : ℝ → ℂ} (hY : IsBranchM 2 3 tri (tri 0) (tri 1) Y) {t : ℝ} (ht : t ∈ Ioo (-1 : ℝ) 1) : ((Y t)⁻¹) ^ 2 = (((t : ℂ) ^ 2 - 1) * (t - Complex.I * (√3 : ℝ)))⁻¹ := by
  rw [inv_pow, hY.2 t (Ioo_subset_Icc_self ht), tri_prod]

theorem tri_ne {Y : ℝ → ℂ} (hY : IsBranchM 2 3 tri (tri 0) (tri 1) Y) {t : ℝ} (ht : t ∈ Ioo (-1 : ℝ) 1) : Y t ≠ 0 := by
  intro h
  refine (tri_re ht (tri_sq hY ht)).1 ?_
  rw [h, inv_zero, Complex.zero_re]

/-- the period over one side is not small -/
theorem tri_period {Y : ℝ → ℂ} (hY : IsBranchM 2 3 tri (tri 0) (tri 1) Y) : 1 / 2 ≤ ‖∫ t in (-1 : ℝ)..1, (Y t)⁻¹‖ := by
  have hcont : ContinuousOn (fun t => (Y t)⁻¹) (Ioo (-1 : ℝ) 1) := (hY.1.mono Ioo_subset_Icc_self).inv₀ fun t ht => tri_ne hY ht
  have hint : IntervalIntegrable (fun t => (Y t)⁻¹) volume (-1) 1 := by
    have hw := Eight.weight_int (a := -1) (b := 1) le_rfl le_rfl (by norm_num) 1
    rw [intervalIntegrable_iff_integrableOn_Ioo_of_le (by norm_num)] at hw ⊢
    refine Integrable.mono' hw (hcont.aestronglyMeasurable measurableSet_Ioo) ?_
    refine (ae_restrict_iff' measurableSet_Ioo).2 (Filter.Eventually.of_forall fun t ht => ?_)
    rw [one_mul]
    exact (tri_re ht (tri_sq hY ht)).2.2
  have hre : ∫ t in (-1 : ℝ)..1, ((Y t)⁻¹).re = (∫ t in (-1 : ℝ)..1, (Y t)⁻¹).re := by
    have := Complex.reCLM.intervalIntegral_comp_comm hint
    simpa using this
  have hire : IntervalIntegrable (fun t => ((Y t)⁻¹).re) volume (-1) 1 := by
    rw [intervalIntegrable_iff] at hint ⊢
    exact hint.re
  have hcr : ContinuousOn (fun t => ((Y t)⁻¹).re) (Ioo (-1 : ℝ) 1) := Complex.continuous_re.comp_continuousOn hcont
  have hsgn : (∀ t ∈ Ioo (-1 : ℝ) 1, 0 < ((Y t)⁻¹).re) ∨ ∀ t ∈ Ioo (-1 : ℝ) 1, ((Y t)⁻¹).re < 0 := by
    by_contra hc
    push Not at hc
    obtain ⟨⟨s, hs, hs'⟩, t, ht, ht'⟩ := hc
    obtain ⟨u, hu, hu'⟩ := isPreconnected_Ioo.intermediate_value hs ht hcr ⟨hs', ht'⟩
    exact (tri_re hu (tri_sq hY hu)).1 hu'
  have hc : IntervalIntegrable (fun _ : ℝ => (1 / 4 : ℝ)) volume (-1) 1 := intervalIntegrable_const
  have hcI : ∫ _ in (-1 : ℝ)..1, (1 / 4 : ℝ) = 1 / 2 := by rw [intervalIntegral.integral_const]; norm_num
  refine le_trans ?_ (Complex.abs_re_le_norm _)
  rw [← hre]
  rcases hsgn with h | h
  · have := intervalIntegral.integral_mono_on_of_le_Ioo (by norm_num) hc hire fun t ht => by
      have := (tri_re ht (tri_sq hY ht)).2.1
      rwa [abs_of_pos (h t ht)] at this
    rw [hcI] at this
    exact this.trans (le_abs_self _)
  · have := intervalIntegral.integral_mono_on_of_le_Ioo (by norm_num) hc hire.neg fun t ht => by
      have := (tri_re ht (tri_sq hY ht)).2.1
      rwa [abs_of_neg (h t ht)] at this
    rw [hcI] at this
    simp only [Pi.neg_apply, intervalIntegral.integral_neg] at this
    exact this.trans (neg_le_abs _)

/-- all integrals over sides are the same up to a sign and the direction of the side -/
theorem tri_sides {Y0 Y : ℝ → ℂ} (hY0 : IsBranchM 2 3 tri (tri 0) (tri 1) Y0) {a b : Nat} (ha : a < 3) (hb : b < 3) (hab : a ≠ b) (hY : IsBranchM 2 3 tri (tri a) (tri b) Y) :
    ∃ z : ℤ, (z = 1 ∨ z = -1) ∧ segIntM (tri a) (tri b) 0 1 Y = z * ((tri b - tri a) / 2) * ∫ t in (-1 : ℝ)..1, (Y0 t)⁻¹ := by
  have key : ∀ {a b : Nat} {Y : ℝ → ℂ}, ((a, b) = (0, 1) ∨ (a, b) = (1, 2) ∨ (a, b) = (2, 0)) → IsBranchM 2 3 tri (tri a) (tri b) Y →
      ∃ z : ℤ, (z = 1 ∨ z = -1) ∧ segIntM (tri a) (tri b) 0 1 Y = z * ((tri b - tri a) / 2) * ∫ t in (-1 : ℝ)..1, (Y0 t)⁻¹ := by
    intro a b Y h hY
    have hY' : IsBranchM 2 3 tri (tri 0) (tri 1) Y := ⟨hY.1, fun t ht => by rw [hY.2 t ht, tri_prod' _ h]⟩
    obtain ⟨z, hz, e⟩ := branch_unique (by norm_num) hY' hY0 fun t ht => tri_ne hY0 ht
    have h1 : segIntM (tri a) (tri b) 0 1 Y = (z ^ 1)⁻¹ * segIntM (tri a) (tri b) 0 1 Y0 := segIntM_of_branch e
    rcases mul_self_eq_one_iff.1 ((pow_two z).symm.trans hz) with rfl | rfl
    · exact ⟨1, Or.inl rfl, by rw [h1, segIntM_zero]; push_cast; ring⟩
    · exact ⟨-1, Or.inr rfl, by rw [h1, segIntM_zero]; push_cast; ring⟩
  have hcase : ((a, b) = (0, 1) ∨ (a, b) = (1, 2) ∨ (a, b) = (2, 0)) ∨ ((b, a) = (0, 1) ∨ (b, a) = (1, 2) ∨ (b, a) = (2, 0)) := by
    simp only [Prod.mk.injEq]
    omega
  rcases hcase with h | h
  · exact key h hY
  · obtain ⟨z, hz, e⟩ := key h (Cut.isBranch_rev hY)
    refine ⟨z, hz, ?_⟩
    rw [segIntM_rev, e]
    ring

/-- directions of two different sides are far apart, whatever the orientation -/
theorem tri_dirs {a b c d : Nat} (ha : a < 3) (hb : b < 3) (hab : a ≠ b) (hc : c < 3) (hd : d < 3) (hcd : c ≠ d) (h1 : ¬(a = c ∧ b = d)) (h2 : ¬(a = d ∧ b = c)) :
    1 ≤ ‖(tri b - tri a) / 2 + (tri d - tri c) / 2‖ ∧ 1 ≤ ‖(tri b - tri a) / 2 - (tri d - tri c) / 2‖ := by
  have hn : ∀ {p q : Nat}, p < 3 → q < 3 → p ≠ q → ‖(tri q - tri p) / 2‖ = 1 := fun hp hq h => by
    rw [norm_div, tri_dist hq hp (Ne.symm h)]; norm_num
  have hpar := parallelogram_law_with_norm ℂ ((tri b - tri a) / 2) ((tri d - tri c) / 2)
  rw [hn ha hb hab, hn hc hd hcd] at hpar
  have big : ∀ {u v : ℝ}, 0 ≤ u → v = 1 → u ^ 2 + v ^ 2 = 2 * (1 ^ 2 + 1 ^ 2) → 1 ≤ u ∧ 1 ≤ v := fun h0 hv h => by
    subst hv
    exact ⟨by nlinarith, le_rfl⟩
  have hsub : ‖(tri b - tri a) / 2 - (tri d - tri c) / 2‖ = 1 → 1 ≤ ‖(tri b - tri a) / 2 + (tri d - tri c) / 2‖ ∧ 1 ≤ ‖(tri b - tri a) / 2 - (tri d - tri c) / 2‖ := fun h => big (norm_nonneg _) h hpar
  have hadd : ‖(tri b - tri a) / 2 + (tri d - tri c) / 2‖ = 1 → 1 ≤ ‖(tri b - tri a) / 2 + (tri d - tri c) / 2‖ ∧ 1 ≤ ‖(tri b - tri a) / 2 - (tri d - tri c) / 2‖ := fun h =>
    (big (norm_nonneg _) h (by rw [add_comm]; exact hpar)).symm
  have hcase : a = c ∨ a = d ∨ b = c ∨ b = d := by omega
  rcases hcase with rfl | rfl | rfl | rfl
  · refine hsub ?_
    rw [← hn hd hb (by omega : d ≠ b)]
    congr 1; ring
  · refine hadd ?_
    rw [← hn hc hb (by omega : c ≠ b)]
    congr 1; ring
  · refine hadd ?_
    rw [← hn ha hd (by omega : a ≠ d)]
    congr 1; ring
  · refine hsub ?_
    rw [← hn ha hc (by omega : a ≠ c)]
    congr 1; ring

theorem sign_norm {u v : ℂ} (hu : ‖u‖ = 1) (hv : ‖v‖ = 1) (h1 : 1 ≤ ‖u + v‖) (h2 : 1 ≤ ‖u - v‖) {p q : ℤ} (hp : p = 0 ∨ p = 1 ∨ p = -1) (hq : q = 0 ∨ q = 1 ∨ q = -1) :
    ((p : ℂ) * u + q * v = 0 ∨ 1 ≤ ‖(p : ℂ) * u + q * v‖) ∧ ‖(p : ℂ) * u + q * v‖ ≤ 2 := by
  have hle : ‖(p : ℂ) * u + q * v‖ ≤ 2 := by
    have hs : ∀ {p : ℤ}, p = 0 ∨ p = 1 ∨ p = -1 → ‖(p : ℂ)‖ ≤ 1 := by
      rintro p (rfl | rfl | rfl) <;> norm_num
    refine (norm_add_le _ _).trans ?_
    rw [norm_mul, norm_mul, hu, hv]
    linarith [hs hp, hs hq]
  refine ⟨?_, hle⟩
  have n1 : ‖-u + v‖ = ‖u - v‖ := by rw [← norm_neg]; congr 1; ring
  have n2 : ‖-u - v‖ = ‖u + v‖ := by rw [← norm_neg]; congr 1; ring
  rcases hp with rfl | rfl | rfl <;> rcases hq with rfl | rfl | rfl <;> simp [hu, hv, h1, h2, n1, n2, ← sub_eq_add_neg]

/-- a determination on some side gives one on the first side -/
theorem tri_ref {Y : ℝ → ℂ} {a b : Nat} (ha : a < 3) (hb : b < 3) (hab : a ≠ b) (hY : IsBranchM 2 3 tri (tri a) (tri b) Y) : ∃ Y0, IsBranchM 2 3 tri (tri 0) (tri 1) Y0 := by
  have key : ∀ {a b : Nat} {Y : ℝ → ℂ}, ((a, b) = (0, 1) ∨ (a, b) = (1, 2) ∨ (a, b) = (2, 0)) → IsBranchM 2 3 tri (tri a) (tri b) Y → IsBranchM 2 3 tri (tri 0) (tri 1) Y :=
    fun h hY => ⟨hY.1, fun t ht => by rw [hY.2 t ht, tri_prod' _ h]⟩
  have hcase : ((a, b) = (0, 1) ∨ (a, b) = (1, 2) ∨ (a, b) = (2, 0)) ∨ ((b, a) = (0, 1) ∨ (b, a) = (1, 2) ∨ (b, a) = (2, 0)) := by
    simp only [Prod.mk.injEq]
    omega
  rcases hcase with h | h
  · exact ⟨_, key h hY⟩
  · exact ⟨_, key h (Cut.isBranch_rev hY)⟩

theorem tri_cycle {Y0 Y : ℝ → ℂ} (hY0 : IsBranchM 2 3 tri (tri 0) (tri 1) Y0) {a b : Nat} (ha : a < 3) (hb : b < 3) (hab : a ≠ b) (hY : IsBranchM 2 3 tri (tri a) (tri b) Y) :
    ∃ z : ℤ, (z = 1 ∨ z = -1) ∧ cycleIntM 2 (tri a) (tri b) 0 1 Y 0 = z * ((tri b - tri a) / 2) * (2 * ∫ t in (-1 : ℝ)..1, (Y0 t)⁻¹) := by
  obtain ⟨z, hz, e⟩ := tri_sides hY0 ha hb hab hY
  refine ⟨z, hz, ?_⟩
  have hz2 : zeta 2 = -1 := by
    unfold zeta
    rw [← Complex.exp_pi_mul_I]
    congr 1
    push_cast
    ring
  rw [cycleIntM_eq, e, hz2]
  norm_num
  ring

theorem sign_mul {p q : ℤ} (hp : p = 0 ∨ p = 1 ∨ p = -1) (hq : q = 1 ∨ q = -1) : p * q = 0 ∨ p * q = 1 ∨ p * q = -1 := by
  rcases hp with rfl | rfl | rfl <;> rcases hq with rfl | rfl <;> norm_num

/-- the entry of a matrix of periods of the triangle -/
theorem tri_entry {W : Type} {e0 e1 : Edge W} (h0 : e0.a < 3 ∧ e0.b < 3 ∧ e0.a ≠ e0.b) (h1 : e1.a < 3 ∧ e1.b < 3 ∧ e1.a ≠ e1.b) {Y0 : ℝ → ℂ} (hY0 : IsBranchM 2 3 tri (tri 0) (tri 1) Y0) {P : Matrix (Fin 1) (Fin 1) ℂ} (hP : SignPeriods 3 tri [e0, e1] 1 P) :
    ∃ p q : ℤ, (p = 0 ∨ p = 1 ∨ p = -1) ∧ (q = 0 ∨ q = 1 ∨ q = -1) ∧ P 0 0 = (p * ((tri e0.b - tri e0.a) / 2) + q * ((tri e1.b - tri e1.a) / 2)) * (2 * ∫ t in (-1 : ℝ)..1, (Y0 t)⁻¹) := by
  obtain ⟨Y, s, hY, hs, hP⟩ := hP
  obtain ⟨z0, z0', e0'⟩ := tri_cycle hY0 h0.1 h0.2.1 h0.2.2 (hY 0 e0 rfl)
  obtain ⟨z1, z1', e1'⟩ := tri_cycle hY0 h1.1 h1.2.1 h1.2.2 (hY 1 e1 rfl)
  refine ⟨s 0 0 * z0, s 0 1 * z1, sign_mul (hs _ _) z0', sign_mul (hs _ _) z1', ?_⟩
  rw [hP 0 0, show ∑ e : Fin [e0, e1].length, (s 0 e : ℂ) * cycleIntM 2 (tri [e0, e1][e].a) (tri [e0, e1][e].b) ((0 : Fin 1) : Nat) 1 (Y e) 0 =
    (s 0 0 : ℂ) * cycleIntM 2 (tri e0.a) (tri e0.b) 0 1 (Y 0) 0 + (s 0 1 : ℂ) * cycleIntM 2 (tri e1.a) (tri e1.b) 0 1 (Y 1) 0 from Fin.sum_univ_two _, e0', e1']
  push_cast
  ring

theorem inv_one_mul (M N : Matrix (Fin 1) (Fin 1) ℂ) (i k : Fin 1) : (M⁻¹ * N) i k = N 0 0 / M 0 0 := by
  have hi : i = 0 := Subsingleton.elim _ _
  have hk : k = 0 := Subsingleton.elim _ _
  subst hi hk
  rw [Matrix.inv_def, Matrix.adjugate_fin_one, Matrix.det_fin_one, Ring.inverse_eq_inv', Matrix.smul_mul, Matrix.one_mul, Matrix.smul_apply, smul_eq_mul]
  ring

theorem quot_one {P Q M N : ℂ} {r δ : ℝ} (hr : 1 ≤ r) (hδ0 : 0 ≤ δ) (hδ : δ ≤ 1 / 2) (hP : r ≤ ‖P‖) (hQ : ‖Q‖ ≤ 2 * r) (hM : ‖M - P‖ ≤ δ) (hN : ‖N - Q‖ ≤ δ) : M ≠ 0 ∧ ‖N / M - Q / P‖ ≤ 6 * δ := by
  have hP0 : P ≠ 0 := fun h => by rw [h, norm_zero] at hP; linarith
  have hMn : ‖P‖ / 2 ≤ ‖M‖ := by
    have := norm_sub_norm_le P M
    rw [norm_sub_rev] at this
    linarith
  have hM0 : M ≠ 0 := fun h => by rw [h, norm_zero] at hMn; linarith
  refine ⟨hM0, ?_⟩
  have e : N / M - Q / P = ((N - Q) * P - Q * (M - P)) / (M * P) := by field_simp; ring
  rw [e, norm_div, norm_mul, div_le_iff₀ (mul_pos (norm_pos_iff.2 hM0) (norm_pos_iff.2 hP0))]
  have h1 : ‖(N - Q) * P - Q * (M - P)‖ ≤ δ * ‖P‖ + 2 * r * δ := by
    refine (norm_sub_le _ _).trans ?_
    rw [norm_mul, norm_mul]
    gcongr
  have h2 : 6 * δ * (‖P‖ / 2 * ‖P‖) ≤ 6 * δ * (‖M‖ * ‖P‖) := by gcongr
  refine h1.trans (le_trans ?_ h2)
  have h3 : 1 ≤ ‖P‖ := hr.trans hP
  have h4 : δ * ‖P‖ ≤ δ * (‖P‖ * ‖P‖) := by
    have : ‖P‖ ≤ ‖P‖ * ‖P‖ := by nlinarith
    gcongr
  have h5 : r * δ ≤ δ * (‖P‖ * ‖P‖) := by
    have : r ≤ ‖P‖ * ‖P‖ := by nlinarith
    nlinarith
  linarith

theorem tri_tau {W : Type} {es : List (Edge W)} (hlen : es.length = 2) (hg : GrowsAsTree (es.map fun f => (f.a, f.b))) (hes : ∀ ed ∈ es, ed.a < 3 ∧ ed.b < 3 ∧ ed.a ≠ ed.b) {prec : Int} (hp : 5 ≤ prec) :
    TauReady 3 tri es 1 prec (96 * 2 ^ (-prec)) := by
  obtain ⟨e0, e1, rfl⟩ := List.length_eq_two.1 hlen
  have h0 := hes e0 (by simp)
  have h1 := hes e1 (by simp)
  have hb := (hg 1 (by simp)).2.1
  simp [Touches] at hb
  intro P Q hP hQ hdet M N hM hN
  obtain ⟨Y0, hY0⟩ : ∃ Y0, IsBranchM 2 3 tri (tri 0) (tri 1) Y0 := by
    obtain ⟨Y, s, hY, -⟩ := hP
    exact tri_ref h0.1 h0.2.1 h0.2.2 (hY 0 e0 rfl)
  obtain ⟨p, q, hp1, hq1, eP⟩ := tri_entry h0 h1 hY0 hP
  obtain ⟨p', q', hp2, hq2, eQ⟩ := tri_entry h0 h1 hY0 hQ
  have hJ := tri_period hY0
  have hd := tri_dirs h0.1 h0.2.1 h0.2.2 h1.1 h1.2.1 h1.2.2 (by omega) (by omega)
  have hn : ∀ {p q : Nat}, p < 3 → q < 3 → p ≠ q → ‖(tri q - tri p) / 2‖ = 1 := fun hp hq h => by
    rw [norm_div, tri_dist hq hp (Ne.symm h)]; norm_num
  obtain ⟨s1, -⟩ := sign_norm (hn h0.1 h0.2.1 h0.2.2) (hn h1.1 h1.2.1 h1.2.2) hd.1 hd.2 hp1 hq1
  obtain ⟨-, s2⟩ := sign_norm (hn h0.1 h0.2.1 h0.2.2) (hn h1.1 h1.2.1 h1.2.2) hd.1 hd.2 hp2 hq2
  rw [Matrix.det_fin_one] at hdet ⊢
  have hr : 1 ≤ ‖2 * ∫ t in (-1 : ℝ)..1, (Y0 t)⁻¹‖ := by
    rw [norm_mul]
    norm_num
    linarith
  have hδ : (2 : ℝ) ^ (-prec) ≤ 2 ^ (-5 : ℤ) := zpow_le_zpow_right₀ (by norm_num) (by omega)
  have hδ0 : (0 : ℝ) < 2 ^ (-prec) := by positivity
  have hM' := hM 0 0
  have hN' := hN 0 0
  simp only [Fin.val_zero, Nat.cast_zero, zero_add, List.length_cons, List.length_nil] at hM' hN'
  have hq := quot_one (P := P 0 0) (Q := Q 0 0) (M := M 0 0) (N := N 0 0) (r := ‖2 * ∫ t in (-1 : ℝ)..1, (Y0 t)⁻¹‖) (δ := 16 * 2 ^ (-prec)) hr (by positivity) (by norm_num at hδ ⊢; linarith) ?_ ?_
    (by norm_num at hM' ⊢; linarith) (by norm_num at hN' ⊢; linarith)
  · refine ⟨hq.1, fun i k => ?_⟩
    rw [inv_one_mul, inv_one_mul]
    exact hq.2.trans (le_of_eq (by ring))
  · rw [eP]
    rcases s1 with s1 | s1
    · rw [eP, s1, zero_mul] at hdet
      exact absurd rfl hdet
    · exact (le_mul_of_one_le_left (norm_nonneg (2 * ∫ t in (-1 : ℝ)..1, (Y0 t)⁻¹)) s1).trans_eq (norm_mul _ _).symm
  · rw [eQ, norm_mul]
    exact mul_le_mul_of_nonneg_right s2 (norm_nonneg (2 * ∫ t in (-1 : ℝ)..1, (Y0 t)⁻¹))

/-- **C76 for the triangle.** The elliptic curve with branch points `-1`, `1`, `i√3`: for all precisions from 5 to `2^58 - 2`, with any options which select the Gauss-Chebyshev rule and ask for `tau`, the computation returns; the enclosure of `tau` contains the quotient of the true periods, which is in the upper half plane, and all its elements are within `96 · 2^-prec`. -/
theorem C76_triangle (p : DePar (Set ℂ)) {c : Sec} (hc : secInit 2 3 = .ok c) {prec : Int} (hp : 5 ≤ prec) (hp' : prec + 1 < 2 ^ 58) {fuel flag : Nat} (hf : 2 ≤ fuel) (hty : intType flag c.m c.n = .gc) (hni : flag &&& ajNoInt = 0) (hna : flag &&& ajNoAb = 0) (hnt : flag &&& ajNoTau = 0) :
    ∃ (out : AjOut (Set ℂ) ℝ setMat c.shape.g) (t : Set (Matrix (Fin c.shape.g) (Fin c.shape.g) ℂ)) (tau : Matrix (Fin c.shape.g) (Fin c.shape.g) ℂ),
      ajRun (idealEnv tri 1 sortByR orderByR p) fuel c flag prec (treeInit (WOps.ofOrder (-1)) (treeEdges c).toNat) = .ok out ∧ c.shape.g = 1 ∧ out.tau = some t ∧
      ∃ (Y : Nat → ℝ → ℂ) (ca cb : Nat → ℂ) (cc : IMat) (Q : Mat (out.tree.e.length * (2 - 1))), AjRight (idealEnv tri 1 sortByR orderByR p) (fun s z => z ∈ s) InC 2 3 tri c out Y ca cb cc Q ∧ WithinGc tri c prec out Y ∧
        (∀ tau', periodsOf 2 tri out.tree.e Y c.shape out.loopA * tau' = periodsOf 2 tri out.tree.e Y c.shape out.loopB ↔ tau' = tau) ∧ IsRiemannMatrix tau ∧ tau ∈ t ∧ ∀ T ∈ t, ∀ i k, ‖T i k - tau i k‖ ≤ 96 * 2 ^ (-prec) := by
  obtain ⟨tr, extra, h1, hext, -, -, H⟩ := C76_tau (p := p) (lam := 1) sortByR_sorts orderByR_orders one_ne_zero le_rfl tri_inj hc
  obtain ⟨hg1, hlen2, rfl, hgrow, hes, hR⟩ := tri_setup hc sortByR_sorts orderByR h1 hext
  have hlt := edgeCount_lt (edgeCount_of_size (C03_tree_size (by norm_num) hc))
  obtain ⟨tr', s1, -, s3⟩ := C46_no_third_point sortByR_sorts one_ne_zero .gc (treeInit (WOps.ofOrder (-1)) (treeEdges c).toNat) 3 (Or.inl hlt) tri_inj
  obtain rfl := Res.ok.inj (s1.symm.trans h1)
  have hfree : FreeEdges tri 3 tr'.e := fun f hf k hk ha hb t t1 t2 e => s3 f hf ⟨k, hk, ha, hb, t, t1, t2, e⟩
  obtain ⟨ip, hip⟩ : ∃ ip : Nat, prec + 1 = ip := ⟨(prec + 1).toNat, by omega⟩
  obtain ⟨r1, r2⟩ := hR ip (by omega)
  obtain ⟨out, t, tau, q1, -, -, -, q2, q3⟩ := H prec ip (96 * 2 ^ (-prec)) (plainEdges_three hgrow (fun ed h => ⟨(hes ed h).1, (hes ed h).2.1⟩) tri_inj hfree) (by norm_num) hip (by omega) (by omega) r1
    (by rw [hg1]; exact tri_tau hlen2 hgrow hes hp) (r2 (by omega)) fuel flag hf hty hni hna hnt (Or.inr rfl)
  exact ⟨out, t, tau, q1, hg1, q2, q3⟩

end Hcp
