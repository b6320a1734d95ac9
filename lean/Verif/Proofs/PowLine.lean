import Verif.Proofs.PowPlane
import Verif.Proofs.RealGaps
import Mathlib.MeasureTheory.Function.SpecialFunctions.Basic

/-!
# Relations between the integrals of `p(x)/f(x)^κ` over the real line
-/

namespace Hcp.PowPlane
open Complex Set MeasureTheory Filter Topology Interval
open HalfPlane (absf pol ae_ne small_eps far_norm cauchy_le cauchy_one green_le)

section
variable {κ κ' : ℝ} {n g g' : Nat} {ξ : Nat → ℝ} {a : Fin g → ℝ} {b : Fin g' → ℝ}

theorem measurable_dif : Measurable (dif κ n ξ a) := by
  have h1 : Measurable (pw κ) := by
    unfold pw
    fun_prop
  have h2 : Measurable (root κ n ξ) := by
    unfold root
    fun_prop
  have h3 : Measurable (pol a) := by
    unfold pol
    fun_prop
  exact h3.div h2

/-- the values on a parallel to the real line, the real line included -/
theorem dif_integrable (hκ : 0 < κ) (hκ1 : κ < 1) (hξ : InjOn ξ (Iio n)) (hn : 0 < n) {ε : ℝ} (h0 : 0 ≤ ε) (h1 : ε ≤ 1) (u v : ℝ) : IntervalIntegrable (fun x : ℝ => dif κ n ξ a (x + ε * I)) volume u v := by
  set R := max |u| |v| with hR
  refine ((absf_integrable hκ hκ1 hξ hn u v).const_mul (∑ i, |a i| * (R + 1) ^ i.val)).mono_fun (measurable_dif.comp (by fun_prop : Measurable fun x : ℝ => (x : ℂ) + ε * I)).aestronglyMeasurable ?_
  rw [EventuallyLE, ae_restrict_iff' measurableSet_uIoc]
  filter_upwards [ae_ne n ξ] with x hx hxu
  have hxR : |x| ≤ R := by
    have hx2 := uIoc_subset_uIcc hxu
    rcases le_total u v with h | h
    · rw [uIcc_of_le h] at hx2
      exact abs_le_max_abs_abs hx2.1 hx2.2
    · rw [uIcc_of_ge h] at hx2
      rw [hR, max_comm]
      exact abs_le_max_abs_abs hx2.1 hx2.2
  have := dif_le (a := a) hκ hxR h0 h1 hx
  exact this.trans (le_abs_self _)

theorem dif_real (x : ℝ) : dif κ n ξ a (x + (0 : ℝ) * I) = dif κ n ξ a x := by simp

/-- continuity at the real line -/
theorem dif_tendsto (hκ : 0 < κ) {x : ℝ} (hx : ∀ k < n, x ≠ ξ k) : Tendsto (fun ε : ℝ => dif κ n ξ a (x + ε * I)) (𝓝[>] 0) (𝓝 (dif κ n ξ a x)) := by
  have h1 : ContinuousAt (dif κ n ξ a) (x : ℂ) := (differentiableAt_dif hκ (Or.inr fun k hk => by simpa using hx k hk)).continuousAt
  have h2 : Tendsto (fun ε : ℝ => (x : ℂ) + ε * I) (𝓝[>] 0) (𝓝 (x : ℂ)) := by
    have : Continuous fun ε : ℝ => (x : ℂ) + ε * I := by fun_prop
    have := this.tendsto 0
    simp only [ofReal_zero, zero_mul, add_zero] at this
    exact this.mono_left nhdsWithin_le_nhds
  exact h1.tendsto.comp h2

/-- primitive on a parallel -/
noncomputable def pri (κ : ℝ) (n : Nat) (ξ : Nat → ℝ) {g : Nat} (a : Fin g → ℝ) (R ε x : ℝ) : ℂ := ∫ s in (-R)..x, dif κ n ξ a (s + ε * I)

theorem dif_bound (hκ : 0 < κ) {R : ℝ} {x : ℝ} (hx : x ∈ Icc (-R) R) : ∀ᵐ s : ℝ, s ∈ Ι (-R) x → ∀ ε : ℝ, 0 ≤ ε → ε ≤ 1 → ‖dif κ n ξ a (s + ε * I)‖ ≤ (∑ i, |a i| * (R + 1) ^ i.val) * (1 / absf n ξ s ^ κ) := by
  filter_upwards [ae_ne n ξ] with s hs hsx ε h0 h1
  rw [uIoc_of_le hx.1] at hsx
  exact dif_le hκ (abs_le.2 ⟨hsx.1.le, hsx.2.trans hx.2⟩) h0 h1 hs

theorem pri_tendsto (hκ : 0 < κ) (hκ1 : κ < 1) (hξ : InjOn ξ (Iio n)) (hn : 0 < n) {R : ℝ} {x : ℝ} (hx : x ∈ Icc (-R) R) : Tendsto (fun ε => pri κ n ξ a R ε x) (𝓝[>] 0) (𝓝 (pri κ n ξ a R 0 x)) := by
  unfold pri
  simp only [dif_real]
  refine intervalIntegral.tendsto_integral_filter_of_dominated_convergence (fun s => (∑ i, |a i| * (R + 1) ^ i.val) * (1 / absf n ξ s ^ κ)) ?_ ?_ ((absf_integrable hκ hκ1 hξ hn _ _).const_mul _) ?_
  · exact Eventually.of_forall fun ε => (measurable_dif.comp (by fun_prop : Measurable fun x : ℝ => (x : ℂ) + ε * I)).aestronglyMeasurable
  · filter_upwards [small_eps] with ε hε
    filter_upwards [dif_bound (n := n) (ξ := ξ) (a := a) hκ hx] with s hs h using hs h ε hε.1.le hε.2
  · filter_upwards [ae_ne n ξ] with s hs _ using dif_tendsto hκ hs

theorem pri_le (hκ : 0 < κ) (hκ1 : κ < 1) (hξ : InjOn ξ (Iio n)) (hn : 0 < n) {R ε : ℝ} (h0 : 0 ≤ ε) (h1 : ε ≤ 1) {x : ℝ} (hx : x ∈ Icc (-R) R) : ‖pri κ n ξ a R ε x‖ ≤ ∫ s in (-R)..R, ‖dif κ n ξ a (s + ε * I)‖ := by
  refine (intervalIntegral.norm_integral_le_integral_norm hx.1).trans ?_
  refine intervalIntegral.integral_mono_interval le_rfl hx.1 hx.2 (Eventually.of_forall fun s => norm_nonneg _) (dif_integrable hκ hκ1 hξ hn h0 h1 _ _).norm

theorem pri_continuous (hκ : 0 < κ) (hκ1 : κ < 1) (hξ : InjOn ξ (Iio n)) (hn : 0 < n) {R ε : ℝ} (h0 : 0 ≤ ε) (h1 : ε ≤ 1) : Continuous (pri κ n ξ a R ε) :=
  intervalIntegral.continuous_primitive (fun u v => dif_integrable hκ hκ1 hξ hn h0 h1 u v) _

theorem norm_int_le (hκ : 0 < κ) (hκ1 : κ < 1) (hξ : InjOn ξ (Iio n)) (hn : 0 < n) {R : ℝ} (hR : 0 ≤ R) {ε : ℝ} (h0 : 0 ≤ ε) (h1 : ε ≤ 1) :
    ∫ s in (-R)..R, ‖dif κ n ξ a (s + ε * I)‖ ≤ ∫ s in (-R)..R, (∑ i, |a i| * (R + 1) ^ i.val) * (1 / absf n ξ s ^ κ) := by
  refine intervalIntegral.integral_mono_ae_restrict (by linarith) (dif_integrable hκ hκ1 hξ hn h0 h1 _ _).norm ((absf_integrable hκ hκ1 hξ hn _ _).const_mul _) ?_
  rw [EventuallyLE, ae_restrict_iff' measurableSet_Icc]
  filter_upwards [ae_ne n ξ] with s hs hsx using dif_le hκ (abs_le.2 hsx) h0 h1 hs

/-- the integral of `U dV` on the real line is the limit of those on the parallels; `c` is the identity or the conjugation -/
theorem bil_tendsto (hκ : 0 < κ) (hκ1 : κ < 1) (hκ' : 0 < κ') (hκ1' : κ' < 1) (hξ : InjOn ξ (Iio n)) (hn : 0 < n) {R : ℝ} (hR : 0 ≤ R) {c : ℂ → ℂ} (hc : Continuous c) (hcn : ∀ z, ‖c z‖ = ‖z‖) :
    Tendsto (fun ε : ℝ => ∫ x in (-R)..R, c (pri κ n ξ a R ε x) * dif κ' n ξ b (x + ε * I)) (𝓝[>] 0) (𝓝 (∫ x in (-R)..R, c (pri κ n ξ a R 0 x) * dif κ' n ξ b x)) := by
  set L := ∫ s in (-R)..R, (∑ i, |a i| * (R + 1) ^ i.val) * (1 / absf n ξ s ^ κ) with hL
  have hRR : R ∈ Icc (-R) R := ⟨by linarith, le_rfl⟩
  refine intervalIntegral.tendsto_integral_filter_of_dominated_convergence (fun s => L * ((∑ i, |b i| * (R + 1) ^ i.val) * (1 / absf n ξ s ^ κ'))) ?_ ?_ (((absf_integrable hκ' hκ1' hξ hn _ _).const_mul _).const_mul _) ?_
  · filter_upwards [small_eps] with ε hε
    exact ((hc.comp (pri_continuous hκ hκ1 hξ hn hε.1.le hε.2)).aestronglyMeasurable).mul (measurable_dif.comp (by fun_prop : Measurable fun x : ℝ => (x : ℂ) + ε * I)).aestronglyMeasurable
  · filter_upwards [small_eps] with ε hε
    filter_upwards [dif_bound (n := n) (ξ := ξ) (a := b) hκ' hRR] with s hs h
    have hs' : s ∈ Icc (-R) R := by rw [uIoc_of_le (by linarith)] at h; exact ⟨h.1.le, h.2⟩
    have h1 := (pri_le (a := a) hκ hκ1 hξ hn hε.1.le hε.2 hs').trans (norm_int_le hκ hκ1 hξ hn hR hε.1.le hε.2)
    rw [norm_mul, hcn]
    exact mul_le_mul h1 (hs h ε hε.1.le hε.2) (norm_nonneg _) ((norm_nonneg _).trans h1)
  · filter_upwards [ae_ne n ξ] with s hs hsx
    have hs' : s ∈ Icc (-R) R := by rw [uIoc_of_le (by linarith)] at hsx; exact ⟨hsx.1.le, hsx.2⟩
    exact ((hc.tendsto _).comp (pri_tendsto hκ hκ1 hξ hn hs')).mul (dif_tendsto hκ' hs)

theorem tail_le {f : ℝ → ℝ} {C R0 R μ : ℝ} (hμ : 0 < μ) (hC : 0 ≤ C) (h1 : 1 ≤ R0) (hR : R0 ≤ R) (hf : IntervalIntegrable f volume R0 R) (h : ∀ s, R0 ≤ s → f s ≤ C / (s * s ^ μ)) : ∫ s in R0..R, f s ≤ C / μ := by
  have h0 : (0 : ℝ) ∉ [[R0, R]] := by
    rw [uIcc_of_le hR]
    intro h0
    linarith [h0.1]
  have e : ∀ s, R0 ≤ s → C / (s * s ^ μ) = C * s ^ (-(1 + μ) : ℝ) := by
    intro s hs
    have hs0 : 0 < s := by linarith
    rw [div_eq_mul_inv, Real.rpow_neg hs0.le, Real.rpow_add hs0, Real.rpow_one]
  have hi : IntervalIntegrable (fun s : ℝ => C * s ^ (-(1 + μ) : ℝ)) volume R0 R := (intervalIntegral.intervalIntegrable_rpow (Or.inr h0)).const_mul C
  have h2 : ∫ s in R0..R, f s ≤ ∫ s in R0..R, C * s ^ (-(1 + μ) : ℝ) := intervalIntegral.integral_mono_on hR hf hi fun s hs => (h s hs.1).trans (e s hs.1).le
  refine h2.trans ?_
  rw [intervalIntegral.integral_const_mul, integral_rpow (Or.inr ⟨by linarith, h0⟩)]
  rw [show (-(1 + μ) + 1 : ℝ) = -μ by ring]
  have e1 : R0 ^ (-μ : ℝ) ≤ 1 := Real.rpow_le_one_of_one_le_of_nonpos h1 (by linarith)
  have e2 : 0 ≤ R ^ (-μ : ℝ) := Real.rpow_nonneg (by linarith) _
  rw [div_neg, ← neg_div, ← mul_div_assoc]
  gcongr
  nlinarith

/-- the primitives are bounded, whatever the length of the segment -/
theorem pri_bounded (hκ : 0 < κ) (hκ1 : κ < 1) (hξ : InjOn ξ (Iio n)) (hn : 0 < n) {μ : ℝ} (hng : (g : ℝ) + μ ≤ κ * n) (hμ : 0 < μ) : ∃ M, ∀ R ε : ℝ, 1 ≤ R → (∀ k < n, 2 * |ξ k| ≤ R) → 0 ≤ ε → ε ≤ 1 → (∫ s in (-R)..R, ‖dif κ n ξ a (s + ε * I)‖) ≤ M ∧ ∀ x ∈ Icc (-R) R, ‖pri κ n ξ a R ε x‖ ≤ M := by
  obtain ⟨C, hC, hfar⟩ := dif_far (ξ := ξ) (a := a) hκ hng hμ
  obtain ⟨R0, h1, hR0⟩ : ∃ R0 : ℝ, 1 ≤ R0 ∧ ∀ k < n, 2 * |ξ k| ≤ R0 := by
    refine ⟨1 + ∑ k ∈ Finset.range n, 2 * |ξ k|, by have : 0 ≤ ∑ k ∈ Finset.range n, 2 * |ξ k| := by positivity
                                                    linarith, fun k hk => ?_⟩
    have := Finset.single_le_sum (f := fun k => 2 * |ξ k|) (fun i _ => by positivity) (Finset.mem_range.2 hk)
    linarith
  refine ⟨(∫ s in (-R0)..R0, (∑ i, |a i| * (R0 + 1) ^ i.val) * (1 / absf n ξ s ^ κ)) + 2 * (C / μ), fun R ε hR hRξ h0 hε => ?_⟩
  suffices hS : (∫ s in (-R)..R, ‖dif κ n ξ a (s + ε * I)‖) ≤ (∫ s in (-R0)..R0, (∑ i, |a i| * (R0 + 1) ^ i.val) * (1 / absf n ξ s ^ κ)) + 2 * (C / μ) from ⟨hS, fun x hx => (pri_le hκ hκ1 hξ hn h0 hε hx).trans hS⟩
  have hint : ∀ u v, IntervalIntegrable (fun s : ℝ => ‖dif κ n ξ a (s + ε * I)‖) volume u v := fun u v => (dif_integrable hκ hκ1 hξ hn h0 hε u v).norm
  set f : ℝ → ℝ := fun s => ‖dif κ n ξ a (s + ε * I)‖ with hf
  have hpos : ∀ s, 0 ≤ f s := fun s => norm_nonneg _
  have hbig : ∫ s in (-R)..R, f s ≤ ∫ s in (-max R R0)..(max R R0), f s :=
    intervalIntegral.integral_mono_interval (neg_le_neg (le_max_left _ _)) (by linarith) (le_max_left _ _) (Eventually.of_forall hpos) (hint _ _)
  set T := max R R0 with hT
  have hT0 : R0 ≤ T := le_max_right _ _
  have hsplit : ∫ s in (-T)..T, f s = (∫ s in (-T)..(-R0), f s) + (∫ s in (-R0)..R0, f s) + ∫ s in R0..T, f s := by
    rw [intervalIntegral.integral_add_adjacent_intervals (hint _ _) (hint _ _), intervalIntegral.integral_add_adjacent_intervals (hint _ _) (hint _ _)]
  have hf1 : ∀ s, R0 ≤ |s| → f s ≤ C / (|s| * |s| ^ μ) := by
    intro s hs
    exact hfar |s| _ (by linarith) (fun k hk => (hR0 k hk).trans hs) (far_norm _ _ (Or.inl le_rfl))
  have t1 : ∫ s in R0..T, f s ≤ C / μ := tail_le hμ hC h1 hT0 (hint _ _) fun s hs => by
    have := hf1 s (hs.trans (le_abs_self s))
    rwa [abs_of_nonneg (by linarith)] at this
  have t2 : ∫ s in (-T)..(-R0), f s ≤ C / μ := by
    rw [← intervalIntegral.integral_comp_neg]
    refine tail_le hμ hC h1 hT0 ?_ fun s hs => ?_
    · have := (hint (-T) (-R0)).comp_sub_left 0
      simpa using this.symm
    · have := hf1 (-s) (by rw [abs_neg]; exact hs.trans (le_abs_self s))
      rwa [abs_neg, abs_of_nonneg (by linarith)] at this
  have t3 := norm_int_le (a := a) hκ hκ1 hξ hn (by linarith : (0 : ℝ) ≤ R0) h0 hε
  linarith

/-- **Relations on the real line**: integrals of `F_a`, of `U_a dU_b`. -/
theorem line_small (hκ : 0 < κ) (hκ1 : κ < 1) (hκ' : 0 < κ') (hκ1' : κ' < 1) (hξ : InjOn ξ (Iio n)) (hn : 0 < n) {μ : ℝ} (hng : (g : ℝ) + μ ≤ κ * n) (hng' : (g' : ℝ) + μ ≤ κ' * n) (hμ : 0 < μ) (a : Fin g → ℝ) (b : Fin g' → ℝ) : ∃ K, ∀ R, 2 ≤ R → (∀ k < n, 2 * |ξ k| ≤ R) →
    ‖pri κ n ξ a R 0 R‖ ≤ K / R ^ μ ∧ ‖∫ x in (-R)..R, pri κ n ξ a R 0 x * dif κ' n ξ b x‖ ≤ K / R ^ μ := by
  obtain ⟨C1, hC1, hfar1⟩ := dif_far (ξ := ξ) (a := a) hκ hng hμ
  obtain ⟨C2, hC2, hfar2⟩ := dif_far (ξ := ξ) (a := b) hκ' hng' hμ
  obtain ⟨M, hM⟩ := pri_bounded (a := a) hκ hκ1 hξ hn hng hμ
  set C := max C1 C2 with hC
  have hC0 : 0 ≤ C := hC1.trans (le_max_left _ _)
  have hF : ∀ (z : ℂ), 0 < z.im → DifferentiableAt ℂ (dif κ n ξ a) z := fun z hz => differentiableAt_dif hκ (Or.inl hz)
  have hF' : ∀ (z : ℂ), 0 < z.im → DifferentiableAt ℂ (dif κ' n ξ b) z := fun z hz => differentiableAt_dif hκ' (Or.inl hz)
  refine ⟨max (4 * C) (4 * ((M + 3 * C) * C)), fun R hR hRξ => ?_⟩
  have hR0 : 0 < R := by linarith
  have hs : 1 ≤ R ^ μ := Real.one_le_rpow (by linarith) hμ.le
  have hs0 : 0 < R ^ μ := by linarith
  set B := C / (R * R ^ μ) with hB
  have hRB : R * B = C / R ^ μ := by rw [hB]; field_simp
  have hRBC : R * B ≤ C := by rw [hRB]; exact div_le_self hC0 hs
  have hB1 : ∀ z : ℂ, R ≤ ‖z‖ → ‖dif κ n ξ a z‖ ≤ B := fun z hz => (hfar1 R z (by linarith) hRξ hz).trans (by rw [hB]; gcongr; exact le_max_left _ _)
  have hB2 : ∀ z : ℂ, R ≤ ‖z‖ → ‖dif κ' n ξ b z‖ ≤ B := fun z hz => (hfar2 R z (by linarith) hRξ hz).trans (by rw [hB]; gcongr; exact le_max_right _ _)
  have hM' : ∀ ε : ℝ, 0 < ε → ε ≤ 1 → ∀ x ∈ Icc (-R) R, ‖pri κ n ξ a R ε x‖ ≤ M := fun ε h0 h1 => (hM R ε (by linarith) hRξ h0.le h1).2
  have hM0 : 0 ≤ M := (norm_nonneg _).trans (hM' 1 one_pos le_rfl R ⟨by linarith, le_rfl⟩)
  refine ⟨?_, ?_⟩
  · refine le_of_tendsto (pri_tendsto (a := a) hκ hκ1 hξ hn (R := R) (x := R) ⟨by linarith, le_rfl⟩).norm ?_
    filter_upwards [small_eps] with ε hε
    refine (cauchy_one hF hε.1 (by linarith) hB1).trans ?_
    rw [mul_assoc, hRB, ← mul_div_assoc]
    gcongr
    exact le_max_left _ _
  · have ht := bil_tendsto (a := a) (b := b) hκ hκ1 hκ' hκ1' hξ hn hR0.le (c := fun z => z) continuous_id fun z => rfl
    refine le_of_tendsto ht.norm ?_
    filter_upwards [small_eps] with ε hε
    refine (cauchy_le hF hF' hε.1 (by linarith) hB1 hB2 (hM' ε hε.1 hε.2)).trans ?_
    have : 4 * R * ((M + 3 * (R * B)) * B) = 4 * ((M + 3 * (R * B)) * C) / R ^ μ := by
      rw [mul_assoc, ← mul_assoc R, mul_comm R, mul_assoc _ R B, hRB]
      ring
    rw [this]
    gcongr
    refine le_trans ?_ (le_max_right _ _)
    gcongr

end

end Hcp.PowPlane
