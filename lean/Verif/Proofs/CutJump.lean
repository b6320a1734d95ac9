import Verif.Proofs.StripGreen

/-!
# Relations between the integrals along horizontal cuts
-/

namespace Hcp.Cut
open Complex Set MeasureTheory Filter Topology Interval

/-- a function on the plane cut along the half lines to the left of the points `ξ k + i η k`, multiplied by `ζ⁻¹` when a cut is crossed upwards -/
structure Cuts (n : Nat) (ξ η : Nat → ℝ) (ζ : ℂ) (ω : ℂ → ℂ) (H : ℝ → ℝ) : Prop where
  tame : Tame ω H
  holo : ∀ z : ℂ, (∀ k < n, z.im ≠ η k ∨ ξ k < z.re) → DifferentiableAt ℂ ω z
  above : ∀ k < n, ∀ t ≠ ξ k, Tendsto (fun s => line ω s t) (𝓝[>] (η k)) (𝓝 (line ω (η k) t))
  below : ∀ k < n, ∀ t < ξ k, Tendsto (fun s => line ω s t) (𝓝[<] (η k)) (𝓝 (ζ * line ω (η k) t))

/-- integral along a cut -/
noncomputable def Av (ξ η : Nat → ℝ) (ω : ℂ → ℂ) (k : Nat) : ℂ := prim (line ω (η k)) (ξ k)

/-- integral to the right of a point -/
noncomputable def Qv (ξ η : Nat → ℝ) (ω : ℂ → ℂ) (k : Nat) : ℂ := ∫ t in Ioi (ξ k), line ω (η k) t

/-- values just below a line -/
noncomputable def under (ξ η : Nat → ℝ) (ζ : ℂ) (ω : ℂ → ℂ) (k : Nat) (t : ℝ) : ℂ := (if t ≤ ξ k then ζ else 1) * line ω (η k) t

section
variable {n : Nat} {ξ η : Nat → ℝ} {ζ ζ' : ℂ} {ω ω' : ℂ → ℂ} {H H' : ℝ → ℝ}

theorem ae_ne1 (a : ℝ) : ∀ᵐ x : ℝ, x ≠ a := by simp [ae_iff]

theorem Cuts.above_ae (h : Cuts n ξ η ζ ω H) {k : Nat} (hk : k < n) : ∀ᵐ t, Tendsto (fun s => line ω s t) (𝓝[>] (η k)) (𝓝 (line ω (η k) t)) := by
  filter_upwards [ae_ne1 (ξ k)] with t ht using h.above k hk t ht

theorem Cuts.right (h : Cuts n ξ η ζ ω H) (hη : InjOn η (Iio n)) {k : Nat} (hk : k < n) {t : ℝ} (ht : ξ k < t) : ContinuousAt (fun s => line ω s t) (η k) := by
  have : DifferentiableAt ℂ ω (t + η k * I) := h.holo _ fun j hj => by
    by_cases e : j = k
    · subst e
      right; simpa using ht
    · left
      intro q
      exact e (hη (mem_Iio.2 hj) (mem_Iio.2 hk) (by simpa using q.symm))
  exact ContinuousAt.comp (g := ω) (f := fun s : ℝ => (t : ℂ) + s * I) this.continuousAt (by fun_prop)

theorem Cuts.below_ae (h : Cuts n ξ η ζ ω H) (hη : InjOn η (Iio n)) {k : Nat} (hk : k < n) : ∀ᵐ t, Tendsto (fun s => line ω s t) (𝓝[<] (η k)) (𝓝 (under ξ η ζ ω k t)) := by
  filter_upwards [ae_ne1 (ξ k)] with t ht
  unfold under
  rcases lt_or_gt_of_ne ht with h1 | h1
  · rw [if_pos h1.le]
    exact h.below k hk t h1
  · rw [if_neg (by linarith), one_mul]
    exact (h.right hη hk h1).continuousWithinAt

theorem under_integrable (h : Integrable (line ω (η k))) : Integrable (under ξ η ζ ω k) := by
  have : under ξ η ζ ω k = fun t => (Iic (ξ k)).indicator (fun t => (ζ - 1) * line ω (η k) t) t + line ω (η k) t := by
    funext t
    unfold under
    by_cases ht : t ≤ ξ k
    · rw [if_pos ht, indicator_of_mem (mem_Iic.2 ht)]; ring
    · rw [if_neg ht, indicator_of_notMem (fun q => ht (mem_Iic.1 q))]; ring
  rw [this]
  exact ((h.const_mul _).indicator measurableSet_Iic).add h

theorem prim_under_le {k : Nat} {t : ℝ} (ht : t ≤ ξ k) : prim (under ξ η ζ ω k) t = ζ * prim (line ω (η k)) t := by
  unfold prim
  rw [← integral_const_mul]
  refine setIntegral_congr_fun measurableSet_Iic fun τ hτ => ?_
  simp only [under, if_pos ((mem_Iic.1 hτ).trans ht)]

theorem prim_under_ge {k : Nat} (hi : Integrable (line ω (η k))) {t : ℝ} (ht : ξ k ≤ t) : prim (under ξ η ζ ω k) t = prim (line ω (η k)) t - (1 - ζ) * Av ξ η ω k := by
  have h1 := prim_sub (under_integrable (ξ := ξ) (ζ := ζ) hi) (ξ k) t
  have h2 := prim_sub hi (ξ k) t
  have h3 : ∫ τ in (ξ k)..t, under ξ η ζ ω k τ = ∫ τ in (ξ k)..t, line ω (η k) τ := by
    refine intervalIntegral.integral_congr_ae (Eventually.of_forall fun τ hτ => ?_)
    rw [uIoc_of_le ht] at hτ
    simp only [under, if_neg (not_le.2 hτ.1), one_mul]
  rw [prim_under_le le_rfl, h3, ← h2] at h1
  unfold Av
  linear_combination h1

theorem tot_split {φ : ℝ → ℂ} (hφ : Integrable φ) (a : ℝ) : ∫ t, φ t = prim φ a + ∫ t in Ioi a, φ t :=
  (intervalIntegral.integral_Iic_add_Ioi hφ.integrableOn hφ.integrableOn).symm

theorem tot_line {k : Nat} (hi : Integrable (line ω (η k))) : ∫ t, line ω (η k) t = Av ξ η ω k + Qv ξ η ω k := tot_split hi _

theorem tot_under {k : Nat} (hi : Integrable (line ω (η k))) : ∫ t, under ξ η ζ ω k t = ζ * Av ξ η ω k + Qv ξ η ω k := by
  rw [tot_split (under_integrable hi) (ξ k), prim_under_le le_rfl]
  congr 1
  refine setIntegral_congr_fun measurableSet_Ioi fun τ hτ => ?_
  simp only [under, if_neg (not_le.2 (mem_Ioi.1 hτ)), one_mul]

theorem bil_under {c : ℂ →+* ℂ} (hc : Continuous c) (hn : ∀ z, ‖c z‖ = ‖z‖) (hcz : c ζ * ζ' = 1) {k : Nat} (hi : Integrable (line ω (η k))) (hi' : Integrable (line ω' (η k))) :
    bil c (under ξ η ζ ω k) (under ξ η ζ' ω' k) = bil c (line ω (η k)) (line ω' (η k)) - c ((1 - ζ) * Av ξ η ω k) * Qv ξ η ω' k := by
  have i1 := bil_integrable hc hn (under_integrable (ξ := ξ) (ζ := ζ) hi) (under_integrable (ξ := ξ) (ζ := ζ') hi')
  have i2 := bil_integrable hc hn hi hi'
  unfold bil
  rw [tot_split i1 (ξ k), tot_split i2 (ξ k)]
  have e1 : prim (fun t => c (prim (under ξ η ζ ω k) t) * under ξ η ζ' ω' k t) (ξ k) = prim (fun t => c (prim (line ω (η k)) t) * line ω' (η k) t) (ξ k) := by
    refine setIntegral_congr_fun measurableSet_Iic fun τ hτ => ?_
    have hτ := mem_Iic.1 hτ
    rw [prim_under_le hτ, under, if_pos hτ, map_mul]
    linear_combination (c (prim (line ω (η k)) τ) * line ω' (η k) τ) * hcz
  have e2 : ∫ t in Ioi (ξ k), c (prim (under ξ η ζ ω k) t) * under ξ η ζ' ω' k t = ∫ t in Ioi (ξ k), (c (prim (line ω (η k)) t) * line ω' (η k) t - c ((1 - ζ) * Av ξ η ω k) * line ω' (η k) t) := by
    refine setIntegral_congr_fun measurableSet_Ioi fun τ hτ => ?_
    have hτ := mem_Ioi.1 hτ
    rw [prim_under_ge hi hτ.le, under, if_neg (not_le.2 hτ), map_sub]
    ring
  rw [e1, e2, integral_sub i2.integrableOn (hi'.const_mul _).integrableOn, integral_const_mul]
  unfold Qv
  ring

/-! ### limits at the heights -/

theorem Cuts.lim_above (h : Cuts n ξ η ζ ω H) {k : Nat} (hk : k < n) : Tendsto (fun s => ∫ t, line ω s t) (𝓝[>] (η k)) (𝓝 (∫ t, line ω (η k) t)) :=
  tot_tendsto (Eventually.of_forall h.tame.meas) (Eventually.of_forall h.tame.bd') h.tame.int (h.above_ae hk)

theorem Cuts.lim_below (h : Cuts n ξ η ζ ω H) (hη : InjOn η (Iio n)) {k : Nat} (hk : k < n) : Tendsto (fun s => ∫ t, line ω s t) (𝓝[<] (η k)) (𝓝 (∫ t, under ξ η ζ ω k t)) :=
  tot_tendsto (Eventually.of_forall h.tame.meas) (Eventually.of_forall h.tame.bd') h.tame.int (h.below_ae hη hk)

theorem Cuts.prim_above (h : Cuts n ξ η ζ ω H) {k : Nat} (hk : k < n) (t : ℝ) : Tendsto (fun s => prim (line ω s) t) (𝓝[>] (η k)) (𝓝 (prim (line ω (η k)) t)) :=
  prim_tendsto (Eventually.of_forall h.tame.meas) (Eventually.of_forall h.tame.bd') h.tame.int (h.above_ae hk) t

theorem Cuts.prim_below (h : Cuts n ξ η ζ ω H) (hη : InjOn η (Iio n)) {k : Nat} (hk : k < n) (t : ℝ) : Tendsto (fun s => prim (line ω s) t) (𝓝[<] (η k)) (𝓝 (prim (under ξ η ζ ω k) t)) :=
  prim_tendsto (Eventually.of_forall h.tame.meas) (Eventually.of_forall h.tame.bd') h.tame.int (h.below_ae hη hk) t

theorem Cuts.bil_above (h : Cuts n ξ η ζ ω H) (h' : Cuts n ξ η ζ' ω' H') {c : ℂ → ℂ} (hc : Continuous c) (hn : ∀ z, ‖c z‖ = ‖z‖) {k : Nat} (hk : k < n) :
    Tendsto (fun s => bil c (line ω s) (line ω' s)) (𝓝[>] (η k)) (𝓝 (bil c (line ω (η k)) (line ω' (η k)))) :=
  bil_tendsto hc hn (Eventually.of_forall h.tame.meas) (Eventually.of_forall h.tame.bd') h.tame.int h.tame.nn (h.above_ae hk) (Eventually.of_forall h'.tame.meas) (Eventually.of_forall h'.tame.bd') h'.tame.int (h'.above_ae hk)

theorem Cuts.bil_below (h : Cuts n ξ η ζ ω H) (h' : Cuts n ξ η ζ' ω' H') (hη : InjOn η (Iio n)) {c : ℂ → ℂ} (hc : Continuous c) (hn : ∀ z, ‖c z‖ = ‖z‖) {k : Nat} (hk : k < n) :
    Tendsto (fun s => bil c (line ω s) (line ω' s)) (𝓝[<] (η k)) (𝓝 (bil c (under ξ η ζ ω k) (under ξ η ζ' ω' k))) :=
  bil_tendsto hc hn (Eventually.of_forall h.tame.meas) (Eventually.of_forall h.tame.bd') h.tame.int h.tame.nn (h.below_ae hη hk) (Eventually.of_forall h'.tame.meas) (Eventually.of_forall h'.tame.bd') h'.tame.int (h'.below_ae hη hk)

/-! ### from strip to strip -/

/-- heights in increasing order -/
def Sorted (n : Nat) (η : Nat → ℝ) : Prop := ∀ i j, i < j → j < n → η i < η j

theorem Sorted.inj (h : Sorted n η) : InjOn η (Iio n) := by
  intro i hi j hj e
  rcases lt_trichotomy i j with q | q | q
  · exact absurd e (h i j q hj).ne
  · exact q
  · exact absurd e (h j i q hi).ne'

theorem Sorted.strip (h : Sorted n η) {k : Nat} (hk : k + 1 < n) {j : Nat} (hj : j < n) {s : ℝ} (hs : s ∈ Ioo (η k) (η (k + 1))) : s ≠ η j := by
  rintro rfl
  rcases Nat.lt_trichotomy j k with q | q | q
  · exact absurd hs.1 (not_lt.2 (h j k q (by omega)).le)
  · subst q; exact lt_irrefl _ hs.1
  · rcases Nat.lt_or_ge (k + 1) j with q | q
    · exact absurd hs.2 (not_lt.2 (h _ _ q hj).le)
    · obtain rfl : j = k + 1 := by omega
      exact lt_irrefl _ hs.2

theorem Sorted.bottom (h : Sorted n η) {j : Nat} (hj : j < n) {s : ℝ} (hs : s < η 0) : s ≠ η j := by
  rintro rfl
  rcases Nat.eq_zero_or_pos j with rfl | q
  · exact lt_irrefl _ hs
  · exact absurd hs (not_lt.2 (h 0 j q hj).le)

theorem Sorted.top (h : Sorted n η) {j : Nat} (hj : j < n) {s : ℝ} (hs : η (n - 1) < s) : s ≠ η j := by
  rintro rfl
  rcases Nat.lt_or_ge j (n - 1) with q | q
  · exact absurd hs (not_lt.2 (h j (n - 1) q (by omega)).le)
  · obtain rfl : j = n - 1 := by omega
    exact lt_irrefl _ hs

theorem Cuts.holo_strip (h : Cuts n ξ η ζ ω H) (hη : Sorted n η) {k : Nat} (hk : k + 1 < n) : Holo ω (η k) (η (k + 1)) :=
  fun z hz => h.holo z fun _ hj => Or.inl (hη.strip hk hj hz)

theorem Cuts.holo_bottom (h : Cuts n ξ η ζ ω H) (hη : Sorted n η) (a : ℝ) : Holo ω a (η 0) :=
  fun z hz => h.holo z fun _ hj => Or.inl (hη.bottom hj hz.2)

theorem Cuts.holo_top (h : Cuts n ξ η ζ ω H) (hη : Sorted n η) (a : ℝ) : Holo ω (η (n - 1)) a :=
  fun z hz => h.holo z fun _ hj => Or.inl (hη.top hj hz.1)

theorem abs_atBot : Tendsto (fun s : ℝ => |s|) atBot atTop := tendsto_abs_atBot_atTop
theorem abs_atTop : Tendsto (fun s : ℝ => |s|) atTop atTop := tendsto_abs_atTop_atTop

/-- a function constant on an interval has equal limits at its ends -/
theorem strip_eq {f : ℝ → ℂ} {a b : ℝ} (hab : a < b) (hf : ∀ s1 ∈ Ioo a b, ∀ s2 ∈ Ioo a b, f s1 = f s2) {u v : ℂ} (hu : Tendsto f (𝓝[>] a) (𝓝 u)) (hv : Tendsto f (𝓝[<] b) (𝓝 v)) : u = v := by
  have hm : (a + b) / 2 ∈ Ioo a b := ⟨by linarith, by linarith⟩
  have h1 : f =ᶠ[𝓝[>] a] fun _ => f ((a + b) / 2) := by
    filter_upwards [Ioo_mem_nhdsGT hab] with s hs using hf _ hs _ hm
  have h2 : f =ᶠ[𝓝[<] b] fun _ => f ((a + b) / 2) := by
    filter_upwards [Ioo_mem_nhdsLT hab] with s hs using hf _ hs _ hm
  rw [tendsto_nhds_unique hu ((tendsto_congr' h1).2 tendsto_const_nhds), tendsto_nhds_unique hv ((tendsto_congr' h2).2 tendsto_const_nhds)]

theorem bottom_eq {f : ℝ → ℂ} {b : ℝ} (hf : ∀ s1 < b, ∀ s2 < b, f s1 = f s2) {v : ℂ} (hu : Tendsto f atBot (𝓝 0)) (hv : Tendsto f (𝓝[<] b) (𝓝 v)) : v = 0 := by
  have hm : b - 1 < b := by linarith
  have h1 : f =ᶠ[atBot] fun _ => f (b - 1) := by
    filter_upwards [eventually_lt_atBot b] with s hs using hf _ hs _ hm
  have h2 : f =ᶠ[𝓝[<] b] fun _ => f (b - 1) := by
    filter_upwards [self_mem_nhdsWithin] with s hs using hf _ hs _ hm
  rw [tendsto_nhds_unique hv ((tendsto_congr' h2).2 tendsto_const_nhds), tendsto_nhds_unique hu ((tendsto_congr' h1).2 tendsto_const_nhds)]

theorem top_eq {f : ℝ → ℂ} {b : ℝ} (hf : ∀ s1 > b, ∀ s2 > b, f s1 = f s2) {v : ℂ} (hu : Tendsto f atTop (𝓝 0)) (hv : Tendsto f (𝓝[>] b) (𝓝 v)) : v = 0 := by
  have hm : b + 1 > b := by linarith
  have h1 : f =ᶠ[atTop] fun _ => f (b + 1) := by
    filter_upwards [eventually_gt_atTop b] with s hs using hf _ hs _ hm
  have h2 : f =ᶠ[𝓝[>] b] fun _ => f (b + 1) := by
    filter_upwards [self_mem_nhdsWithin] with s hs using hf _ hs _ hm
  rw [tendsto_nhds_unique hv ((tendsto_congr' h2).2 tendsto_const_nhds), tendsto_nhds_unique hu ((tendsto_congr' h1).2 tendsto_const_nhds)]

theorem Cuts.under_sum (h : Cuts n ξ η ζ ω H) (hη : Sorted n η) {k : Nat} (hk : k < n) : ζ * Av ξ η ω k + Qv ξ η ω k = (1 - ζ) * ∑ j ∈ Finset.range k, Av ξ η ω j := by
  have hi := fun j => h.tame.integrable (η j)
  induction k with
  | zero =>
    rw [← tot_under (hi 0), Finset.sum_range_zero, mul_zero]
    refine bottom_eq (b := η 0) (fun s1 h1 s2 h2 => ?_) (h.tame.tot_zero abs_atBot) (h.lim_below hη.inj hk)
    exact h.tame.tot_const (h.holo_bottom hη (min s1 s2 - 1)) ⟨by linarith [min_le_left s1 s2], h1⟩ ⟨by linarith [min_le_right s1 s2], h2⟩
  | succ k ih =>
    have e : ∫ t, line ω (η k) t = ∫ t, under ξ η ζ ω (k + 1) t := by
      refine strip_eq (hη k (k + 1) (by omega) hk) (fun s1 h1 s2 h2 => ?_) (h.lim_above (by omega)) (h.lim_below hη.inj hk)
      exact h.tame.tot_const (h.holo_strip hη hk) h1 h2
    rw [tot_line (ξ := ξ) (hi k), tot_under (hi (k + 1))] at e
    rw [Finset.sum_range_succ]
    linear_combination ih (by omega) - e

/-- **the integral to the right of a point** -/
theorem Cuts.Q_eq (h : Cuts n ξ η ζ ω H) (hη : Sorted n η) {k : Nat} (hk : k < n) : Qv ξ η ω k = (1 - ζ) * (∑ j ∈ Finset.range k, Av ξ η ω j) - ζ * Av ξ η ω k := by
  linear_combination h.under_sum hη hk

/-- **the sum of the integrals along the cuts** -/
theorem Cuts.sum_A (h : Cuts n ξ η ζ ω H) (hη : Sorted n η) (hz : ζ ≠ 1) : ∑ j ∈ Finset.range n, Av ξ η ω j = 0 := by
  rcases Nat.eq_zero_or_pos n with rfl | hn
  · simp
  have hk : n - 1 < n := by omega
  have e : ∫ t, line ω (η (n - 1)) t = 0 := by
    refine top_eq (b := η (n - 1)) (fun s1 h1 s2 h2 => ?_) (h.tame.tot_zero abs_atTop) (h.lim_above hk)
    exact h.tame.tot_const (h.holo_top hη (max s1 s2 + 1)) ⟨h1, by linarith [le_max_left s1 s2]⟩ ⟨h2, by linarith [le_max_right s1 s2]⟩
  rw [tot_line (ξ := ξ) (h.tame.integrable _), h.Q_eq hη hk] at e
  have e2 : (1 - ζ) * ∑ j ∈ Finset.range n, Av ξ η ω j = 0 := by
    conv_lhs => rw [show n = n - 1 + 1 by omega, Finset.sum_range_succ]
    linear_combination e
  exact (mul_eq_zero.1 e2).resolve_left (sub_ne_zero.2 (Ne.symm hz))

/-- **the bilinear relation** -/
theorem Cuts.bilinear (h : Cuts n ξ η ζ ω H) (h' : Cuts n ξ η ζ' ω' H') (hη : Sorted n η) (hz : ζ * ζ' = 1) : ∑ k ∈ Finset.range n, (1 - ζ) * Av ξ η ω k * Qv ξ η ω' k = 0 := by
  rcases Nat.eq_zero_or_pos n with rfl | hn
  · simp
  have hi := fun j => h.tame.integrable (η j)
  have hi' := fun j => h'.tame.integrable (η j)
  have hcst : ∀ {a b s1 s2 : ℝ}, Holo ω a b → Holo ω' a b → s1 ∈ Ioo a b → s2 ∈ Ioo a b → bil (RingHom.id ℂ) (line ω s1) (line ω' s1) = bil (RingHom.id ℂ) (line ω s2) (line ω' s2) :=
    fun ho ho' h1 h2 => h.tame.bil_const h'.tame ho ho' h1 h2
  have hc : Continuous (RingHom.id ℂ) := continuous_id
  have hn1 : ∀ z : ℂ, ‖RingHom.id ℂ z‖ = ‖z‖ := fun z => rfl
  have key : ∀ k < n, bil (RingHom.id ℂ) (line ω (η k)) (line ω' (η k)) = ∑ j ∈ Finset.range (k + 1), (1 - ζ) * Av ξ η ω j * Qv ξ η ω' j := by
    intro k
    induction k with
    | zero =>
      intro hk
      have e : bil (RingHom.id ℂ) (under ξ η ζ ω 0) (under ξ η ζ' ω' 0) = 0 := by
        refine bottom_eq (b := η 0) (fun s1 h1 s2 h2 => ?_) (h.tame.bil_zero h'.tame hc hn1 abs_atBot) (h.bil_below h' hη.inj hc hn1 hk)
        exact hcst (h.holo_bottom hη (min s1 s2 - 1)) (h'.holo_bottom hη (min s1 s2 - 1)) ⟨by linarith [min_le_left s1 s2], h1⟩ ⟨by linarith [min_le_right s1 s2], h2⟩
      rw [bil_under hc hn1 hz (hi 0) (hi' 0)] at e
      rw [Finset.sum_range_one]
      simp only [RingHom.id_apply] at e
      linear_combination e
    | succ k ih =>
      intro hk
      have e : bil (RingHom.id ℂ) (line ω (η k)) (line ω' (η k)) = bil (RingHom.id ℂ) (under ξ η ζ ω (k + 1)) (under ξ η ζ' ω' (k + 1)) :=
        strip_eq (hη k (k + 1) (by omega) hk) (fun s1 h1 s2 h2 => hcst (h.holo_strip hη hk) (h'.holo_strip hη hk) h1 h2) (h.bil_above h' hc hn1 (by omega)) (h.bil_below h' hη.inj hc hn1 hk)
      rw [bil_under hc hn1 hz (hi _) (hi' _), ih (by omega)] at e
      rw [Finset.sum_range_succ]
      simp only [RingHom.id_apply] at e
      linear_combination -e
  have hk : n - 1 < n := by omega
  have e : bil (RingHom.id ℂ) (line ω (η (n - 1))) (line ω' (η (n - 1))) = 0 := by
    refine top_eq (b := η (n - 1)) (fun s1 h1 s2 h2 => ?_) (h.tame.bil_zero h'.tame hc hn1 abs_atTop) (h.bil_above h' hc hn1 hk)
    exact hcst (h.holo_top hη (max s1 s2 + 1)) (h'.holo_top hη (max s1 s2 + 1)) ⟨h1, by linarith [le_max_left s1 s2]⟩ ⟨h2, by linarith [le_max_right s1 s2]⟩
  rw [key _ hk, show n - 1 + 1 = n by omega] at e
  exact e

/-- the area form decreases in a strip -/
theorem Tame.anti {α β s1 s2 : ℝ} (h : Tame ω H) (ho : Holo ω α β) (h1 : s1 ∈ Ioo α β) (h2 : s2 ∈ Ioo α β) (hs : s1 ≤ s2) :
    (bil (starRingEnd ℂ) (line ω s2) (line ω s2)).im ≤ (bil (starRingEnd ℂ) (line ω s1) (line ω s1)).im := by
  have := h.green ho h1 h2 hs le_rfl
  simp at this
  exact this

/-- the area of a rectangle where the function does not vanish identically -/
theorem area_pos {α β : ℝ} (ho : Holo ω α β) {t0 s0 : ℝ} (hs0 : s0 ∈ Ioo α β) (hne : ω (t0 + s0 * I) ≠ 0) :
    ∃ s1 s2 R : ℝ, s1 ∈ Ioo α β ∧ s2 ∈ Ioo α β ∧ s1 ≤ s2 ∧ 0 ≤ R ∧ 0 < ∫ t in (-R)..R, ∫ y in s1..s2, ‖ω (t + y * I)‖ ^ 2 := by
  obtain ⟨s1, hs1, hs1'⟩ := exists_between hs0.1
  obtain ⟨s2, hs2, hs2'⟩ := exists_between hs0.2
  have m1 : s1 ∈ Ioo α β := ⟨hs1, hs1'.trans hs0.2⟩
  have m2 : s2 ∈ Ioo α β := ⟨hs0.1.trans hs2, hs2'⟩
  have hs : s1 ≤ s2 := (hs1'.trans hs2).le
  refine ⟨s1, s2, |t0| + 1, m1, m2, hs, by positivity, ?_⟩
  have hcontG : ContinuousOn (fun q : ℝ × ℝ => ‖ω ((q.1 : ℂ) + q.2 * I)‖ ^ 2) (univ ×ˢ [[s1, s2]]) := by
    rintro ⟨t, y⟩ ⟨-, hy⟩
    have k1 : ContinuousAt ω ((t : ℂ) + y * I) := (ho _ (by simpa using uIcc_strip m1 m2 hy)).continuousAt
    have k2 : ContinuousAt (fun q : ℝ × ℝ => ω ((q.1 : ℂ) + q.2 * I)) (t, y) :=
      ContinuousAt.comp (g := ω) (f := fun q : ℝ × ℝ => (q.1 : ℂ) + q.2 * I) k1 (by fun_prop)
    exact (k2.norm.pow 2).continuousWithinAt
  have hcontA : Continuous fun t : ℝ => ∫ y in s1..s2, ‖ω (t + y * I)‖ ^ 2 := by
    have e : ∀ t : ℝ, ∫ y in s1..s2, ‖ω (t + y * I)‖ ^ 2 = ∫ y in s1..s2, ‖ω (t + (projIcc s1 s2 hs y : ℝ) * I)‖ ^ 2 := by
      intro t
      refine intervalIntegral.integral_congr fun y hy => ?_
      rw [uIcc_of_le hs] at hy
      simp only [projIcc_of_mem hs hy]
    simp only [e]
    refine intervalIntegral.continuous_parametric_intervalIntegral_of_continuous' (f := fun t y => ‖ω ((t : ℝ) + (projIcc s1 s2 hs y : ℝ) * I)‖ ^ 2) ?_ _ _
    refine hcontG.comp_continuous (f := fun q : ℝ × ℝ => (q.1, (projIcc s1 s2 hs q.2 : ℝ))) ?_ ?_
    · exact continuous_fst.prodMk (continuous_subtype_val.comp (continuous_projIcc.comp continuous_snd))
    · rintro ⟨t, y⟩
      refine ⟨mem_univ _, ?_⟩
      rw [uIcc_of_le hs]
      exact (projIcc s1 s2 hs y).2
  have hR : -(|t0| + 1) < |t0| + 1 := by have := abs_nonneg t0; linarith
  refine intervalIntegral.integral_pos hR hcontA.continuousOn (fun t _ => intervalIntegral.integral_nonneg hs fun y _ => by positivity) ⟨t0, ⟨by linarith [neg_abs_le t0], by linarith [le_abs_self t0]⟩, ?_⟩
  refine intervalIntegral.integral_pos (hs1'.trans hs2) ?_ (fun y _ => by positivity) ⟨s0, ⟨hs1'.le, hs2.le⟩, by positivity⟩
  intro y hy
  have := hcontG (t0, y) ⟨mem_univ _, by rw [uIcc_of_le hs]; exact hy⟩
  refine this.comp (f := fun y => (t0, y)) (t := univ ×ˢ [[s1, s2]]) (by fun_prop) fun y hy => ⟨mem_univ _, by rw [uIcc_of_le hs]; exact hy⟩

/-- **positivity of the area** -/
theorem Cuts.positive (h : Cuts n ξ η ζ ω H) (hη : Sorted n η) (hn : 0 < n) (hz : ‖ζ‖ = 1) {t0 s0 : ℝ} (hs0 : η (n - 1) < s0) (hne : ω (t0 + s0 * I) ≠ 0) :
    0 < (∑ k ∈ Finset.range n, (starRingEnd ℂ) ((1 - ζ) * Av ξ η ω k) * Qv ξ η ω k).im := by
  have hi := fun j => h.tame.integrable (η j)
  have hc : Continuous (starRingEnd ℂ) := continuous_conj
  have hn1 : ∀ z : ℂ, ‖starRingEnd ℂ z‖ = ‖z‖ := fun z => norm_conj z
  have hz1 : (starRingEnd ℂ) ζ * ζ = 1 := by rw [mul_comm, mul_conj, normSq_eq_norm_sq, hz]; simp
  have him : ∀ {l : Filter ℝ} {v : ℂ}, Tendsto (fun s => bil (starRingEnd ℂ) (line ω s) (line ω s)) l (𝓝 v) → Tendsto (fun s => (bil (starRingEnd ℂ) (line ω s) (line ω s)).im) l (𝓝 v.im) :=
    fun hl => (continuous_im.tendsto _).comp hl
  have key : ∀ k < n, (bil (starRingEnd ℂ) (line ω (η k)) (line ω (η k))).im ≤ (∑ j ∈ Finset.range (k + 1), (starRingEnd ℂ) ((1 - ζ) * Av ξ η ω j) * Qv ξ η ω j).im := by
    intro k
    induction k with
    | zero =>
      intro hk
      have hall : ∀ s < η 0, (bil (starRingEnd ℂ) (line ω s) (line ω s)).im ≤ 0 := by
        intro s hs
        refine ge_of_tendsto (him (h.tame.bil_zero h.tame hc hn1 abs_atBot)) ?_
        filter_upwards [eventually_lt_atBot s] with s' hs'
        exact h.tame.anti (h.holo_bottom hη (s' - 1)) ⟨by linarith, hs'.trans hs⟩ ⟨by linarith, hs⟩ hs'.le
      have e : (bil (starRingEnd ℂ) (under ξ η ζ ω 0) (under ξ η ζ ω 0)).im ≤ 0 := by
        refine le_of_tendsto (him (h.bil_below h hη.inj hc hn1 hk)) ?_
        filter_upwards [self_mem_nhdsWithin] with s hs using hall s hs
      rw [bil_under hc hn1 hz1 (hi 0) (hi 0), sub_im] at e
      rw [Finset.sum_range_one]
      linarith
    | succ k ih =>
      intro hk
      have hlt := hη k (k + 1) (by omega) hk
      have hall : ∀ s ∈ Ioo (η k) (η (k + 1)), (bil (starRingEnd ℂ) (line ω s) (line ω s)).im ≤ (bil (starRingEnd ℂ) (line ω (η k)) (line ω (η k))).im := by
        intro s hs
        refine ge_of_tendsto (him (h.bil_above h hc hn1 (by omega))) ?_
        filter_upwards [Ioo_mem_nhdsGT hs.1] with s' hs'
        exact h.tame.anti (h.holo_strip hη hk) ⟨hs'.1, hs'.2.trans hs.2⟩ hs hs'.2.le
      have e : (bil (starRingEnd ℂ) (under ξ η ζ ω (k + 1)) (under ξ η ζ ω (k + 1))).im ≤ (bil (starRingEnd ℂ) (line ω (η k)) (line ω (η k))).im := by
        refine le_of_tendsto (him (h.bil_below h hη.inj hc hn1 hk)) ?_
        filter_upwards [Ioo_mem_nhdsLT hlt] with s hs using hall s hs
      rw [bil_under hc hn1 hz1 (hi _) (hi _), sub_im] at e
      rw [Finset.sum_range_succ, add_im]
      have := ih (by omega)
      linarith
  have hk : n - 1 < n := by omega
  have htop : ∀ s, η (n - 1) < s → 0 ≤ (bil (starRingEnd ℂ) (line ω s) (line ω s)).im := by
    intro s hs
    refine le_of_tendsto (him (h.tame.bil_zero h.tame hc hn1 abs_atTop)) ?_
    filter_upwards [eventually_gt_atTop s] with s' hs'
    exact h.tame.anti (h.holo_top hη (s' + 1)) ⟨hs, by linarith⟩ ⟨by linarith, by linarith⟩ hs'.le
  obtain ⟨s1, s2, R, m1, m2, hs, hR, hpos⟩ := area_pos (h.holo_top hη (s0 + 1)) (t0 := t0) ⟨hs0, by linarith⟩ hne
  have hg := h.tame.green (h.holo_top hη (s0 + 1)) m1 m2 hs hR
  have h2 := htop s2 m2.1
  have hge : (bil (starRingEnd ℂ) (line ω s1) (line ω s1)).im ≤ (bil (starRingEnd ℂ) (line ω (η (n - 1))) (line ω (η (n - 1)))).im := by
    refine ge_of_tendsto (him (h.bil_above h hc hn1 hk)) ?_
    filter_upwards [Ioo_mem_nhdsGT m1.1] with s' hs'
    exact h.tame.anti (h.holo_top hη (s0 + 1)) ⟨hs'.1, hs'.2.trans m1.2⟩ m1 hs'.2.le
  have h3 := key (n - 1) hk
  rw [show n - 1 + 1 = n by omega] at h3
  linarith

end

end Hcp.Cut
