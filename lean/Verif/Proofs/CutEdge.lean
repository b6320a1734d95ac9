import Verif.Proofs.CutOm
import Verif.Proofs.CutAlgebra

/-!
# Integrals along straight paths through the horizontal cuts
-/

namespace Hcp.Cut
open Complex Set MeasureTheory Filter Topology

/-- a straight path, parametrised by the height -/
noncomputable def path (p q : ℝ) (s : ℝ) : ℂ := ((p * s + q : ℝ) : ℂ) + s * I

/-- a form which is bounded by an integrable function of the real part -/
structure Dom (n : Nat) (ξ : Nat → ℝ) (ω : ℂ → ℂ) (H : ℝ → ℝ) : Prop where
  meas : Measurable ω
  le : ∀ t s : ℝ, (∀ k < n, t ≠ ξ k) → ‖ω (t + s * I)‖ ≤ H t

section
variable {n : Nat} {ξ η : Nat → ℝ} {ζ : ℂ} {ω : ℂ → ℂ} {H : ℝ → ℝ} {p q : ℝ}

theorem integrable_path (h : Cuts n ξ η ζ ω H) (hd : Dom n ξ ω H) (hp : p ≠ 0) : Integrable fun s => ω (path p q s) * ((p : ℂ) + I) := by
  refine Integrable.mul_const ?_ _
  have hH : Integrable fun s => H (p * s + q) := by
    have h1 : Integrable fun s => H (s + q) := h.tame.int.comp_add_right q
    exact h1.comp_mul_left' hp
  refine hH.mono' ?_ ?_
  · have : Measurable (path p q) := by unfold path; fun_prop
    exact (hd.meas.comp this).aestronglyMeasurable
  · filter_upwards [HalfPlane.ae_ne n fun k => (ξ k - q) / p] with s hs
    refine hd.le _ _ fun k hk e => hs k hk ?_
    rw [← e]
    field_simp
    ring

theorem hasDerivAt_path (s : ℝ) : HasDerivAt (path p q) ((p : ℂ) + I) s := by
  have h1 : HasDerivAt (fun s : ℝ => (p : ℂ) * s + q + s * I) ((p : ℂ) * 1 + 1 * I) s := by
    have := Complex.ofRealCLM.hasDerivAt (x := s)
    simp only [ofRealCLM_apply, ofReal_one] at this
    exact ((this.const_mul (p : ℂ)).add_const _).add (this.mul_const I)
  have e : path p q = fun s : ℝ => (p : ℂ) * s + q + s * I := by
    funext s
    unfold path
    push_cast
    ring
  rw [e]
  convert h1 using 1
  ring

theorem tendsto_slant (h : Cuts n ξ η ζ ω H) {l : Filter ℝ} {s0 : ℝ} (hl : l ≤ 𝓝 s0) {L : ℂ} (hv : Tendsto (fun s => prim (line ω s) (p * s0 + q)) l (𝓝 L)) :
    Tendsto (fun s => pr ω (path p q s)) l (𝓝 L) := by
  have e : ∀ s, pr ω (path p q s) = prim (line ω s) (p * s0 + q) + ∫ τ in (p * s0 + q)..(p * s + q), line ω s τ := by
    intro s
    unfold path
    rw [pr_mk, ← prim_sub (h.tame.integrable s)]
    ring
  simp only [e]
  rw [← add_zero L]
  refine hv.add ?_
  have hc : Continuous fun u => ∫ τ in (p * s0 + q)..u, H τ := intervalIntegral.continuous_primitive (fun a b => h.tame.int.intervalIntegrable) _
  have hc2 : Tendsto (fun s => |∫ τ in (p * s0 + q)..(p * s + q), H τ|) l (𝓝 0) := by
    have h1 : Continuous fun s : ℝ => |∫ τ in (p * s0 + q)..(p * s + q), H τ| := (hc.comp (by fun_prop : Continuous fun s : ℝ => p * s + q)).abs
    have := (h1.tendsto s0).mono_left hl
    simpa using this
  refine squeeze_zero_norm (fun s => ?_) hc2
  exact intervalIntegral.norm_integral_le_abs_of_norm_le (ae_restrict_of_ae (h.tame.bd' s)) h.tame.int.intervalIntegrable

/-- **the integral across a strip** -/
theorem Cuts.piece (h : Cuts n ξ η ζ ω H) (hd : Dom n ξ ω H) (hη : Sorted n η) (hp : p ≠ 0) {k : Nat} (hk : k + 1 < n) :
    ∫ s in (η k)..(η (k + 1)), ω (path p q s) * ((p : ℂ) + I) = prim (under ξ η ζ ω (k + 1)) (p * η (k + 1) + q) - prim (line ω (η k)) (p * η k + q) := by
  have hlt : η k < η (k + 1) := hη k (k + 1) (by omega) hk
  refine intervalIntegral.integral_eq_sub_of_hasDerivAt_of_tendsto hlt (f := fun s => pr ω (path p q s)) (fun s hs => ?_) (integrable_path h hd hp).intervalIntegrable ?_ ?_
  · have him : (path p q s).im = s := by unfold path; simp
    have h1 := h.tame.hasDerivAt (h.holo_strip hη hk) (z0 := path p q s) (by rw [him]; exact hs)
    exact HasDerivAt.comp s h1 (hasDerivAt_path s)
  · exact tendsto_slant h nhdsWithin_le_nhds (h.prim_above (by omega) _)
  · exact tendsto_slant h nhdsWithin_le_nhds (h.prim_below hη.inj hk _)

/-- an edge along a straight path -/
structure Along (n : Nat) (ξ η : Nat → ℝ) (p q : ℝ) (e : CEdge) : Prop where
  lt : e.lo < e.up
  top : e.up < n
  slope : p ≠ 0
  start : p * η e.lo + q = ξ e.lo
  stop : p * η e.up + q = ξ e.up
  right : ∀ k, e.lo < k → k < e.up → e.R k → p * η k + q < ξ k
  left : ∀ k, e.lo < k → k < e.up → ¬ e.R k → ξ k < p * η k + q

theorem Along.partial_sum {e : CEdge} (he : Along n ξ η p q e) (h : Cuts n ξ η ζ ω H) (hd : Dom n ξ ω H) (hη : Sorted n η) (j : Nat) (h1 : e.lo < j) (h2 : j ≤ e.up) :
    ∑ k ∈ Finset.Ico e.lo j, ζ ^ e.rc (k + 1) * ∫ s in (η k)..(η (k + 1)), ω (path p q s) * ((p : ℂ) + I) =
      ζ ^ e.rc j * prim (under ξ η ζ ω j) (p * η j + q) - Av ξ η ω e.lo + (open scoped Classical in ∑ k ∈ Finset.Ioo e.lo j, (if e.R k then 0 else -ζ ^ e.rc k) * ((1 - ζ) * Av ξ η ω k)) := by
  classical
  have htop := he.top
  induction j, h1 using Nat.le_induction with
  | base =>
    have e1 : Finset.Ico e.lo (e.lo + 1) = {e.lo} := by ext k; simp only [Finset.mem_Ico, Finset.mem_singleton]; omega
    have e2 : Finset.Ioo e.lo (e.lo + 1) = ∅ := by ext k; simp only [Finset.mem_Ioo, Finset.notMem_empty, iff_false]; omega
    rw [show e.lo.succ = e.lo + 1 from rfl, e1, e2, Finset.sum_singleton, Finset.sum_empty, h.piece hd hη he.slope (by omega), he.start, CEdge.rc_lo]
    unfold Av
    ring
  | succ j hj ih =>
    have hj' : e.lo < j := hj
    have e1 : Finset.Ico e.lo (j + 1) = insert j (Finset.Ico e.lo j) := by ext k; simp only [Finset.mem_Ico, Finset.mem_insert]; omega
    have e2 : Finset.Ioo e.lo (j + 1) = insert j (Finset.Ioo e.lo j) := by ext k; simp only [Finset.mem_Ioo, Finset.mem_insert]; omega
    rw [e1, e2, Finset.sum_insert (by simp), Finset.sum_insert (by simp), ih (by omega), h.piece hd hη he.slope (by omega), e.rc_succ hj']
    by_cases hR : e.R j
    · rw [if_pos hR, if_pos hR, prim_under_le (he.right j hj' (by omega) hR).le, pow_succ]
      ring
    · rw [if_neg hR, if_neg hR, prim_under_ge (h.tame.integrable _) (he.left j hj' (by omega) hR).le, add_zero]
      ring

/-- **the integral along an edge** -/
theorem Along.sum {e : CEdge} (he : Along n ξ η p q e) (h : Cuts n ξ η ζ ω H) (hd : Dom n ξ ω H) (hη : Sorted n η) (h1 : ζ ≠ 1) :
    ∑ k ∈ Finset.Ico e.lo e.up, ζ ^ e.rc (k + 1) * ∫ s in (η k)..(η (k + 1)), ω (path p q s) * ((p : ℂ) + I) = ∑ v ∈ Finset.range n, bvec ζ e v * ((1 - ζ) * Av ξ η ω v) := by
  classical
  have hlt := he.lt
  have htop := he.top
  have h2 : 1 - ζ ≠ 0 := sub_ne_zero.2 (Ne.symm h1)
  rw [he.partial_sum h hd hη e.up hlt le_rfl, he.stop, prim_under_le le_rfl]
  have hsub : Finset.Icc e.lo e.up ⊆ Finset.range n := fun k hk => by simp only [Finset.mem_Icc, Finset.mem_range] at *; omega
  rw [← Finset.sum_subset hsub fun k _ hk => ?_]
  · have e3 : Finset.Icc e.lo e.up = insert e.lo (insert e.up (Finset.Ioo e.lo e.up)) := by
      ext k; simp only [Finset.mem_Icc, Finset.mem_Ioo, Finset.mem_insert]; omega
    rw [e3, Finset.sum_insert (by simp; omega), Finset.sum_insert (by simp)]
    have e4 : ∑ k ∈ Finset.Ioo e.lo e.up, bvec ζ e k * ((1 - ζ) * Av ξ η ω k) = ∑ k ∈ Finset.Ioo e.lo e.up, (if e.R k then 0 else -ζ ^ e.rc k) * ((1 - ζ) * Av ξ η ω k) := by
      refine Finset.sum_congr rfl fun k hk => ?_
      obtain ⟨k1, k2⟩ := Finset.mem_Ioo.1 hk
      congr 1
      unfold bvec
      rw [if_neg (by omega), if_neg (by omega)]
      by_cases hR : e.R k
      · rw [if_neg fun q => q.2.2 hR, if_pos hR]
      · rw [if_pos ⟨k1, k2, hR⟩, if_neg hR]
    have e5 : bvec ζ e e.lo = -1 / (1 - ζ) := by unfold bvec; rw [if_pos rfl]
    have e6 : bvec ζ e e.up = ζ ^ e.rc e.up * ζ / (1 - ζ) := by unfold bvec; rw [if_neg (by omega), if_pos rfl]
    rw [e4, e5, e6]
    unfold Av
    field_simp
    ring_nf
  · have : bvec ζ e k = 0 := by
      simp only [Finset.mem_Icc] at hk
      unfold bvec
      rw [if_neg (by omega), if_neg (by omega), if_neg (by omega)]
    rw [this, zero_mul]

end

end Hcp.Cut
