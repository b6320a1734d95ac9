import Verif.Proofs.CutBranch
import Verif.Proofs.CutSpan
import Verif.Proofs.SuperCurve

/-!
# Directions of `y` at the ends of an edge
-/

namespace Hcp.Cut
open Complex Set MeasureTheory Filter Topology Spec

/-- the other factors at a branch point -/
noncomputable def Gv (m n : Nat) (y : Nat → ℂ) (v : Nat) : ℂ := ∏ k ∈ (Finset.range n).erase v, (y v - y k) ^ ((m : ℂ)⁻¹)

/-- a ray on the sheet number `s` over the direction `θ` -/
def RayAt (m n : Nat) (y : Nat → ℂ) (v : Nat) (s : ℤ) (θ : ℝ) (c : ℂ) : Prop := ∃ r : ℝ, 0 < r ∧ c = r * (zeta m ^ s * exp (θ * I / m) * Gv m n y v)

section
variable {m n : Nat} {y : Nat → ℂ} {e : CEdge} {p q : ℝ}

theorem norm_exp_I (θ : ℝ) (m : Nat) : ‖exp (θ * I / m)‖ = 1 := by
  rw [show (θ * I / m : ℂ) = ((θ / m : ℝ) : ℂ) * I by push_cast; ring]
  exact norm_exp_ofReal_mul_I _

theorem leaves_of {Y P : ℝ → ℂ} {r : ℝ → ℝ} {u P0 : ℂ} {t0 : ℝ} (hu : ‖u‖ = 1) (hP0 : P0 ≠ 0) (hY : ∀ t ∈ Ioo (-1 : ℝ) 1, 0 < r t ∧ Y t = r t * u * P t) (hP : ContinuousAt P t0) (h0 : P t0 = P0) : LeavesAlong Y t0 (u * P0) := by
  have hu0 : u ≠ 0 := norm_ne_zero_iff.1 (by rw [hu]; exact one_ne_zero)
  refine ⟨mul_ne_zero hu0 hP0, ?_⟩
  have h1 : Tendsto (fun t => u * (P t / ‖P t‖)) (𝓝[Ioo (-1) 1] t0) (𝓝 (u * (P0 / ‖P0‖))) := by
    have h2 : Tendsto P (𝓝[Ioo (-1) 1] t0) (𝓝 P0) := by
      have := hP.tendsto
      rw [h0] at this
      exact this.mono_left nhdsWithin_le_nhds
    have h3 : Tendsto (fun t => (‖P t‖ : ℂ)) (𝓝[Ioo (-1) 1] t0) (𝓝 (‖P0‖ : ℂ)) := (continuous_ofReal.tendsto _).comp h2.norm
    exact (h2.div h3 (by exact_mod_cast norm_ne_zero_iff.2 hP0)).const_mul u
  rw [norm_mul, hu, one_mul, mul_div_assoc]
  refine h1.congr' ?_
  filter_upwards [self_mem_nhdsWithin] with t ht
  obtain ⟨hr, e⟩ := hY t ht
  rw [e, norm_mul, norm_mul, hu, norm_real, Real.norm_of_nonneg hr.le, mul_one]
  have : (r t : ℂ) ≠ 0 := by exact_mod_cast hr.ne'
  push_cast
  rw [mul_assoc, mul_div_mul_left _ _ this, mul_div_assoc]

theorem Gv_ne (hy : InjOn y (Iio n)) {v : Nat} (hv : v < n) : Gv m n y v ≠ 0 := by
  unfold Gv
  rw [Finset.prod_ne_zero_iff]
  intro k hk
  obtain ⟨h1, h2⟩ := Finset.mem_erase.1 hk
  intro h3
  rw [cpow_eq_zero_iff] at h3
  exact h1 (hy (Finset.mem_range.1 h2) hv (sub_eq_zero.1 h3.1).symm)

theorem real_mul_root {r : ℝ} (hr : 0 < r) {w : ℂ} (hw : w ≠ 0) (m : Nat) : ((r : ℂ) * w) ^ ((m : ℂ)⁻¹) = ((r * ‖w‖) ^ ((m : ℝ)⁻¹) : ℝ) * exp (w.arg * I / m) := by
  have h1 : (r : ℂ) * w ≠ 0 := mul_ne_zero (by exact_mod_cast hr.ne') hw
  have hpos : 0 < r * ‖w‖ := mul_pos hr (norm_pos_iff.2 hw)
  rw [cpow_def_of_ne_zero h1, log, norm_mul, norm_real, Real.norm_of_nonneg hr.le, arg_real_mul _ hr, Real.rpow_def_of_pos hpos]
  push_cast
  rw [← exp_add]
  congr 1
  ring

theorem Gv_lo (hs : Sorted n fun k => (y k).im) (h : AlongC n y p q e) : ∏ k ∈ (Finset.range n).erase e.lo, gk m y e k (y e.lo) = Gv m n y e.lo := by
  have htop := h.top
  exact Finset.prod_congr rfl fun k _ => gk_below fun hR => hs e.lo k hR.1 (by omega)

theorem Gv_up (hs : Sorted n fun k => (y k).im) (hm : m ≠ 0) (h : AlongC n y p q e) : ∏ k ∈ (Finset.range n).erase e.up, gk m y e k (y e.up) = ((zeta m)⁻¹) ^ e.rc e.up * Gv m n y e.up := by
  classical
  have htop := h.top
  have e1 : ∀ k ∈ (Finset.range n).erase e.up, gk m y e k (y e.up) = (if k ∈ (Finset.Ioo e.lo e.up).filter e.R then (zeta m)⁻¹ else 1) * (y e.up - y k) ^ ((m : ℂ)⁻¹) := by
    intro k _
    by_cases c : k ∈ (Finset.Ioo e.lo e.up).filter e.R
    · rw [if_pos c]
      obtain ⟨c1, c2⟩ := Finset.mem_filter.1 c
      obtain ⟨c3, c4⟩ := Finset.mem_Ioo.1 c1
      exact gk_above hm ⟨c3, c4, c2⟩ (hs _ _ c4 htop)
    · rw [if_neg c, one_mul]
      exact gk_below fun hR => absurd (Finset.mem_filter.2 ⟨Finset.mem_Ioo.2 ⟨hR.1, hR.2.1⟩, hR.2.2⟩) c
  rw [Finset.prod_congr rfl e1, Finset.prod_mul_distrib, Finset.prod_ite_mem, Finset.prod_const]
  congr 2
  unfold CEdge.rc
  congr 1
  ext k
  simp only [Finset.mem_inter, Finset.mem_range, Finset.mem_erase, Finset.mem_filter, Finset.mem_Ioo]
  exact ⟨fun c => c.2, fun c => ⟨by omega, c⟩⟩

theorem dir_ne (p : ℝ) : (p : ℂ) + I ≠ 0 := by
  intro h
  have := congrArg Complex.im h
  simp at this

theorem AlongC.prod_cont (h : AlongC n y p q e) (hs : Sorted n fun k => (y k).im) (hm : m ≠ 0) (v : Nat) {t : ℝ} (ht : t ∈ Icc (-1 : ℝ) 1) :
    ContinuousAt (fun t : ℝ => ∏ k ∈ (Finset.range n).erase v, gk m y e k (Spec.edgePt (y e.lo) (y e.up) t)) t := by
  have hle : (y e.lo).im ≤ (y e.up).im := (hs _ _ h.lt h.top).le
  simp only [h.edgePt]
  obtain ⟨h1, h2⟩ := hgt_mem hle ht
  refine tendsto_finsetProd _ fun k hk => ?_
  exact ContinuousAt.comp (g := fun s => gk m y e k (path p q s)) (f := fun t => hgt (y e.lo).im (y e.up).im t) (h.gk_cont hs hm (Finset.mem_range.1 (Finset.mem_of_mem_erase hk)) h1 h2) (by unfold hgt; fun_prop)

theorem AlongC.leaves_lo (h : AlongC n y p q e) (hs : Sorted n fun k => (y k).im) (hy : InjOn y (Iio n)) (hm : m ≠ 0) :
    LeavesAlong (fun t => Yc m n y e (Spec.edgePt (y e.lo) (y e.up) t)) (-1) (exp (((p : ℂ) + I).arg * I / m) * Gv m n y e.lo) := by
  have hlt := h.lt
  have htop := h.top
  have hη : (y e.lo).im < (y e.up).im := hs _ _ hlt htop
  refine leaves_of (r := fun t => ((hgt (y e.lo).im (y e.up).im t - (y e.lo).im) * ‖(p : ℂ) + I‖) ^ ((m : ℝ)⁻¹)) (norm_exp_I _ _) (Gv_ne hy (by omega)) (fun t ht => ?_) (h.prod_cont hs hm e.lo ⟨le_rfl, by norm_num⟩) ?_
  · have hpos : 0 < hgt (y e.lo).im (y e.up).im t - (y e.lo).im := by
      have := ht.1
      unfold hgt
      nlinarith
    refine ⟨Real.rpow_pos_of_pos (mul_pos hpos (norm_pos_iff.2 (dir_ne p))) _, ?_⟩
    unfold Yc
    rw [← Finset.mul_prod_erase _ _ (Finset.mem_range.2 (by omega : e.lo < n))]
    congr 1
    unfold gk
    rw [if_neg (by omega), h.edgePt]
    conv_lhs => rw [← h.path_lo, path_sub, path_im]
    rw [real_mul_root hpos (dir_ne p)]
  · have : Spec.edgePt (y e.lo) (y e.up) ((-1 : ℝ) : ℂ) = y e.lo := by unfold Spec.edgePt; push_cast; ring
    rw [this]
    exact Gv_lo hs h

theorem AlongC.leaves_up (h : AlongC n y p q e) (hs : Sorted n fun k => (y k).im) (hy : InjOn y (Iio n)) (hm : m ≠ 0) :
    LeavesAlong (fun t => Yc m n y e (Spec.edgePt (y e.lo) (y e.up) t)) 1 (exp (((((p : ℂ) + I).arg - Real.pi : ℝ) : ℂ) * I / m) * (((zeta m)⁻¹) ^ e.rc e.up * Gv m n y e.up)) := by
  have hlt := h.lt
  have htop := h.top
  have hη : (y e.lo).im < (y e.up).im := hs _ _ hlt htop
  have harg : (-((p : ℂ) + I)).arg = ((p : ℂ) + I).arg - Real.pi := arg_neg_eq_arg_sub_pi_of_im_pos (by simp)
  refine leaves_of (r := fun t => (((y e.up).im - hgt (y e.lo).im (y e.up).im t) * ‖-((p : ℂ) + I)‖) ^ ((m : ℝ)⁻¹)) (norm_exp_I _ _) (mul_ne_zero (pow_ne_zero _ (inv_ne_zero (zeta_ne m))) (Gv_ne hy htop)) (fun t ht => ?_) (h.prod_cont hs hm e.up ⟨by norm_num, le_rfl⟩) ?_
  · have hpos : 0 < (y e.up).im - hgt (y e.lo).im (y e.up).im t := by
      have := ht.2
      unfold hgt
      nlinarith
    refine ⟨Real.rpow_pos_of_pos (mul_pos hpos (norm_pos_iff.2 (neg_ne_zero.2 (dir_ne p)))) _, ?_⟩
    unfold Yc
    rw [← Finset.mul_prod_erase _ _ (Finset.mem_range.2 htop)]
    congr 1
    unfold gk
    rw [if_neg (by omega), h.edgePt]
    conv_lhs => rw [← h.path_up, path_sub, path_im]
    rw [show (((hgt (y e.lo).im (y e.up).im t - (y e.up).im : ℝ) : ℂ) * ((p : ℂ) + I)) = (((y e.up).im - hgt (y e.lo).im (y e.up).im t : ℝ) : ℂ) * (-((p : ℂ) + I)) by push_cast; ring, real_mul_root hpos (neg_ne_zero.2 (dir_ne p)), harg]
  · have : Spec.edgePt (y e.lo) (y e.up) ((1 : ℝ) : ℂ) = y e.up := by unfold Spec.edgePt; push_cast; ring
    rw [this]
    exact Gv_up hs hm h

/-- the direction is determined -/
theorem leaves_unique {Y Z : ℝ → ℂ} {z c c0 : ℂ} {t0 : ℝ} (ht0 : t0 ∈ Icc (-1 : ℝ) 1) (hz : ‖z‖ = 1) (h : ∀ t ∈ Ioo (-1 : ℝ) 1, Y t = z * Z t) (hY : LeavesAlong Y t0 c) (hZ : LeavesAlong Z t0 c0) :
    ∃ r : ℝ, 0 < r ∧ c = r * (z * c0) := by
  have hne : (nhdsWithin t0 (Ioo (-1 : ℝ) 1)).NeBot := by
    rw [← mem_closure_iff_nhdsWithin_neBot, closure_Ioo (by norm_num)]
    exact ht0
  have h1 : Tendsto (fun t => Y t / ‖Y t‖) (𝓝[Ioo (-1) 1] t0) (𝓝 (z * (c0 / ‖c0‖))) := by
    refine (hZ.2.const_mul z).congr' ?_
    filter_upwards [self_mem_nhdsWithin] with t ht
    rw [h t ht, norm_mul, hz, one_mul, mul_div_assoc]
  have h2 := tendsto_nhds_unique hY.2 h1
  have h3 : (‖c‖ : ℂ) ≠ 0 := ofReal_ne_zero.2 (norm_ne_zero_iff.2 hY.1)
  refine ⟨‖c‖ / ‖c0‖, div_pos (norm_pos_iff.2 hY.1) (norm_pos_iff.2 hZ.1), ?_⟩
  rw [div_eq_iff h3] at h2
  rw [h2, norm_mul, norm_mul, norm_div, norm_real, norm_norm, div_self (norm_ne_zero_iff.2 hZ.1), hz, norm_real, norm_norm]
  push_cast
  ring

/-- an edge read in one of the two directions -/
def Reads (e : CEdge) (dn : Bool) (a b : Nat) : Prop := a = (if dn then e.up else e.lo) ∧ b = (if dn then e.lo else e.up)

theorem edgePt_neg (a b : ℂ) (t : ℝ) : Spec.edgePt a b ((-t : ℝ) : ℂ) = Spec.edgePt b a t := by
  unfold Spec.edgePt
  push_cast
  ring

theorem isBranch_rev {a b : ℂ} {Y : ℝ → ℂ} (h : IsBranchM m n y a b Y) : IsBranchM m n y b a fun t => Y (-t) := by
  have hm : ∀ t ∈ Icc (-1 : ℝ) 1, -t ∈ Icc (-1 : ℝ) 1 := fun t ht => ⟨by linarith [ht.2], by linarith [ht.1]⟩
  refine ⟨h.1.comp continuous_neg.continuousOn hm, fun t ht => ?_⟩
  rw [h.2 _ (hm t ht), edgePt_neg]

theorem leaves_rev {Y : ℝ → ℂ} {t0 : ℝ} {c : ℂ} (h : LeavesAlong Y t0 c) : LeavesAlong (fun t => Y (-t)) (-t0) c := by
  refine ⟨h.1, h.2.comp (tendsto_nhdsWithin_iff.2 ⟨?_, ?_⟩)⟩
  · have := (continuous_neg (G := ℝ)).tendsto (-t0)
    rw [neg_neg] at this
    exact this.mono_left nhdsWithin_le_nhds
  · filter_upwards [self_mem_nhdsWithin] with t ht
    exact ⟨by linarith [ht.2], by linarith [ht.1]⟩

theorem segInt_flip (a b : ℂ) (i j : Nat) (Y : ℝ → ℂ) : segIntM b a i j (fun t => Y (-t)) = -segIntM a b i j Y := by
  unfold segIntM
  have := intervalIntegral.integral_comp_neg (a := -1) (b := 1) fun t : ℝ => Spec.edgePt a b t ^ i / Y t ^ j * ((a - b) / 2)
  simp only [edgePt_neg, neg_neg] at this
  rw [this, ← intervalIntegral.integral_neg]
  refine intervalIntegral.integral_congr fun t _ => ?_
  ring

/-- **an edge of the tree** -/
theorem AlongC.edge (h : AlongC n y p q e) (hs : Sorted n fun k => (y k).im) (hy : InjOn y (Iio n)) (hm : 0 < m) {dn : Bool} {a b : Nat} (hab : Reads e dn a b) {Y : ℝ → ℂ} (hY : IsBranchM m n y (y a) (y b) Y) {ca cb : ℂ}
    (hca : LeavesAlong Y (-1) ca) (hcb : LeavesAlong Y 1 cb) :
    ∃ τ : ℤ, RayAt m n y a ((DEdge.mk e ((p : ℂ) + I).arg τ).ped dn).sa ((DEdge.mk e ((p : ℂ) + I).arg τ).ped dn).pa ca ∧ RayAt m n y b ((DEdge.mk e ((p : ℂ) + I).arg τ).ped dn).sb ((DEdge.mk e ((p : ℂ) + I).arg τ).ped dn).pb cb ∧
      ∀ i j : Nat, segIntM (y a) (y b) i j Y = sgn dn * (zeta m ^ j) ^ (-τ) * segIntM (y e.lo) (y e.up) i j (fun t => Yc m n y e (Spec.edgePt (y e.lo) (y e.up) t)) := by
  have hm0 : m ≠ 0 := hm.ne'
  have hlt := h.lt
  have htop := h.top
  have hη : (y e.lo).im < (y e.up).im := hs _ _ hlt htop
  have hz := zeta_ne m
  have hne : ∀ t ∈ Ioo (-1 : ℝ) 1, Yc m n y e (Spec.edgePt (y e.lo) (y e.up) t) ≠ 0 := by
    intro t ht h0
    have h1 := Yc_pow (n := n) (y := y) (e := e) hm0 (Spec.edgePt (y e.lo) (y e.up) t)
    rw [h0, zero_pow hm0] at h1
    obtain ⟨k, hk, h2⟩ := Finset.prod_eq_zero_iff.1 h1.symm
    have hk := Finset.mem_range.1 hk
    have h3 := sub_eq_zero.1 h2
    rw [h.edgePt] at h3
    have h4 : hgt (y e.lo).im (y e.up).im t = (y k).im := by rw [← h3, path_im]
    have h5 : p * (y k).im + q = (y k).re := by rw [← h4, ← path_re, h3]
    have h6 : (y e.lo).im < (y k).im := by
      rw [← h4]
      have := ht.1
      unfold hgt
      nlinarith
    have h7 : (y k).im < (y e.up).im := by
      rw [← h4]
      have := ht.2
      unfold hgt
      nlinarith
    have h8 : e.lo < k := by
      by_contra hc
      rcases (not_lt.1 hc).lt_or_eq with c | c
      · exact absurd h6 (not_lt.2 (hs k e.lo c (by omega)).le)
      · rw [c] at h6; exact lt_irrefl _ h6
    have h9 : k < e.up := by
      by_contra hc
      rcases (not_lt.1 hc).lt_or_eq with c | c
      · exact absurd h7 (not_lt.2 (hs e.up k c hk).le)
      · rw [← c] at h7; exact lt_irrefl _ h7
    by_cases hR : e.R k
    · linarith [h.right k h8 h9 hR]
    · linarith [h.left k h8 h9 hR]
  have key : ∀ {Y' : ℝ → ℂ} {cl cu : ℂ}, IsBranchM m n y (y e.lo) (y e.up) Y' → LeavesAlong Y' (-1) cl → LeavesAlong Y' 1 cu → ∃ τ : ℤ, RayAt m n y e.lo τ ((p : ℂ) + I).arg cl ∧ RayAt m n y e.up (τ - e.rc e.up) (((p : ℂ) + I).arg - Real.pi) cu ∧
      ∀ i j : Nat, segIntM (y e.lo) (y e.up) i j Y' = (zeta m ^ j) ^ (-τ) * segIntM (y e.lo) (y e.up) i j (fun t => Yc m n y e (Spec.edgePt (y e.lo) (y e.up) t)) := by
    intro Y' cl cu hY' hcl hcu
    obtain ⟨z, hz1, hz2⟩ := branch_unique hm hY' (h.isBranch hs hm0) hne
    obtain ⟨τ, rfl⟩ := root_zeta hm hz1
    have hzn : ‖zeta m ^ τ‖ = 1 := by rw [norm_zpow, norm_zeta, one_zpow]
    refine ⟨τ, ?_, ?_, fun i j => ?_⟩
    · obtain ⟨r, hr, er⟩ := leaves_unique ⟨le_rfl, by norm_num⟩ hzn hz2 hcl (h.leaves_lo hs hy hm0)
      exact ⟨r, hr, by rw [er]; ring⟩
    · obtain ⟨r, hr, er⟩ := leaves_unique ⟨by norm_num, le_rfl⟩ hzn hz2 hcu (h.leaves_up hs hy hm0)
      refine ⟨r, hr, ?_⟩
      rw [er, zpow_sub₀ hz, zpow_natCast, inv_pow]
      ring
    · rw [segIntM_of_branch hz2, ← zpow_natCast, ← zpow_natCast, ← zpow_mul, ← zpow_mul, ← zpow_neg]
      congr 2
      ring
  cases dn
  · obtain ⟨rfl, rfl⟩ := hab
    obtain ⟨τ, h1, h2, h3⟩ := key hY hca hcb
    exact ⟨τ, h1, h2, fun i j => by simp only [Bool.false_eq_true, if_false, sgn, one_mul]; exact h3 i j⟩
  · obtain ⟨rfl, rfl⟩ := hab
    have h1 := leaves_rev hcb
    have h2 := leaves_rev hca
    rw [neg_neg] at h2
    obtain ⟨τ, h3, h4, h5⟩ := key (isBranch_rev hY) h1 h2
    refine ⟨τ, h4, h3, fun i j => ?_⟩
    have h6 := segInt_flip (y e.up) (y e.lo) i j Y
    rw [h5] at h6
    simp only [sgn, if_true]
    linear_combination h6

end

end Hcp.Cut
