import Verif.Proofs.RealCurve

/-!
# Crossing numbers of straight paths, and determinations of `y` on an edge run in both directions
-/

namespace Hcp
open Spec Set Filter Topology

/-- two straight paths, the second one runs from the right to the left of the first one -/
theorem crossing_line {c d : ℂ} (h : 0 < ((starRingEnd ℂ) c * d).im) : crossing ⟨-c, c⟩ ⟨-d, d⟩ = 1 := by
  have hpi := Real.pi_pos
  have hc : c ≠ 0 := by rintro rfl; simp at h
  have hd : d ≠ 0 := by rintro rfl; simp at h
  have hm : 0 < (d / c).im := by
    have : d / c = ((Complex.normSq c)⁻¹ : ℝ) * ((starRingEnd ℂ) c * d) := by
      rw [div_eq_mul_inv, Complex.inv_def]; push_cast; ring
    rw [this, Complex.im_ofReal_mul]
    exact mul_pos (inv_pos.2 (Complex.normSq_pos.2 hc)) h
  set φ := (d / c).arg with hφ
  have p1 : 0 < φ := by
    refine lt_of_le_of_ne (Complex.arg_nonneg_iff.2 hm.le) fun e => ?_
    have := Complex.arg_eq_zero_iff.1 (hφ.symm.trans e.symm)
    exact hm.ne' this.2
  have p2 : φ < Real.pi := Complex.arg_lt_pi_iff.2 (.inr hm.ne')
  have t1 : Turns (-c) c Real.pi := by
    unfold Turns
    rw [Complex.exp_pi_mul_I, neg_div, div_self hc]
    simp
  have t2 : Turns d c φ := by
    unfold Turns
    exact (Complex.norm_mul_exp_arg_mul_I _).symm
  have t3 : Turns (-d) c (φ - Real.pi) := by
    unfold Turns
    rw [neg_div, norm_neg]
    push_cast
    rw [sub_mul, Complex.exp_sub, Complex.exp_pi_mul_I, div_neg, div_one, mul_neg, neg_inj]
    exact t2
  have t4 : Turns (-d) (-c) φ := by
    unfold Turns
    rw [neg_div_neg_eq]
    exact t2
  have b1 : Between c (-c) d := (between_iff hc (neg_ne_zero.2 hc) hd t2 t1 hpi (by linarith)).2 ⟨0, by push_cast; linarith, by push_cast; linarith⟩
  have nj : ∀ {ψ : ℝ} {j : ℤ}, -(2 * Real.pi) < ψ → ψ < 0 → ψ + 2 * Real.pi * j ≠ 0 := by
    intro ψ j h1 h2 h3
    have k1 : (0 : ℝ) < j := by by_contra hh; push Not at hh; nlinarith
    have k2 : (j : ℝ) < 1 := by by_contra hh; push Not at hh; nlinarith
    have k1' : (0 : ℤ) < j := by exact_mod_cast k1
    have k2' : j < (1 : ℤ) := by exact_mod_cast k2
    omega
  have b2 : ¬ Between c (-c) (-d) := by
    rw [between_iff hc (neg_ne_zero.2 hc) (neg_ne_zero.2 hd) t3 t1 hpi (by linarith)]
    rintro ⟨j, h1, h2⟩
    have k1 : (0 : ℝ) < j := by by_contra hh; push Not at hh; nlinarith
    have k2 : (j : ℝ) < 1 := by by_contra hh; push Not at hh; nlinarith
    have k1' : (0 : ℤ) < j := by exact_mod_cast k1
    have k2' : j < (1 : ℤ) := by exact_mod_cast k2
    omega
  have z1 : ¬ Turns (-d) c 0 := by
    rw [turns_zero_iff hc (neg_ne_zero.2 hd) t3]
    rintro ⟨j, hj⟩
    exact nj (by linarith) (by linarith) hj
  have z2 : ¬ Turns (-d) (-c) 0 := by
    rw [turns_zero_iff (neg_ne_zero.2 hc) (neg_ne_zero.2 hd) t4]
    rintro ⟨j, hj⟩
    exact nj (ψ := φ - 2 * Real.pi) (j := j + 1) (by linarith) (by linarith) (by push_cast; linarith)
  unfold crossing leftSide
  simp only
  rw [if_pos b1, if_neg b2, if_neg (by tauto)]
  norm_num

/-- the sign of the crossing number of two straight paths -/
theorem crossing_sign {c d : ℂ} (h : ((starRingEnd ℂ) c * d).im ≠ 0) : crossing ⟨-c, c⟩ ⟨-d, d⟩ = (SignType.sign ((starRingEnd ℂ) c * d).im : ℤ) := by
  rcases lt_or_gt_of_ne h with h1 | h1
  · have := crossing_line (c := c) (d := -d) (by rw [mul_neg, Complex.neg_im]; linarith)
    rw [neg_neg] at this
    rw [sign_neg h1]
    have h2 := crossing_rev ⟨-c, c⟩ ⟨-d, d⟩
    simp only at h2
    rw [this] at h2
    simp only [SignType.coe_neg]
    norm_num
    linarith
  · rw [crossing_line h1, sign_pos h1]
    simp

/-- the ray along which the closed path over an edge leaves the vertex `w` -/
def outRay (a : Nat) (ca cb : ℂ) (w : Nat) : ℂ := if w = a then ca else -cb

/-- edges with exactly one common vertex -/
theorem pathNumber_common {a b a' b' w : Nat} {ca cb ca' cb' : ℂ} (h : a ≠ b) (h' : a' ≠ b') (hw : w = a ∨ w = b) (hw' : w = a' ∨ w = b')
    (hd : ∀ v, (v = a ∨ v = b) → (v = a' ∨ v = b') → v = w) :
    pathNumber (passages 2 a b ca cb 0) (passages 2 a' b' ca' cb' 0) = crossing ⟨-outRay a ca cb w, outRay a ca cb w⟩ ⟨-outRay a' ca' cb' w, outRay a' ca' cb' w⟩ := by
  have := pathNumber_eq 2 a b a' b' ca cb ca' cb' 0 0
  rw [zeta_two] at this
  norm_num at this
  rw [this]
  unfold outRay
  have d1 := hd a (.inl rfl)
  have d2 := hd b (.inr rfl)
  rcases hw with rfl | rfl <;> rcases hw' with rfl | rfl
  · rw [if_pos rfl, if_neg h', if_neg (fun e => h (d2 (.inl e)).symm), if_neg (fun e => h (d2 (.inr e)).symm), if_pos rfl, if_pos rfl]; ring
  · rw [if_neg h'.symm, if_pos rfl, if_neg (fun e => h (d2 (.inl e)).symm), if_neg (fun e => h (d2 (.inr e)).symm), if_pos rfl, if_neg h'.symm, neg_neg]; ring
  · rw [if_neg (fun e => h (d1 (.inl e))), if_neg (fun e => h (d1 (.inr e))), if_pos rfl, if_neg h', if_neg h.symm, if_pos rfl, neg_neg]; ring
  · rw [if_neg (fun e => h (d1 (.inl e))), if_neg (fun e => h (d1 (.inr e))), if_neg h'.symm, if_pos rfl, if_neg h.symm, if_neg h'.symm, neg_neg, neg_neg]; ring

theorem segIntM_rev (a b : ℂ) (i j : Nat) (Y : ℝ → ℂ) : segIntM b a i j Y = -segIntM a b i j fun t => Y (-t) := by
  unfold segIntM
  have := intervalIntegral.integral_comp_neg (a := -1) (b := 1) fun t : ℝ => edgePt b a t ^ i / Y t ^ j * ((a - b) / 2)
  rw [neg_neg] at this
  rw [← this, ← intervalIntegral.integral_neg]
  refine intervalIntegral.integral_congr fun t _ => ?_
  simp only
  have e : edgePt b a ((-t : ℝ) : ℂ) = edgePt a b t := by unfold edgePt; push_cast; ring
  rw [e]
  ring

theorem ray_unique {Y : ℝ → ℂ} {t0 : ℝ} (ht0 : t0 ∈ Icc (-1 : ℝ) 1) {c d : ℂ} (hc : LeavesAlong Y t0 c) (hd : d ≠ 0) (h : Tendsto (fun t => Y t / ‖Y t‖) (𝓝[Ioo (-1) 1] t0) (𝓝 (d / ‖d‖))) :
    ∃ r : ℝ, 0 < r ∧ c = r * d := by
  have hne : (nhdsWithin t0 (Ioo (-1 : ℝ) 1)).NeBot := by
    rw [← mem_closure_iff_nhdsWithin_neBot, closure_Ioo (by norm_num)]
    exact ht0
  have h2 := tendsto_nhds_unique hc.2 h
  have h3 : 0 < ‖c‖ := norm_pos_iff.2 hc.1
  have h4 : 0 < ‖d‖ := norm_pos_iff.2 hd
  refine ⟨‖c‖ / ‖d‖, div_pos h3 h4, ?_⟩
  have h3' : (‖c‖ : ℂ) ≠ 0 := Complex.ofReal_ne_zero.2 h3.ne'
  have h4' : (‖d‖ : ℂ) ≠ 0 := Complex.ofReal_ne_zero.2 h4.ne'
  push_cast
  field_simp at h2 ⊢
  linear_combination h2

/-- A determination `Z` on the edge from `u` to `v`, with its rays at `u` and `v`. -/
structure Standard (n : Nat) (x : Nat → ℂ) (u v : Nat) (Z : ℝ → ℂ) (ou ov : ℂ) : Prop where
  branch : IsBranchM 2 n x (x u) (x v) Z
  ne : ∀ t ∈ Ioo (-1 : ℝ) 1, Z t ≠ 0
  start : LeavesAlong Z (-1) ou
  stop : LeavesAlong Z 1 (-ov)

/-- What is known of an edge `{u, v}` of the tree, run in any direction. -/
structure Plays (x : Nat → ℂ) (a b : Nat) (Y : ℝ → ℂ) (ca cb : ℂ) (u v : Nat) (Z : ℝ → ℂ) (ou ov : ℂ) (s : ℤ) : Prop where
  unit : s = 1 ∨ s = -1
  ends : (a = u ∧ b = v) ∨ (a = v ∧ b = u)
  cyc : ∀ i, cycleIntM 2 (x a) (x b) i 1 Y 0 = s * (2 * segIntM (x u) (x v) i 1 Z)
  ru : ∃ r : ℝ, 0 < r ∧ outRay a ca cb u = r * (s * ou)
  rv : ∃ r : ℝ, 0 < r ∧ outRay a ca cb v = r * (s * ov)

theorem plays_exists {n : Nat} {x : Nat → ℂ} {a b u v : Nat} {Y Z : ℝ → ℂ} {ca cb ou ov : ℂ} (hZ : Standard n x u v Z ou ov) (huv : u ≠ v) (hab : (a = u ∧ b = v) ∨ (a = v ∧ b = u))
    (hY : IsBranchM 2 n x (x a) (x b) Y) (hca : LeavesAlong Y (-1) ca) (hcb : LeavesAlong Y 1 cb) : ∃ s, Plays x a b Y ca cb u v Z ou ov s := by
  have neg1 : (-1 : ℝ) ∈ Icc (-1 : ℝ) 1 := by constructor <;> norm_num
  have pos1 : (1 : ℝ) ∈ Icc (-1 : ℝ) 1 := by constructor <;> norm_num
  have ov0 : ov ≠ 0 := fun h => hZ.stop.1 (by rw [h, neg_zero])
  have cyc : ∀ a b i (Y : ℝ → ℂ), cycleIntM 2 a b i 1 Y 0 = 2 * segIntM a b i 1 Y := by
    intro a b i Y
    rw [cycleIntM_eq, zeta_two]
    norm_num
  have ray : ∀ {s : ℤ} {W : ℝ → ℂ} {t0 : ℝ} {o : ℂ}, (s = 1 ∨ s = -1) → (∀ t ∈ Ioo (-1 : ℝ) 1, W t = s * Z t) → LeavesAlong Z t0 o → Tendsto (fun t => W t / ‖W t‖) (𝓝[Ioo (-1) 1] t0) (𝓝 ((s * o) / ‖(s * o)‖)) := by
    intro s W t0 o hs hW ho
    have hn : ‖(s : ℂ)‖ = 1 := by rcases hs with rfl | rfl <;> simp
    have h1 := ho.2.const_mul (s : ℂ)
    have e : (s : ℂ) * (o / ‖o‖) = (s * o) / ‖(s * o)‖ := by rw [norm_mul, hn, one_mul, mul_div_assoc]
    rw [e] at h1
    refine h1.congr' ?_
    filter_upwards [self_mem_nhdsWithin] with t ht
    rw [hW t ht, norm_mul, hn, one_mul, mul_div_assoc]
  rcases hab with ⟨rfl, rfl⟩ | ⟨rfl, rfl⟩
  · obtain ⟨z, hz, hYZ⟩ := branch_unique two_pos hY hZ.branch hZ.ne
    obtain ⟨s, hs, rfl⟩ : ∃ s : ℤ, (s = 1 ∨ s = -1) ∧ z = s := by
      rcases (show z = 1 ∨ z = -1 from by simpa using sq_eq_sq_iff_eq_or_eq_neg.1 (hz.trans (one_pow 2).symm)) with h | h
      · exact ⟨1, .inl rfl, by rw [h]; simp⟩
      · exact ⟨-1, .inr rfl, by rw [h]; simp⟩
    have hs0 : (s : ℂ) ≠ 0 := by rcases hs with rfl | rfl <;> simp
    have hinv : ((s : ℂ) ^ 1)⁻¹ = s := by rcases hs with rfl | rfl <;> norm_num
    refine ⟨s, hs, .inl ⟨rfl, rfl⟩, fun i => ?_, ?_, ?_⟩
    · rw [cyc, segIntM_of_branch hYZ, hinv]; ring
    · unfold outRay
      rw [if_pos rfl]
      exact ray_unique neg1 hca (mul_ne_zero hs0 hZ.start.1) (ray hs hYZ hZ.start)
    · unfold outRay
      rw [if_neg huv.symm]
      obtain ⟨r, hr, e⟩ := ray_unique pos1 hcb (mul_ne_zero hs0 hZ.stop.1) (ray hs hYZ hZ.stop)
      exact ⟨r, hr, by rw [e]; ring⟩
  · have hY' : IsBranchM 2 n x (x b) (x a) fun t => Y (-t) := by
      refine ⟨hY.1.comp (continuous_neg.continuousOn) fun t ht => ⟨by linarith [ht.2], by linarith [ht.1]⟩, fun t ht => ?_⟩
      rw [hY.2 (-t) ⟨by linarith [ht.2], by linarith [ht.1]⟩]
      have e : edgePt (x a) (x b) ((-t : ℝ) : ℂ) = edgePt (x b) (x a) t := by unfold edgePt; push_cast; ring
      rw [e]
    obtain ⟨z, hz, hYZ⟩ := branch_unique two_pos hY' hZ.branch hZ.ne
    obtain ⟨s, hs, rfl⟩ : ∃ s : ℤ, (s = 1 ∨ s = -1) ∧ z = s := by
      rcases (show z = 1 ∨ z = -1 from by simpa using sq_eq_sq_iff_eq_or_eq_neg.1 (hz.trans (one_pow 2).symm)) with h | h
      · exact ⟨1, .inl rfl, by rw [h]; simp⟩
      · exact ⟨-1, .inr rfl, by rw [h]; simp⟩
    have hs0 : (s : ℂ) ≠ 0 := by rcases hs with rfl | rfl <;> simp
    have hinv : ((s : ℂ) ^ 1)⁻¹ = s := by rcases hs with rfl | rfl <;> norm_num
    have flip : ∀ {t0 : ℝ} {o : ℂ}, LeavesAlong Y t0 o → LeavesAlong (fun t => Y (-t)) (-t0) o := by
      intro t0 o h
      refine ⟨h.1, h.2.comp (tendsto_nhdsWithin_iff.2 ⟨?_, ?_⟩)⟩
      · have : Tendsto (fun t : ℝ => -t) (𝓝 (-t0)) (𝓝 (- -t0)) := continuous_neg.tendsto _
        rw [neg_neg] at this
        exact this.mono_left nhdsWithin_le_nhds
      · filter_upwards [self_mem_nhdsWithin] with t ht
        exact ⟨by linarith [ht.2], by linarith [ht.1]⟩
    have fa := flip hca
    have fb := flip hcb
    rw [neg_neg] at fa
    refine ⟨-s, by rcases hs with rfl | rfl <;> simp, .inr ⟨rfl, rfl⟩, fun i => ?_, ?_, ?_⟩
    · rw [cyc, segIntM_rev, segIntM_of_branch hYZ, hinv]; push_cast; ring
    · unfold outRay
      rw [if_neg huv]
      obtain ⟨r, hr, e⟩ := ray_unique neg1 fb (mul_ne_zero hs0 hZ.start.1) (ray hs hYZ hZ.start)
      exact ⟨r, hr, by rw [e]; push_cast; ring⟩
    · unfold outRay
      rw [if_pos rfl]
      obtain ⟨r, hr, e⟩ := ray_unique pos1 fa (mul_ne_zero hs0 hZ.stop.1) (ray hs hYZ hZ.stop)
      exact ⟨r, hr, by rw [e]; push_cast; ring⟩

/-- The number of two edges meeting at one vertex, from the standard rays. -/
theorem number_of_rays {a b a' b' w : Nat} {ca cb ca' cb' : ℂ} (h : a ≠ b) (h' : a' ≠ b') (hw : w = a ∨ w = b) (hw' : w = a' ∨ w = b')
    (hd : ∀ v, (v = a ∨ v = b) → (v = a' ∨ v = b') → v = w) {o o' : ℂ} {s s' κ : ℤ} (hs : s = 1 ∨ s = -1) (hs' : s' = 1 ∨ s' = -1)
    (h1 : ∃ r : ℝ, 0 < r ∧ outRay a ca cb w = r * (s * o)) (h2 : ∃ r : ℝ, 0 < r ∧ outRay a' ca' cb' w = r * (s' * o'))
    (hκ : (κ = 1 ∧ 0 < ((starRingEnd ℂ) o * o').im) ∨ (κ = -1 ∧ ((starRingEnd ℂ) o * o').im < 0)) :
    pathNumber (passages 2 a b ca cb 0) (passages 2 a' b' ca' cb' 0) = ((s * s' * κ : ℤ) : ℚ) := by
  obtain ⟨r, hr, e⟩ := h1
  obtain ⟨r', hr', e'⟩ := h2
  have him : ((starRingEnd ℂ) (outRay a ca cb w) * outRay a' ca' cb' w).im = r * r' * (s * s') * ((starRingEnd ℂ) o * o').im := by
    rw [e, e', map_mul, map_mul, Complex.conj_ofReal, map_intCast,
      show (r : ℂ) * (s * (starRingEnd ℂ) o) * (r' * (s' * o')) = ((r * r' * (s * s') : ℝ) : ℂ) * ((starRingEnd ℂ) o * o') by push_cast; ring, Complex.im_ofReal_mul]
  have hrr := mul_pos hr hr'
  have hne : r * r' * ((s : ℝ) * s') * ((starRingEnd ℂ) o * o').im ≠ 0 := by
    refine mul_ne_zero (mul_ne_zero hrr.ne' ?_) ?_
    · rcases hs with rfl | rfl <;> rcases hs' with rfl | rfl <;> norm_num
    · rcases hκ with ⟨_, q⟩ | ⟨_, q⟩
      · exact q.ne'
      · exact q.ne
  rw [pathNumber_common h h' hw hw' hd, crossing_sign (by rw [him]; exact hne), him]
  congr 1
  rw [sign_mul, sign_mul, sign_pos hrr]
  rcases hκ with ⟨rfl, q⟩ | ⟨rfl, q⟩ <;> [rw [sign_pos q]; rw [sign_neg q]] <;> rcases hs with rfl | rfl <;> rcases hs' with rfl | rfl <;> norm_num

end Hcp
