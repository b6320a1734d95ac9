import Verif.Proofs.CutEdge
import Verif.Spec.Crossing
import Verif.Spec.CycleM

/-!
# A determination of `y` along an edge through the cuts
-/

namespace Hcp.Cut
open Complex Set MeasureTheory Filter Topology Spec

section powers

theorem cpow_root_pow (w : ℂ) (m j : Nat) : (w ^ ((m : ℂ)⁻¹)) ^ j = w ^ ((((j : ℝ) / m : ℝ)) : ℂ) := by
  rw [← cpow_nat_mul]
  congr 1
  push_cast
  ring

theorem cpow_root_self (w : ℂ) {m : Nat} (hm : m ≠ 0) : (w ^ ((m : ℂ)⁻¹)) ^ m = w := cpow_nat_inv_pow w hm

theorem neg_cpow_up {w : ℂ} (h : 0 < w.im) (c : ℂ) : (-w) ^ c = w ^ c * exp (-(Real.pi * I) * c) := by
  have hw : w ≠ 0 := by rintro rfl; simp at h
  rw [cpow_def_of_ne_zero (neg_ne_zero.2 hw), cpow_def_of_ne_zero hw, ← exp_add, log, log, norm_neg, arg_neg_eq_arg_sub_pi_of_im_pos h]
  congr 1
  push_cast
  ring

theorem neg_cpow_down {w : ℂ} (h : w.im < 0) (c : ℂ) : (-w) ^ c = w ^ c * exp ((Real.pi * I) * c) := by
  have hw : w ≠ 0 := by rintro rfl; simp at h
  rw [cpow_def_of_ne_zero (neg_ne_zero.2 hw), cpow_def_of_ne_zero hw, ← exp_add, log, log, norm_neg, arg_neg_eq_arg_add_pi_of_im_neg h]
  congr 1
  push_cast
  ring

end powers

open scoped Classical in
/-- root of one factor, continuous along the edge -/
noncomputable def gk (m : Nat) (y : Nat → ℂ) (e : CEdge) (k : Nat) (z : ℂ) : ℂ :=
  if e.lo < k ∧ k < e.up ∧ e.R k then (-(z - y k)) ^ ((m : ℂ)⁻¹) * exp (-(Real.pi * I) / m) else (z - y k) ^ ((m : ℂ)⁻¹)

/-- product of the roots -/
noncomputable def Yc (m n : Nat) (y : Nat → ℂ) (e : CEdge) (z : ℂ) : ℂ := ∏ k ∈ Finset.range n, gk m y e k z

section
variable {m n : Nat} {y : Nat → ℂ} {e : CEdge} {p q : ℝ}

theorem gk_pow (hm : m ≠ 0) (k : Nat) (z : ℂ) : gk m y e k z ^ m = z - y k := by
  unfold gk
  split_ifs
  · rw [mul_pow, cpow_root_self _ hm, ← exp_nat_mul, mul_div_cancel₀ _ (by exact_mod_cast hm), exp_neg, exp_pi_mul_I]
    ring
  · exact cpow_root_self _ hm

theorem Yc_pow (hm : m ≠ 0) (z : ℂ) : Yc m n y e z ^ m = ∏ k ∈ Finset.range n, (z - y k) := by
  unfold Yc
  rw [← Finset.prod_pow]
  exact Finset.prod_congr rfl fun k _ => gk_pow hm k z

theorem path_im (s : ℝ) : (path p q s).im = s := by unfold path; simp
theorem path_re (s : ℝ) : (path p q s).re = p * s + q := by unfold path; simp

/-- the edge along the path, for points given as complex numbers -/
abbrev AlongC (n : Nat) (y : Nat → ℂ) (p q : ℝ) (e : CEdge) : Prop := Along n (fun k => (y k).re) (fun k => (y k).im) p q e

theorem AlongC.path_lo (h : AlongC n y p q e) : path p q (y e.lo).im = y e.lo := by
  apply Complex.ext
  · rw [path_re]; exact h.start
  · rw [path_im]

theorem AlongC.path_up (h : AlongC n y p q e) : path p q (y e.up).im = y e.up := by
  apply Complex.ext
  · rw [path_re]; exact h.stop
  · rw [path_im]

theorem path_sub (s s' : ℝ) : path p q s - path p q s' = ((s - s' : ℝ) : ℂ) * (p + I) := by
  unfold path
  push_cast
  ring

theorem AlongC.gk_cont (h : AlongC n y p q e) (hs : Sorted n fun k => (y k).im) (hm : m ≠ 0) {k : Nat} (hk : k < n) {s : ℝ} (h1 : (y e.lo).im ≤ s) (h2 : s ≤ (y e.up).im) :
    ContinuousAt (fun s => gk m y e k (path p q s)) s := by
  have hlt := h.lt
  have htop := h.top
  have hpc : ContinuousAt (fun s => path p q s - y k) s := ((hasDerivAt_path s).continuousAt).sub continuousAt_const
  have hre : 0 < ((m : ℂ)⁻¹).re := by
    rw [← ofReal_natCast, ← ofReal_inv, ofReal_re]
    have : (0 : ℝ) < m := by exact_mod_cast Nat.pos_of_ne_zero hm
    positivity
  unfold gk
  split_ifs with hR
  · refine ContinuousAt.mul ?_ continuousAt_const
    have hsl : -(path p q s - y k) ∈ slitPlane := by
      rw [mem_slitPlane_iff, neg_re, neg_im, sub_re, sub_im, path_re, path_im]
      by_cases he : s = (y k).im
      · left
        rw [he]
        linarith [h.right k hR.1 hR.2.1 hR.2.2]
      · right
        intro q
        exact he (by linarith)
    exact hpc.neg.cpow continuousAt_const hsl
  · have hnn : 0 ≤ (path p q s - y k).re ∨ (path p q s - y k).im ≠ 0 := by
      rw [sub_re, sub_im, path_re, path_im]
      by_cases he : s = (y k).im
      · left
        rw [he]
        rcases Nat.lt_trichotomy k e.lo with c | c | c
        · exact absurd h1 (not_le.2 (by rw [he]; exact hs k e.lo c (by omega)))
        · rw [c]; linarith [h.start]
        · rcases Nat.lt_trichotomy k e.up with c2 | c2 | c2
          · have := h.left k c c2 fun r => hR ⟨c, c2, r⟩
            linarith
          · rw [c2]; linarith [h.stop]
          · exact absurd h2 (not_le.2 (by rw [he]; exact hs e.up k c2 hk))
      · right
        exact sub_ne_zero.2 he
    exact (continuousAt_cpow_const_of_re_pos hnn hre).comp (f := fun s => path p q s - y k) hpc

theorem AlongC.Yc_cont (h : AlongC n y p q e) (hs : Sorted n fun k => (y k).im) (hm : m ≠ 0) {s : ℝ} (h1 : (y e.lo).im ≤ s) (h2 : s ≤ (y e.up).im) :
    ContinuousAt (fun s => Yc m n y e (path p q s)) s := by
  unfold Yc
  exact tendsto_finsetProd _ fun k hk => h.gk_cont hs hm (Finset.mem_range.1 hk) h1 h2

theorem exp_zeta (hm : m ≠ 0) : exp (-(Real.pi * I) / m) * exp (-(Real.pi * I) / m) = (zeta m)⁻¹ := by
  unfold zeta
  rw [← exp_add, ← exp_neg]
  congr 1
  have : (m : ℂ) ≠ 0 := by exact_mod_cast hm
  field_simp
  ring

theorem gk_above (hm : m ≠ 0) {k : Nat} {z : ℂ} (hR : e.lo < k ∧ k < e.up ∧ e.R k) (hz : (y k).im < z.im) : gk m y e k z = (zeta m)⁻¹ * (z - y k) ^ ((m : ℂ)⁻¹) := by
  unfold gk
  rw [if_pos hR, neg_cpow_up (by rw [sub_im]; linarith), ← exp_zeta hm]
  rw [div_eq_mul_inv]
  ring

theorem gk_below {k : Nat} {z : ℂ} (hz : (e.lo < k ∧ k < e.up ∧ e.R k) → z.im < (y k).im) : gk m y e k z = (z - y k) ^ ((m : ℂ)⁻¹) := by
  unfold gk
  split_ifs with hR
  · rw [neg_cpow_down (by rw [sub_im]; linarith [hz hR]), mul_assoc, ← exp_add, div_eq_mul_inv]
    ring_nf
    simp
  · rfl

/-- number of sheets crossed -/
theorem Yc_strip (hm : m ≠ 0) {j : Nat} (hj : j ≤ e.up) (htop : e.up < n) {z : ℂ} (h1 : ∀ k, e.lo < k → k < j → (y k).im < z.im) (h2 : ∀ k, j ≤ k → k < e.up → z.im < (y k).im) :
    Yc m n y e z = ((zeta m)⁻¹) ^ e.rc j * ∏ k ∈ Finset.range n, (z - y k) ^ ((m : ℂ)⁻¹) := by
  classical
  have e1 : ∀ k ∈ Finset.range n, gk m y e k z = (if k ∈ (Finset.Ioo e.lo j).filter e.R then (zeta m)⁻¹ else 1) * (z - y k) ^ ((m : ℂ)⁻¹) := by
    intro k _
    by_cases c : k ∈ (Finset.Ioo e.lo j).filter e.R
    · rw [if_pos c]
      obtain ⟨c1, c2⟩ := Finset.mem_filter.1 c
      obtain ⟨c3, c4⟩ := Finset.mem_Ioo.1 c1
      exact gk_above hm ⟨c3, by omega, c2⟩ (h1 k c3 c4)
    · rw [if_neg c, one_mul]
      refine gk_below fun hR => h2 k ?_ hR.2.1
      by_contra hlt
      exact c (Finset.mem_filter.2 ⟨Finset.mem_Ioo.2 ⟨hR.1, by omega⟩, hR.2.2⟩)
  unfold Yc
  rw [Finset.prod_congr rfl e1, Finset.prod_mul_distrib, Finset.prod_ite_mem, Finset.prod_const]
  congr 2
  unfold CEdge.rc
  congr 1
  ext k
  simp only [Finset.mem_inter, Finset.mem_range, Finset.mem_filter, Finset.mem_Ioo]
  exact ⟨fun c => c.2, fun c => ⟨by omega, c⟩⟩

/-- the parameter of the edge as a height -/
noncomputable def hgt (a b t : ℝ) : ℝ := (a + b) / 2 + (b - a) / 2 * t

theorem AlongC.edgePt (h : AlongC n y p q e) (t : ℝ) : edgePt (y e.lo) (y e.up) t = path p q (hgt (y e.lo).im (y e.up).im t) := by
  rw [← h.path_lo, ← h.path_up, path_im, path_im]
  unfold Spec.edgePt path hgt
  push_cast
  ring

theorem hgt_mem {a b t : ℝ} (hab : a ≤ b) (ht : t ∈ Icc (-1 : ℝ) 1) : a ≤ hgt a b t ∧ hgt a b t ≤ b := by
  obtain ⟨h1, h2⟩ := ht
  unfold hgt
  constructor <;> nlinarith

theorem AlongC.isBranch (h : AlongC n y p q e) (hs : Sorted n fun k => (y k).im) (hm : m ≠ 0) :
    IsBranchM m n y (y e.lo) (y e.up) fun t => Yc m n y e (Spec.edgePt (y e.lo) (y e.up) t) := by
  have hle : (y e.lo).im ≤ (y e.up).im := (hs _ _ h.lt h.top).le
  refine ⟨fun t ht => ContinuousAt.continuousWithinAt ?_, fun t _ => Yc_pow hm _⟩
  simp only [h.edgePt]
  obtain ⟨h1, h2⟩ := hgt_mem hle ht
  exact ContinuousAt.comp (g := fun s => Yc m n y e (path p q s)) (f := fun t => hgt (y e.lo).im (y e.up).im t) (h.Yc_cont hs hm h1 h2) (by unfold hgt; fun_prop)

/-- the points are sorted by height -/
theorem strip_cmp (hs : Sorted n fun k => (y k).im) (htop : e.up < n) {j : Nat} {s : ℝ} (hj : j + 1 ≤ e.up) (h : s ∈ Ioo (y j).im (y (j + 1)).im) :
    (∀ k, e.lo < k → k < j + 1 → (y k).im < s) ∧ ∀ k, j + 1 ≤ k → k < e.up → s < (y k).im := by
  refine ⟨fun k _ hk => ?_, fun k hk hk' => ?_⟩
  · rcases Nat.lt_or_ge k j with c | c
    · exact (hs k j c (by omega)).trans h.1
    · rw [show k = j by omega]; exact h.1
  · rcases Nat.lt_or_ge (j + 1) k with c | c
    · exact h.2.trans (hs _ _ c (by omega))
    · rw [show k = j + 1 by omega]; exact h.2

theorem zeta_pow_turn (m j : Nat) : zeta m ^ j = turn ((j : ℝ) / m) := by
  unfold zeta turn
  rw [← exp_nat_mul]
  congr 1
  push_cast
  ring

/-- the monomial -/
def mono (i : Nat) : Fin (i + 1) → ℂ := fun k => if k.val = i then 1 else 0

theorem cpol_mono (i : Nat) (z : ℂ) : cpol (mono i) z = z ^ i := by
  unfold cpol mono
  rw [Fin.sum_univ_castSucc]
  simp only [Fin.val_castSucc, Fin.val_last, if_true, one_mul]
  rw [Finset.sum_eq_zero, zero_add]
  intro k _
  rw [if_neg (by omega), zero_mul]

/-- **the integral over an edge** -/
theorem AlongC.seg (h : AlongC n y p q e) (hs : Sorted n fun k => (y k).im) (hm : m ≠ 0) {i j : Nat} {H : ℝ → ℝ}
    (hc : Cuts n (fun k => (y k).re) (fun k => (y k).im) (zeta m ^ j) (om ((j : ℝ) / m) n y (mono i)) H) (hd : Dom n (fun k => (y k).re) (om ((j : ℝ) / m) n y (mono i)) H) (h1 : zeta m ^ j ≠ 1) :
    segIntM (y e.lo) (y e.up) i j (fun t => Yc m n y e (Spec.edgePt (y e.lo) (y e.up) t)) =
      ∑ v ∈ Finset.range n, bvec (zeta m ^ j) e v * ((1 - zeta m ^ j) * Av (fun k => (y k).re) (fun k => (y k).im) (om ((j : ℝ) / m) n y (mono i)) v) := by
  have hlt := h.lt
  have htop := h.top
  set G : ℝ → ℂ := fun s => (path p q s) ^ i / Yc m n y e (path p q s) ^ j * ((p : ℂ) + I) with hG
  -- height as a parameter
  have e1 : segIntM (y e.lo) (y e.up) i j (fun t => Yc m n y e (Spec.edgePt (y e.lo) (y e.up) t)) = ∫ s in (y e.lo).im..(y e.up).im, G s := by
    have q := intervalIntegral.smul_integral_comp_add_mul G (a := -1) (b := 1) (((y e.up).im - (y e.lo).im) / 2) (((y e.lo).im + (y e.up).im) / 2)
    have q1 : ((y e.lo).im + (y e.up).im) / 2 + ((y e.up).im - (y e.lo).im) / 2 * (-1) = (y e.lo).im := by ring
    have q2 : ((y e.lo).im + (y e.up).im) / 2 + ((y e.up).im - (y e.lo).im) / 2 * 1 = (y e.up).im := by ring
    rw [q1, q2] at q
    rw [← q, ← intervalIntegral.integral_smul]
    unfold segIntM
    refine intervalIntegral.integral_congr fun t _ => ?_
    simp only [h.edgePt, hG]
    have q3 : (y e.up - y e.lo) / 2 = ((((y e.up).im - (y e.lo).im) / 2 : ℝ) : ℂ) * ((p : ℂ) + I) := by
      conv_lhs => rw [← h.path_lo, ← h.path_up, path_sub]
      push_cast
      ring
    rw [q3]
    unfold hgt
    rw [real_smul]
    ring
  -- strips
  have hcongr : ∀ k ∈ Ico e.lo e.up, ∀ s ∈ Ioo (y k).im (y (k + 1)).im, G s = (zeta m ^ j) ^ e.rc (k + 1) * (om ((j : ℝ) / m) n y (mono i) (path p q s) * ((p : ℂ) + I)) := by
    intro k hk s hsk
    obtain ⟨c1, c2⟩ := strip_cmp (e := e) hs htop hk.2 hsk
    rw [hG]
    simp only
    rw [Yc_strip hm (j := k + 1) hk.2 htop (by rw [path_im]; exact c1) (by rw [path_im]; exact c2)]
    unfold om rt
    rw [cpol_mono, mul_pow, ← Finset.prod_pow]
    simp only [cpow_root_pow]
    rw [inv_pow, inv_pow, ← pow_mul, ← pow_mul, mul_comm j, div_mul_eq_div_div, div_inv_eq_mul]
    ring
  have hint : ∀ k ∈ Ico e.lo e.up, IntervalIntegrable G volume (y k).im (y (k + 1)).im := by
    intro k hk
    have hle : (y k).im ≤ (y (k + 1)).im := (hs k (k + 1) (by omega) (by have := hk.2; omega)).le
    have := ((integrable_path (q := q) hc hd h.slope).const_mul ((zeta m ^ j) ^ e.rc (k + 1))).intervalIntegrable (a := (y k).im) (b := (y (k + 1)).im)
    rw [intervalIntegrable_iff_integrableOn_Ioo_of_le hle] at this ⊢
    exact this.congr_fun (fun s hs => (hcongr k hk s hs).symm) measurableSet_Ioo
  have e2 := intervalIntegral.sum_integral_adjacent_intervals_Ico (a := fun k => (y k).im) hlt.le hint
  rw [e1, ← e2, ← Along.sum h hc hd hs h1]
  refine Finset.sum_congr rfl fun k hk => ?_
  have hk' := Finset.mem_Ico.1 hk
  have hle : (y k).im ≤ (y (k + 1)).im := (hs k (k + 1) (by omega) (by omega)).le
  rw [← intervalIntegral.integral_const_mul, intervalIntegral.integral_of_le hle, intervalIntegral.integral_of_le hle, integral_Ioc_eq_integral_Ioo, integral_Ioc_eq_integral_Ioo]
  exact setIntegral_congr_fun measurableSet_Ioo fun s hs => hcongr k hk' s hs

end

end Hcp.Cut
