import Verif.Proofs.RealGaps

/-!
# The form of Riemann on the integrals between consecutive real roots
-/

namespace Hcp.HalfPlane
open Complex Set MeasureTheory Filter Topology Interval

/-- `∑_{i < j < N} x_i y_j` -/
def tri (N : Nat) (x y : Nat → ℝ) : ℝ := ∑ j ∈ Finset.range N, (∑ i ∈ Finset.range j, x i) * y j

theorem tri_add (N : Nat) (x y : Nat → ℝ) : tri N x y + tri N y x + ∑ i ∈ Finset.range N, x i * y i = (∑ i ∈ Finset.range N, x i) * ∑ i ∈ Finset.range N, y i := by
  unfold tri
  induction N with
  | zero => simp
  | succ N ih =>
    simp only [Finset.sum_range_succ]
    linear_combination ih

theorem tri_succ' (N : Nat) (x y : Nat → ℝ) : tri (N + 1) x y = x 0 * (∑ j ∈ Finset.range N, y (j + 1)) + tri N (fun i => x (i + 1)) fun j => y (j + 1) := by
  unfold tri
  rw [Finset.sum_range_succ', Finset.sum_range_zero, zero_mul, add_zero, Finset.mul_sum, ← Finset.sum_add_distrib]
  refine Finset.sum_congr rfl fun j _ => ?_
  rw [Finset.sum_range_succ']
  ring

theorem tri_congr {N : Nat} {x y x' y' : Nat → ℝ} (hx : ∀ i < N, x i = x' i) (hy : ∀ i < N, y i = y' i) : tri N x y = tri N x' y' := by
  unfold tri
  refine Finset.sum_congr rfl fun j hj => ?_
  have := Finset.mem_range.1 hj
  rw [hy j this]
  congr 1
  exact Finset.sum_congr rfl fun i hi => hx i (by have := Finset.mem_range.1 hi; omega)

theorem le_zero_of {d c R1 : ℝ} (h : ∀ R, R1 ≤ R → d ≤ c / √R) : d ≤ 0 := by
  have h1 : Tendsto (fun R : ℝ => c / √R) atTop (𝓝 0) := tendsto_const_nhds.div_atTop Real.tendsto_sqrt_atTop
  refine ge_of_tendsto h1 ?_
  filter_upwards [eventually_ge_atTop R1] with R hR using h R hR

section
variable {n g : Nat} {ξ : Nat → ℝ}

/-- real and imaginary parts on the segments -/
noncomputable def ev (n : Nat) (ξ : Nat → ℝ) {g : Nat} (R : ℝ) (a : Fin g → ℝ) (j : Nat) : ℝ := eps j * gap n ξ R a j
noncomputable def od (n : Nat) (ξ : Nat → ℝ) {g : Nat} (R : ℝ) (a : Fin g → ℝ) (j : Nat) : ℝ := ome j * gap n ξ R a j

/-- sums over all segments -/
theorem line_rel (hmono : ∀ i j, i < j → j < n → ξ i < ξ j) (hng : 2 * g < n) (a b : Fin g → ℝ) : ∃ K R1, 0 ≤ K ∧ 2 ≤ R1 ∧ ∀ R, R1 ≤ R → Sorted n ξ R ∧
    |∑ j ∈ Finset.range (n + 1), ev n ξ R a j| ≤ K / √R ∧ |∑ j ∈ Finset.range (n + 1), od n ξ R a j| ≤ K / √R ∧
    |tri (n + 1) (ev n ξ R a) (od n ξ R b) + tri (n + 1) (od n ξ R a) (ev n ξ R b)| ≤ K / √R ∧ |gap n ξ R a 0| ≤ K ∧ |gap n ξ R a n| ≤ K := by
  have hn : 0 < n := by omega
  have hξ : InjOn ξ (Iio n) := by
    intro i hi j hj e
    rcases lt_trichotomy i j with h1 | h1 | h1
    · exact absurd e (hmono i j h1 hj).ne
    · exact h1
    · exact absurd e.symm (hmono j i h1 hi).ne
  obtain ⟨K, hK⟩ := line_small hξ hng a b
  obtain ⟨M, hM⟩ := pri_bounded (a := a) hξ hng
  obtain ⟨R0, h1, hR0⟩ : ∃ R0 : ℝ, 2 ≤ R0 ∧ ∀ k < n, 2 * |ξ k| ≤ R0 := by
    refine ⟨2 + ∑ k ∈ Finset.range n, 2 * |ξ k|, by have : 0 ≤ ∑ k ∈ Finset.range n, 2 * |ξ k| := by positivity
                                                    linarith, fun k hk => ?_⟩
    have := Finset.single_le_sum (f := fun k => 2 * |ξ k|) (fun i _ => by positivity) (Finset.mem_range.2 hk)
    linarith
  refine ⟨max (max K 0) (2 * |M|), R0, (le_max_right _ _).trans (le_max_left _ _), h1, fun R hR => ?_⟩
  have hRp : 0 < R := by linarith
  have hs0 : 0 < √R := Real.sqrt_pos.2 hRp
  have hRξ : ∀ k < n, 2 * |ξ k| ≤ R := fun k hk => (hR0 k hk).trans hR
  have hbd : ∀ k < n, -R < ξ k ∧ ξ k < R := fun k hk => abs_lt.1 (by linarith [hRξ k hk, abs_nonneg (ξ k)])
  have hS : Sorted n ξ R := ⟨hmono, fun k hk => (hbd k hk).1, fun k hk => (hbd k hk).2⟩
  obtain ⟨k1, k2⟩ := hK R (by linarith) hRξ
  have hKK : K / √R ≤ max (max K 0) (2 * |M|) / √R := by
    gcongr
    exact (le_max_left _ _).trans (le_max_left _ _)
  have hnI : ∀ z : ℂ, ‖(-I) ^ n * z‖ = ‖z‖ := fun z => by rw [norm_mul, norm_pow, norm_neg, norm_I, one_pow, one_mul]
  have hS1 : ∑ j ∈ Finset.range (n + 1), I ^ j * (gap n ξ R a j : ℂ) = ((∑ j ∈ Finset.range (n + 1), ev n ξ R a j : ℝ) : ℂ) + ((∑ j ∈ Finset.range (n + 1), od n ξ R a j : ℝ) : ℂ) * I := by
    push_cast
    rw [Finset.sum_mul, ← Finset.sum_add_distrib]
    refine Finset.sum_congr rfl fun j _ => ?_
    rw [I_pow, ev, od]
    push_cast
    ring
  rw [line_one hS hRp.le hn, hnI, hS1] at k1
  have k1e := (abs_re_le_norm _).trans k1
  have k1o := (abs_im_le_norm _).trans k1
  simp only [add_re, ofReal_re, mul_re, I_re, mul_zero, ofReal_im, I_im, mul_one, sub_self, add_zero, add_im, mul_im, zero_add] at k1e k1o
  refine ⟨hS, k1e.trans hKK, k1o.trans hKK, ?_, ?_, ?_⟩
  · rw [line_two hS hRp.le hn, norm_mul, norm_pow, norm_neg, norm_one, one_pow, one_mul] at k2
    refine le_trans (le_of_eq ?_) (((abs_im_le_norm _).trans k2).trans hKK)
    congr 1
    rw [im_sum]
    unfold tri
    rw [← Finset.sum_add_distrib]
    refine Finset.sum_congr rfl fun j _ => ?_
    have e1 : ∀ N, ∑ i ∈ Finset.range N, I ^ i * (gap n ξ R a i : ℂ) = ((∑ i ∈ Finset.range N, ev n ξ R a i : ℝ) : ℂ) + ((∑ i ∈ Finset.range N, od n ξ R a i : ℝ) : ℂ) * I := by
      intro N
      push_cast
      rw [Finset.sum_mul, ← Finset.sum_add_distrib]
      refine Finset.sum_congr rfl fun j _ => ?_
      rw [I_pow, ev, od]
      push_cast
      ring
    have e2 : I ^ j * (gap n ξ R b j : ℂ) = (ev n ξ R b j : ℂ) + (od n ξ R b j : ℂ) * I := by
      rw [I_pow, ev, od]
      push_cast
      ring
    have e3 : (I ^ j * I ^ j * (diag n ξ R a b j : ℂ)).im = 0 := by
      rw [I_pow]
      have := eps_ome j
      simp only [mul_im, add_re, add_im, mul_re, ofReal_re, ofReal_im, I_re, I_im]
      linear_combination (2 * diag n ξ R a b j) * this
    rw [add_im, e3, e1, e2]
    simp only [add_re, ofReal_re, mul_re, I_re, mul_zero, ofReal_im, I_im, mul_one, sub_self, add_zero, add_im, mul_im, zero_add]
  · have h0 := hM R 0 (by linarith) hRξ le_rfl zero_le_one (ξ 0) ⟨(hS.lo 0 hn).le, (hS.hi 0 hn).le⟩
    have e : pri n ξ a R 0 (ξ 0) = (-I) ^ n * (gap n ξ R a 0 : ℂ) := by
      have := gap_dif (a := a) hS hRp.le (Nat.zero_le n)
      rw [cut_mid R hn, pow_zero, mul_one] at this
      rw [pri_zero, this]
    rw [e, hnI, norm_real, Real.norm_eq_abs] at h0
    refine h0.trans ((le_abs_self M).trans (le_trans ?_ (le_max_right _ _)))
    linarith [abs_nonneg M]
  · have h0 := hM R 0 (by linarith) hRξ le_rfl zero_le_one R ⟨by linarith, le_rfl⟩
    have h2 := hM R 0 (by linarith) hRξ le_rfl zero_le_one (ξ (n - 1)) ⟨(hS.lo _ (by omega)).le, (hS.hi _ (by omega)).le⟩
    have e : pri n ξ a R 0 R - pri n ξ a R 0 (ξ (n - 1)) = (-I) ^ n * (I ^ n * (gap n ξ R a n : ℂ)) := by
      have := gap_dif (a := a) hS hRp.le le_rfl
      rw [cut_last] at this
      have hcm : cut n ξ R n = ξ (n - 1) := by
        have := cut_mid (n := n) (ξ := ξ) R (j := n - 1) (by omega)
        rwa [show n - 1 + 1 = n by omega] at this
      rw [hcm] at this
      rw [pri_zero, pri_zero, intervalIntegral.integral_interval_sub_left (dif_int hξ hn _ _) (dif_int hξ hn _ _), this, mul_assoc]
    have h3 := (norm_sub_le _ _).trans (add_le_add h0 h2)
    rw [e, hnI, norm_mul, norm_pow, norm_I, one_pow, one_mul, norm_real, Real.norm_eq_abs] at h3
    refine h3.trans (le_trans ?_ (le_max_right _ _))
    linarith [le_abs_self M]

theorem line_rel_pos (hmono : ∀ i j, i < j → j < n → ξ i < ξ j) (hng : 2 * g < n) {a : Fin g → ℝ} (ha : a ≠ 0) : ∃ δ K R1 : ℝ, 0 < δ ∧ 2 ≤ R1 ∧ ∀ R, R1 ≤ R → Sorted n ξ R →
    2 * δ - K / √R ≤ tri (n + 1) (ev n ξ R a) (od n ξ R a) - tri (n + 1) (od n ξ R a) (ev n ξ R a) := by
  have hn : 0 < n := by omega
  have hξ : InjOn ξ (Iio n) := by
    intro i hi j hj e
    rcases lt_trichotomy i j with h1 | h1 | h1
    · exact absurd e (hmono i j h1 hj).ne
    · exact h1
    · exact absurd e.symm (hmono j i h1 hi).ne
  obtain ⟨δ, K, R1, hδ, hp⟩ := line_pos hξ hng ha
  obtain ⟨R0, h1, hR0⟩ : ∃ R0 : ℝ, 2 ≤ R0 ∧ ∀ k < n, 2 * |ξ k| ≤ R0 := by
    refine ⟨2 + ∑ k ∈ Finset.range n, 2 * |ξ k|, by have : 0 ≤ ∑ k ∈ Finset.range n, 2 * |ξ k| := by positivity
                                                    linarith, fun k hk => ?_⟩
    have := Finset.single_le_sum (f := fun k => 2 * |ξ k|) (fun i _ => by positivity) (Finset.mem_range.2 hk)
    linarith
  refine ⟨δ, K, max R0 R1, hδ, h1.trans (le_max_left _ _), fun R hR hS => ?_⟩
  have hR0' := (le_max_left _ _).trans hR
  have hRp : 0 < R := by linarith
  have := hp R ((le_max_right _ _).trans hR) (by linarith) fun k hk => (hR0 k hk).trans hR0'
  rw [line_conj hS hRp.le hn, im_sum] at this
  refine this.trans (le_of_eq ?_)
  unfold tri
  rw [← Finset.sum_sub_distrib]
  refine Finset.sum_congr rfl fun j _ => ?_
  have e1 : ∀ N, ∑ i ∈ Finset.range N, (starRingEnd ℂ) (I ^ i) * (gap n ξ R a i : ℂ) = ((∑ i ∈ Finset.range N, ev n ξ R a i : ℝ) : ℂ) - ((∑ i ∈ Finset.range N, od n ξ R a i : ℝ) : ℂ) * I := by
    intro N
    push_cast
    rw [Finset.sum_mul, ← Finset.sum_sub_distrib]
    refine Finset.sum_congr rfl fun j _ => ?_
    rw [I_pow, ev, od, map_add, map_mul, conj_I, conj_ofReal, conj_ofReal]
    push_cast
    ring
  have e2 : I ^ j * (gap n ξ R a j : ℂ) = (ev n ξ R a j : ℂ) + (od n ξ R a j : ℂ) * I := by
    rw [I_pow, ev, od]
    push_cast
    ring
  rw [add_im, e1, e2]
  simp only [add_re, sub_re, sub_im, ofReal_re, mul_re, I_re, mul_zero, ofReal_im, I_im, mul_one, sub_self, add_zero, add_im, mul_im, zero_add]
  ring

/-- integral of the real integrand between two consecutive roots -/
noncomputable def seg (n : Nat) (ξ : Nat → ℝ) {g : Nat} (a : Fin g → ℝ) (j : Nat) : ℝ := ∫ x in (ξ j)..(ξ (j + 1)), rdif n ξ a x

/-- the form, on `2 g` consecutive segments from number `s` on -/
noncomputable def form (n : Nat) (ξ : Nat → ℝ) {g : Nat} (s : Nat) (a b : Fin g → ℝ) : ℝ := tri (2 * g) (fun p => eps p * seg n ξ b (s + p)) fun q => ome q * seg n ξ a (s + q)

theorem gap_seg (R : ℝ) (a : Fin g → ℝ) {j : Nat} (hj : j + 1 < n) : gap n ξ R a (j + 1) = seg n ξ a j := by
  unfold gap seg
  rw [cut_mid R (by omega : j < n), cut_mid R hj]

/-- the first segments -/
theorem tri_first (hng : n = 2 * g + 1 ∨ n = 2 * g + 2) (R : ℝ) (a b : Fin g → ℝ) :
    tri (n + 1) (od n ξ R b) (ev n ξ R a) = -form n ξ 0 a b + (∑ j ∈ Finset.range (n + 1), od n ξ R b j) * ev n ξ R a n := by
  have h0 : od n ξ R b 0 = 0 := by rw [od, ome_zero, zero_mul]
  have hp := parity g
  have hp' := parity (g + 1)
  have hev : ev n ξ R a (2 * g + 1) = 0 := by rw [ev, hp.2, zero_mul]
  have hf : tri (2 * g) (fun i => od n ξ R b (i + 1)) (fun j => ev n ξ R a (j + 1)) = -form n ξ 0 a b := by
    unfold form
    rw [eq_neg_iff_add_eq_zero]
    unfold tri
    rw [← Finset.sum_add_distrib]
    refine Finset.sum_eq_zero fun j hj => ?_
    have hj' := Finset.mem_range.1 hj
    have e : ∑ i ∈ Finset.range j, od n ξ R b (i + 1) = ∑ i ∈ Finset.range j, eps i * seg n ξ b (0 + i) := by
      refine Finset.sum_congr rfl fun i hi => ?_
      have := Finset.mem_range.1 hi
      rw [od, ome_succ, gap_seg R b (by omega), Nat.zero_add]
    beta_reduce
    rw [e, ev, eps_succ, gap_seg R a (by omega), Nat.zero_add]
    ring
  have ht : ∀ N, tri (N + 1) (fun i => od n ξ R b (i + 1)) (fun j => ev n ξ R a (j + 1)) = tri N (fun i => od n ξ R b (i + 1)) (fun j => ev n ξ R a (j + 1)) + (∑ i ∈ Finset.range N, od n ξ R b (i + 1)) * ev n ξ R a (N + 1) := by
    intro N
    unfold tri
    rw [Finset.sum_range_succ]
  rw [tri_succ', h0, zero_mul, zero_add]
  rcases hng with rfl | rfl
  · rw [ht, hf, hev, mul_zero, mul_zero]
  · rw [show 2 * g + 2 = 2 * g + 1 + 1 by ring] at *
    rw [ht, ht, hf, hev, mul_zero, add_zero]
    congr 2
    have hl : od (2 * g + 1 + 1) ξ R b (2 * g + 1 + 1) = 0 := by rw [od, show 2 * g + 1 + 1 = 2 * (g + 1) by ring, hp'.1, zero_mul]
    conv_rhs => rw [Finset.sum_range_succ, hl, add_zero, Finset.sum_range_succ' _ (2 * g + 1), h0, add_zero]

/-- the last segments -/
theorem tri_last (hng : n = 2 * g + 2) (R : ℝ) (a b : Fin g → ℝ) :
    tri (n + 1) (ev n ξ R b) (od n ξ R a) = form n ξ 1 a b + ev n ξ R b 0 * ∑ j ∈ Finset.range (n + 1), od n ξ R a j := by
  subst hng
  set n := 2 * g + 2 with hn
  have h0 : od n ξ R a 0 = 0 := by rw [od, ome_zero, zero_mul]
  have hp := parity g
  have h1 : ev n ξ R b 1 = 0 := by have := (parity 0).2; rw [ev, show (1 : Nat) = 2 * 0 + 1 from rfl, this, zero_mul]
  have hl : od n ξ R a (2 * g + 2) = 0 := by rw [od, show 2 * g + 2 = 2 * (g + 1) by ring, (parity (g + 1)).1, zero_mul]
  have hs : ∑ j ∈ Finset.range (n + 1), od n ξ R a j = ∑ j ∈ Finset.range n, od n ξ R a (j + 1) := by
    rw [Finset.sum_range_succ', h0, add_zero]
  rw [tri_succ', hs, add_comm]
  congr 1
  rw [show n = 2 * g + 1 + 1 from rfl, tri_succ']
  simp only [Nat.zero_add]
  rw [show (2 * g + 1 + 1) = n from rfl, h1, zero_mul, zero_add]
  unfold tri form tri
  beta_reduce
  rw [Finset.sum_range_succ, hl, mul_zero, add_zero]
  refine Finset.sum_congr rfl fun j hj => ?_
  have hj' := Finset.mem_range.1 hj
  have e : ∑ i ∈ Finset.range j, ev n ξ R b (i + 1 + 1) = -∑ i ∈ Finset.range j, eps i * seg n ξ b (1 + i) := by
    rw [← Finset.sum_neg_distrib]
    refine Finset.sum_congr rfl fun i hi => ?_
    have := Finset.mem_range.1 hi
    rw [ev, eps_succ, ome_succ, gap_seg R b (by omega), Nat.add_comm 1 i]
    ring
  rw [e, od, ome_succ, eps_succ, gap_seg R a (by omega), Nat.add_comm 1 j]
  ring

theorem diag_zero (R : ℝ) (a b : Fin g → ℝ) (N : Nat) : ∑ i ∈ Finset.range N, ev n ξ R a i * od n ξ R b i = 0 :=
  Finset.sum_eq_zero fun i _ => by
    have := eps_ome i
    rw [ev, od]
    linear_combination (gap n ξ R a i * gap n ξ R b i) * this

/-- symmetric and positive: general argument -/
theorem form_of (hmono : ∀ i j, i < j → j < n → ξ i < ξ j) (hng : 2 * g < n) {h : (Fin g → ℝ) → (Fin g → ℝ) → ℝ}
    (hh : ∀ R a b, |tri (n + 1) (od n ξ R b) (ev n ξ R a) + h a b| ≤ (|∑ j ∈ Finset.range (n + 1), ev n ξ R a j| + |gap n ξ R a 0| + |gap n ξ R a n|) * |∑ j ∈ Finset.range (n + 1), od n ξ R b j|)
    (a b : Fin g → ℝ) : h a b = h b a ∧ (a ≠ 0 → 0 < h a a) := by
  have key : ∀ a b, ∃ K R1, 0 ≤ K ∧ 2 ≤ R1 ∧ ∀ R, R1 ≤ R → Sorted n ξ R ∧ |tri (n + 1) (ev n ξ R a) (od n ξ R b) + tri (n + 1) (od n ξ R a) (ev n ξ R b)| ≤ K / √R ∧
      |tri (n + 1) (ev n ξ R a) (od n ξ R b) + tri (n + 1) (od n ξ R b) (ev n ξ R a)| ≤ K / √R ∧
      |tri (n + 1) (od n ξ R b) (ev n ξ R a) + h a b| ≤ K / √R ∧ |tri (n + 1) (od n ξ R a) (ev n ξ R b) + h b a| ≤ K / √R := by
    intro a b
    obtain ⟨K1, R1, k1, r1, h1⟩ := line_rel hmono hng a b
    obtain ⟨K2, R2, k2, r2, h2⟩ := line_rel hmono hng b a
    set K := K1 + K2 with hK
    have hK0 : 0 ≤ K := by linarith
    refine ⟨3 * K * K + K, max R1 R2, by positivity, r1.trans (le_max_left _ _), fun R hR => ?_⟩
    obtain ⟨hS, e1, o1, t1, g1, g1'⟩ := h1 R ((le_max_left _ _).trans hR)
    obtain ⟨-, e2, o2, t2, g2, g2'⟩ := h2 R ((le_max_right _ _).trans hR)
    have hR2 : 2 ≤ R := r1.trans ((le_max_left _ _).trans hR)
    have hs : 1 ≤ √R := by rw [Real.one_le_sqrt]; linarith
    have hs0 : 0 < √R := by linarith
    have q1 : K1 / √R ≤ K / √R := by gcongr; linarith
    have q2 : K2 / √R ≤ K / √R := by gcongr; linarith
    have qK : K / √R ≤ K := div_le_self hK0 hs
    have q0 : 0 ≤ K / √R := by positivity
    set q := K / √R with hq
    have e3 : (3 * K * K + K) / √R = 3 * K * q + q := by rw [hq]; ring
    rw [e3]
    have hsq : q * q ≤ 3 * K * q + q := by nlinarith
    have b1 : ∀ x y z w : ℝ, |x| ≤ q → |y| ≤ K → |z| ≤ K → |w| ≤ q → (|x| + |y| + |z|) * |w| ≤ 3 * K * q + q := by
      intro x y z w hx hy hz hw
      have : (|x| + |y| + |z|) * |w| ≤ (3 * K) * q := mul_le_mul (by linarith) hw (abs_nonneg _) (by linarith)
      linarith
    refine ⟨hS, by have : 0 ≤ 3 * K * q := by positivity
                   linarith, ?_, (hh R a b).trans (b1 _ _ _ _ (by linarith) (by linarith) (by linarith) (by linarith)), (hh R b a).trans (b1 _ _ _ _ (by linarith) (by linarith) (by linarith) (by linarith))⟩
    have ht := tri_add (n + 1) (ev n ξ R a) (od n ξ R b)
    rw [diag_zero, add_zero] at ht
    rw [ht, abs_mul]
    exact (mul_le_mul (e1.trans q1) (o2.trans q2) (abs_nonneg _) q0).trans hsq
  refine ⟨?_, fun ha => ?_⟩
  · obtain ⟨K, R1, hK, hR1, hall⟩ := key a b
    have : |h a b - h b a| ≤ 0 := le_zero_of (c := 4 * K) (R1 := R1) fun R hR => by
      obtain ⟨-, t1, t2, t3, t4⟩ := hall R hR
      have e : 4 * K / √R = K / √R + K / √R + K / √R + K / √R := by ring
      rw [e]
      rw [abs_le] at *
      constructor <;> linarith
    have := abs_nonpos_iff.1 this
    linarith
  · obtain ⟨K, R1, hK, hR1, hall⟩ := key a a
    obtain ⟨δ, K', R2, hδ, hR2, hp⟩ := line_rel_pos hmono hng ha
    have : δ - h a a ≤ 0 := le_zero_of (c := 2 * K + K' / 2) (R1 := max R1 R2) fun R hR => by
      obtain ⟨hS, t1, t2, t3, t4⟩ := hall R ((le_max_left _ _).trans hR)
      have t5 := hp R ((le_max_right _ _).trans hR) hS
      have e : (2 * K + K' / 2) / √R = K / √R + K / √R + (K' / √R) / 2 := by ring
      rw [e]
      rw [abs_le] at *
      linarith [t1.1, t1.2, t2.1, t2.2, t3.1, t3.2, t4.1, t4.2]
    linarith

theorem abs_ev_le (R : ℝ) (a : Fin g → ℝ) (j : Nat) : |ev n ξ R a j| ≤ |gap n ξ R a j| := by
  have h1 : |eps j| ≤ 1 := by
    rw [← sq_le_one_iff_abs_le_one]
    have := eps_sq j
    nlinarith [sq_nonneg (ome j)]
  rw [ev, abs_mul]
  exact mul_le_of_le_one_left (abs_nonneg _) h1

/-- **The form of Riemann for increasing real roots** is symmetric and positive definite. -/
theorem form_riemann (hmono : ∀ i j, i < j → j < n → ξ i < ξ j) {s : Nat} (hs : (s = 0 ∧ (n = 2 * g + 1 ∨ n = 2 * g + 2)) ∨ (s = 1 ∧ n = 2 * g + 2)) (a b : Fin g → ℝ) :
    form n ξ s a b = form n ξ s b a ∧ (a ≠ 0 → 0 < form n ξ s a a) := by
  have hng : 2 * g < n := by omega
  rcases hs with ⟨rfl, hn⟩ | ⟨rfl, hn⟩
  · refine form_of hmono hng (h := form n ξ 0) (fun R a b => ?_) a b
    have := abs_ev_le (n := n) (ξ := ξ) R a n
    rw [tri_first hn, show ∀ x y : ℝ, -x + y + x = y by intro x y; ring, abs_mul, mul_comm]
    exact mul_le_mul_of_nonneg_right (by linarith [abs_nonneg (∑ j ∈ Finset.range (n + 1), ev n ξ R a j), abs_nonneg (gap n ξ R a 0)]) (abs_nonneg _)
  · have hb : ∀ (R : ℝ) (a b : Fin g → ℝ), |tri (n + 1) (od n ξ R b) (ev n ξ R a) + form n ξ 1 b a| ≤ (|∑ j ∈ Finset.range (n + 1), ev n ξ R a j| + |gap n ξ R a 0| + |gap n ξ R a n|) * |∑ j ∈ Finset.range (n + 1), od n ξ R b j| := by
      intro R a b
      have h1 := tri_last (ξ := ξ) hn R b a
      have h2 := tri_add (n + 1) (ev n ξ R a) (od n ξ R b)
      rw [diag_zero, add_zero] at h2
      have e : tri (n + 1) (od n ξ R b) (ev n ξ R a) + form n ξ 1 b a = (∑ j ∈ Finset.range (n + 1), ev n ξ R a j - ev n ξ R a 0) * ∑ j ∈ Finset.range (n + 1), od n ξ R b j := by
        linear_combination h2 - h1
      rw [e, abs_mul]
      have h3 := abs_ev_le (n := n) (ξ := ξ) R a 0
      exact mul_le_mul_of_nonneg_right (by linarith [abs_sub (∑ j ∈ Finset.range (n + 1), ev n ξ R a j) (ev n ξ R a 0), abs_nonneg (gap n ξ R a n)]) (abs_nonneg _)
    exact ⟨(form_of hmono hng hb b a).1, (form_of hmono hng hb a a).2⟩

end

end Hcp.HalfPlane
