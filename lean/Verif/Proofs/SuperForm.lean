import Verif.Proofs.SuperChain

/-!
# The relations of Riemann from data which do not depend on the sheets
-/

namespace Hcp.Super
open Complex Spec Finset

/-- What depends on the edges only: the periods `W0`, the form `Kh` and the dual vectors `u`, for each differential. -/
structure FormData (m N g : Nat) (K : Matrix (Fin (N * (m - 1))) (Fin (N * (m - 1))) ℤ) (W : Matrix (Fin g) (Fin (N * (m - 1))) ℂ) where
  j : Fin g → Nat
  W0 : Fin g → Nat → ℂ
  Kh : Fin g → Nat → Nat → ℂ
  u : Fin g → Nat → ℂ
  hj : ∀ i, 0 < j i ∧ j i < m
  hK : ∀ i, ∀ k < N, ∀ b : Fin (N * (m - 1)), ∑ α ∈ range (m - 1), ((zeta m ^ j i) ^ (-(α : ℤ)) - zeta m ^ j i) * (if h : k * (m - 1) + α < N * (m - 1) then (K ⟨k * (m - 1) + α, h⟩ b : ℂ) else 0) = (zeta m ^ j i) ^ (-((b.val % (m - 1) : ℕ) : ℤ)) * Kh i k (b.val / (m - 1))
  hW : ∀ i (a : Fin (N * (m - 1))), W i a = W0 i (a.val / (m - 1)) * (zeta m ^ j i) ^ (-((a.val % (m - 1) : ℕ) : ℤ))
  hu : ∀ i, ∀ l < N, ∑ k ∈ range N, u i k * Kh i k l = W0 i l
  two : ∀ i i', j i + j i' = m → ∑ k ∈ range N, W0 i k * u i' k = 0
  pos : ∀ (J : Nat) (c : Fin g → ℂ), (∀ i, j i ≠ J → c i = 0) → c ≠ 0 → 0 < (I * ∑ k ∈ range N, (∑ i, c i * W0 i k) * (starRingEnd ℂ) (∑ i, c i * u i k)).re

section
variable {m N g : Nat} {K : Matrix (Fin (N * (m - 1))) (Fin (N * (m - 1))) ℤ} {W : Matrix (Fin g) (Fin (N * (m - 1))) ℂ}

noncomputable def FormData.z (d : FormData m N g K W) (i : Fin g) : ℂ := zeta m ^ d.j i
noncomputable def FormData.V (d : FormData m N g K W) : Matrix (Fin g) (Fin (N * (m - 1))) ℂ := Matrix.of fun i a => d.u i (a.val / (m - 1)) * (d.z i ^ (-((a.val % (m - 1) : ℕ) : ℤ)) - d.z i)

theorem FormData.z_pow (d : FormData m N g K W) (hm : 2 ≤ m) (i : Fin g) : d.z i ^ m = 1 := by
  have hzm : zeta m ^ m = 1 := (Complex.isPrimitiveRoot_exp m (by omega)).pow_eq_one
  unfold FormData.z
  rw [← pow_mul, mul_comm, pow_mul, hzm, one_pow]

theorem FormData.z_ne_one (d : FormData m N g K W) (i : Fin g) : d.z i ≠ 1 := by
  obtain ⟨h1, h2⟩ := d.hj i
  have hp : IsPrimitiveRoot (zeta m) m := Complex.isPrimitiveRoot_exp m (by omega)
  intro h
  have := hp.dvd_of_pow_eq_one _ h
  exact absurd (Nat.le_of_dvd h1 this) (by omega)

theorem FormData.z_prod (d : FormData m N g K W) (i i' : Fin g) (h : d.z i * d.z i' = 1) : d.j i + d.j i' = m := by
  obtain ⟨h1, h2⟩ := d.hj i
  obtain ⟨h3, h4⟩ := d.hj i'
  have hp : IsPrimitiveRoot (zeta m) m := Complex.isPrimitiveRoot_exp m (by omega)
  unfold FormData.z at h
  rw [← pow_add, hp.pow_eq_one_iff_dvd] at h
  obtain ⟨k, hk⟩ := h
  have k1 : 0 < k := by
    by_contra h
    obtain rfl : k = 0 := by omega
    omega
  have k2 : k < 2 := by
    by_contra h
    have : m * 2 ≤ m * k := Nat.mul_le_mul_left _ (by omega)
    omega
  obtain rfl : k = 1 := by omega
  omega

theorem FormData.z_inj (d : FormData m N g K W) (i i' : Fin g) : d.z i * (starRingEnd ℂ) (d.z i') = 1 ↔ d.j i = d.j i' := by
  obtain ⟨h1, h2⟩ := d.hj i
  obtain ⟨h3, h4⟩ := d.hj i'
  have hp : IsPrimitiveRoot (zeta m) m := Complex.isPrimitiveRoot_exp m (by omega)
  have hn : ‖zeta m‖ = 1 := hp.norm'_eq_one (by omega)
  have hz0 : zeta m ≠ 0 := by
    rw [← norm_pos_iff, hn]
    exact one_pos
  have hc : (starRingEnd ℂ) (d.z i') = (d.z i')⁻¹ := by
    refine (Complex.inv_eq_conj ?_).symm
    unfold FormData.z
    rw [norm_pow, hn, one_pow]
  have h0 : d.z i' ≠ 0 := pow_ne_zero _ hz0
  rw [hc, ← div_eq_mul_inv, div_eq_one_iff_eq h0]
  constructor
  · exact hp.pow_inj h2 h4
  · intro h
    unfold FormData.z
    rw [h]

theorem FormData.dual (d : FormData m N g K W) (hm : 2 ≤ m) (i : Fin g) (b : Fin (N * (m - 1))) : ∑ a, d.V i a * K a b = W i b := by
  have hm1 : 0 < m - 1 := by omega
  have hbN : b.val / (m - 1) < N := Nat.div_lt_of_lt_mul (lt_of_lt_of_eq b.isLt (Nat.mul_comm _ _))
  let F : Nat → Nat → ℂ := fun k α => d.u i k * ((d.z i ^ (-(α : ℤ)) - d.z i) * (if h : k * (m - 1) + α < N * (m - 1) then (K ⟨k * (m - 1) + α, h⟩ b : ℂ) else 0))
  have e1 : ∑ a, d.V i a * K a b = ∑ a : Fin (N * (m - 1)), F (a.val / (m - 1)) (a.val % (m - 1)) := by
    refine sum_congr rfl fun a _ => ?_
    simp only [F, FormData.V, Matrix.of_apply, Nat.div_add_mod', a.isLt, dite_true, Fin.eta]
    ring
  rw [e1, sum_pairs F, d.hW, ← d.hu i _ hbN, ← Finset.sum_range (fun k => ∑ α ∈ range (m - 1), F k α), sum_mul]
  refine sum_congr rfl fun k hk => ?_
  have := d.hK i k (mem_range.1 hk) b
  simp only [F]
  rw [← mul_sum]
  unfold FormData.z
  rw [this]
  ring

/-- the form of two dual vectors, the second one multiplied by a character -/
theorem FormData.pairing (d : FormData m N g K W) (hm : 2 ≤ m) (i : Fin g) (x : Nat → ℂ) {y : ℂ} (hy : y ^ m = 1) :
    ∑ b : Fin (N * (m - 1)), W i b * (x (b.val / (m - 1)) * (y ^ (-((b.val % (m - 1) : ℕ) : ℤ)) - y)) = (if d.z i * y = 1 then (m : ℂ) else 0) * ∑ k ∈ range N, d.W0 i k * x k := by
  simp only [d.hW]
  rw [sum_pairs (fun k α => d.W0 i k * (zeta m ^ d.j i) ^ (-(α : ℤ)) * (x k * (y ^ (-(α : ℤ)) - y))), mul_sum, Finset.sum_range]
  refine sum_congr rfl fun k _ => ?_
  rw [← sum_chars (by omega) (d.z_pow hm i) hy (d.z_ne_one i), sum_mul]
  refine sum_congr rfl fun α _ => ?_
  rw [zpow_neg, zpow_neg, zpow_natCast, zpow_natCast]
  unfold FormData.z
  ring

theorem FormData.hermitian (d : FormData m N g K W) (hm : 2 ≤ m) (i i' : Fin g) : ∑ a, ∑ b, d.V i a * K a b * (starRingEnd ℂ) (d.V i' b) = (if d.j i = d.j i' then (m : ℂ) else 0) * ∑ k ∈ range N, d.W0 i k * (starRingEnd ℂ) (d.u i' k) := by
  rw [sum_comm]
  simp only [← sum_mul, d.dual hm]
  have hc : ∀ b : Fin (N * (m - 1)), (starRingEnd ℂ) (d.V i' b) = (starRingEnd ℂ) (d.u i' (b.val / (m - 1))) * (((starRingEnd ℂ) (d.z i')) ^ (-((b.val % (m - 1) : ℕ) : ℤ)) - (starRingEnd ℂ) (d.z i')) := by
    intro b
    simp only [FormData.V, Matrix.of_apply, map_mul, map_sub, map_zpow₀]
  simp only [hc]
  refine (d.pairing hm i (fun k => (starRingEnd ℂ) (d.u i' k)) (y := (starRingEnd ℂ) (d.z i')) (by rw [← map_pow, d.z_pow hm, map_one])).trans ?_
  simp only [d.z_inj]

/-- **the relations of Riemann** -/
theorem FormData.relations (d : FormData m N g K W) (hm : 2 ≤ m) : RiemannRelations W K := by
  refine ⟨d.V, fun r b => d.dual hm r b, fun r s => ?_, fun v hv => ?_⟩
  · rw [sum_comm]
    simp only [← sum_mul, d.dual hm]
    refine (d.pairing hm r (d.u s) (d.z_pow hm s)).trans ?_
    by_cases h : d.z r * d.z s = 1
    · rw [d.two r s (d.z_prod r s h), mul_zero]
    · rw [if_neg h, zero_mul]
  · -- the form is a sum over the exponents
    let c : Nat → Fin g → ℂ := fun J i => if d.j i = J then v i else 0
    have e1 : ∑ a, ∑ b, (∑ r, v r * d.V r a) * K a b * (starRingEnd ℂ) (∑ r, v r * d.V r b) = ∑ i, ∑ i', v i * (starRingEnd ℂ) (v i') * ∑ a, ∑ b, d.V i a * K a b * (starRingEnd ℂ) (d.V i' b) := by
      simp only [map_sum, map_mul, sum_mul, mul_sum]
      calc _ = ∑ a, ∑ b, ∑ i', ∑ i, v i * d.V i a * (K a b : ℂ) * ((starRingEnd ℂ) (v i') * (starRingEnd ℂ) (d.V i' b)) := by
            refine sum_congr rfl fun a _ => sum_congr rfl fun b _ => ?_
            rfl
        _ = ∑ a, ∑ i, ∑ i', ∑ b, v i * d.V i a * (K a b : ℂ) * ((starRingEnd ℂ) (v i') * (starRingEnd ℂ) (d.V i' b)) := by
            refine sum_congr rfl fun a _ => ?_
            rw [sum_comm]
            rw [sum_congr rfl fun i' _ => sum_comm]
            rw [sum_comm]
        _ = ∑ i, ∑ i', ∑ a, ∑ b, v i * d.V i a * (K a b : ℂ) * ((starRingEnd ℂ) (v i') * (starRingEnd ℂ) (d.V i' b)) := by
            rw [sum_comm]
            refine sum_congr rfl fun i _ => ?_
            rw [sum_comm]
        _ = _ := by
            refine sum_congr rfl fun i _ => sum_congr rfl fun i' _ => sum_congr rfl fun a _ => sum_congr rfl fun b _ => ?_
            ring
    have e2 : ∑ i, ∑ i', v i * (starRingEnd ℂ) (v i') * ∑ a, ∑ b, d.V i a * K a b * (starRingEnd ℂ) (d.V i' b) = m * ∑ J ∈ range m, ∑ k ∈ range N, (∑ i, c J i * d.W0 i k) * (starRingEnd ℂ) (∑ i, c J i * d.u i k) := by
      simp only [d.hermitian hm]
      have e3 : ∀ i i' : Fin g, v i * (starRingEnd ℂ) (v i') * ((if d.j i = d.j i' then (m : ℂ) else 0) * ∑ k ∈ range N, d.W0 i k * (starRingEnd ℂ) (d.u i' k)) = m * ∑ J ∈ range m, ∑ k ∈ range N, (c J i * d.W0 i k) * (starRingEnd ℂ) (c J i' * d.u i' k) := by
        intro i i'
        have e4 : ∑ J ∈ range m, ∑ k ∈ range N, (c J i * d.W0 i k) * (starRingEnd ℂ) (c J i' * d.u i' k) = ∑ k ∈ range N, (c (d.j i) i * d.W0 i k) * (starRingEnd ℂ) (c (d.j i) i' * d.u i' k) := by
          refine Finset.sum_eq_single (d.j i) (fun J _ hJ => ?_) fun h => absurd (mem_range.2 (d.hj i).2) h
          refine sum_eq_zero fun k _ => ?_
          have : c J i = 0 := if_neg (Ne.symm hJ)
          rw [this, zero_mul, zero_mul]
        rw [e4]
        have h1 : c (d.j i) i = v i := if_pos rfl
        by_cases h : d.j i = d.j i'
        · have h2 : c (d.j i) i' = v i' := if_pos h.symm
          rw [if_pos h, h1, h2]
          simp only [mul_sum, map_mul]
          exact sum_congr rfl fun k _ => by ring
        · have h2 : c (d.j i) i' = 0 := if_neg (Ne.symm h)
          rw [if_neg h, h2]
          simp
      simp only [e3]
      simp only [← mul_sum]
      congr 1
      calc _ = ∑ i, ∑ J ∈ range m, ∑ i', ∑ k ∈ range N, (c J i * d.W0 i k) * (starRingEnd ℂ) (c J i' * d.u i' k) := sum_congr rfl fun i _ => sum_comm
        _ = ∑ J ∈ range m, ∑ i, ∑ i', ∑ k ∈ range N, (c J i * d.W0 i k) * (starRingEnd ℂ) (c J i' * d.u i' k) := sum_comm
        _ = _ := by
          refine sum_congr rfl fun J _ => ?_
          rw [sum_congr rfl fun i _ => sum_comm, sum_comm]
          refine sum_congr rfl fun k _ => ?_
          rw [map_sum, sum_mul]
          exact sum_congr rfl fun i _ => by rw [mul_sum]
    rw [e1, e2, mul_left_comm, ← ofReal_natCast, re_ofReal_mul, mul_sum, re_sum]
    refine mul_pos (by exact_mod_cast (by omega : 0 < m)) ?_
    obtain ⟨i0, hi0⟩ := Function.ne_iff.1 hv
    have hpos : ∀ J, c J ≠ 0 → 0 < (I * ∑ k ∈ range N, (∑ i, c J i * d.W0 i k) * (starRingEnd ℂ) (∑ i, c J i * d.u i k)).re := fun J hJ => d.pos J (c J) (fun i hi => if_neg hi) hJ
    refine Finset.sum_pos' (fun J _ => ?_) ⟨d.j i0, mem_range.2 (d.hj i0).2, hpos _ fun h => hi0 ?_⟩
    · by_cases hJ : c J = 0
      · rw [hJ]
        simp
      · exact (hpos J hJ).le
    · have := congrFun h i0
      simpa [c] using this

end

end Hcp.Super
