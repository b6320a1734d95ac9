import Verif.Proofs.RealForm
import Verif.Spec.Riemann

/-!
# Riemann's relations for a chain of closed paths
-/

namespace Hcp.HalfPlane
open Complex Spec

theorem tri_right (N : Nat) (x y : Nat → ℝ) : ∑ b ∈ Finset.range N, x b * ∑ q ∈ Finset.Ico (b + 1) N, y q = tri N x y := by
  unfold tri
  induction N with
  | zero => simp
  | succ N ih =>
    rw [Finset.sum_range_succ, Finset.Ico_self, Finset.sum_empty, mul_zero, add_zero, Finset.sum_range_succ, ← ih, Finset.sum_mul, ← Finset.sum_add_distrib]
    refine Finset.sum_congr rfl fun b hb => ?_
    rw [Finset.sum_Ico_succ_top (by have := Finset.mem_range.1 hb; omega)]
    ring

/-- coordinates of the dual combination -/
noncomputable def dualC (N : Nat) (m : Nat → ℝ) (q : Nat) : ℝ := ome q * (∑ p ∈ Finset.range q, eps p * m p) + eps q * ∑ p ∈ Finset.Ico (q + 1) N, ome p * m p

theorem eps_ome_sq (q : Nat) : eps q * eps q + ome q * ome q = 1 := by have := eps_sq q; nlinarith

theorem dualC_zero {N : Nat} (m : Nat → ℝ) : dualC N m 1 = m 0 := by
  have h1 : ome 1 = 1 := by rw [show (1 : Nat) = 0 + 1 from rfl, ome_succ, eps_zero]
  have h2 : eps 1 = 0 := by rw [show (1 : Nat) = 0 + 1 from rfl, eps_succ, ome_zero, neg_zero]
  unfold dualC
  rw [h1, h2, Finset.sum_range_one, eps_zero]
  ring

theorem dualC_step {N q : Nat} (hq : q + 1 < N) (m : Nat → ℝ) : dualC N m q + dualC N m (q + 2) = m (q + 1) := by
  unfold dualC
  rw [eps_succ, ome_succ, ome_succ, eps_succ, Finset.sum_range_succ, Finset.sum_range_succ, eps_succ, Finset.sum_eq_sum_Ico_succ_bot (by omega : q + 1 < N)]
  have h1 := eps_ome_sq q
  have h2 := eps_ome q
  rcases Nat.lt_or_ge (q + 1 + 1) N with h | h
  · rw [Finset.sum_eq_sum_Ico_succ_bot h, ome_succ, ome_succ, eps_succ]
    linear_combination m (q + 1) * h1 + (-(m q) - m (q + 2)) * h2
  · rw [Finset.Ico_eq_empty (by omega), Finset.Ico_eq_empty (by omega), Finset.sum_empty, ome_succ]
    linear_combination m (q + 1) * h1 - m q * h2

theorem dualC_end {k : Nat} (m : Nat → ℝ) : dualC (2 * k) m (2 * k) = 0 := by
  unfold dualC
  rw [(parity k).1, Finset.Ico_eq_empty (by omega), Finset.sum_empty]
  ring

theorem sum_dualC (N : Nat) (m m' : Nat → ℝ) : ∑ q ∈ Finset.range N, m q * dualC N m' q = tri N (fun p => eps p * m' p) (fun q => ome q * m q) + tri N (fun p => eps p * m p) (fun q => ome q * m' q) := by
  rw [← tri_right N (fun p => eps p * m p)]
  unfold tri dualC
  rw [← Finset.sum_add_distrib]
  exact Finset.sum_congr rfl fun q _ => by ring

theorem sum_dualC_alt (N : Nat) (m m' : Nat → ℝ) : ∑ q ∈ Finset.range N, (-1) ^ q * (m q * dualC N m' q) = tri N (fun p => eps p * m p) (fun q => ome q * m' q) - tri N (fun p => eps p * m' p) (fun q => ome q * m q) := by
  have hs : ∀ q, (-1 : ℝ) ^ q = eps q * eps q - ome q * ome q := by
    intro q
    induction q with
    | zero => rw [eps_zero, ome_zero]; norm_num
    | succ q ih => rw [pow_succ, ih, eps_succ, ome_succ]; ring
  rw [← tri_right N (fun p => eps p * m p)]
  unfold tri dualC
  rw [← Finset.sum_sub_distrib]
  refine Finset.sum_congr rfl fun q _ => ?_
  rw [hs]
  have h1 := eps_ome_sq q
  have h2 := eps_ome q
  set A := ∑ p ∈ Finset.range q, eps p * m' p
  set B := ∑ p ∈ Finset.Ico (q + 1) N, ome p * m' p
  linear_combination (m q * (eps q * B - ome q * A)) * h1 + (2 * m q * (eps q * A - ome q * B)) * h2

theorem sum_tridiag {N : Nat} {K : Matrix (Fin N) (Fin N) ℤ} {κ : Nat → ℤ} (hK1 : ∀ p q : Fin N, p.val + 1 = q.val → K p q = κ p) (hK2 : ∀ p q : Fin N, q.val + 1 = p.val → K p q = -κ q)
    (hK0 : ∀ p q : Fin N, p.val + 1 ≠ q.val → q.val + 1 ≠ p.val → K p q = 0) (v : Nat → ℂ) (q : Fin N) :
    ∑ p : Fin N, v p * K p q = (if 0 < q.val then v (q - 1) * κ (q - 1) else 0) - if q.val + 1 < N then v (q + 1) * κ q else 0 := by
  have e : ∀ p : Fin N, v p * K p q = (if p.val + 1 = q.val then v (q - 1) * κ (q - 1) else 0) - if p.val = q.val + 1 then v (q + 1) * κ q else 0 := by
    intro p
    by_cases h1 : p.val + 1 = q.val
    · rw [hK1 p q h1, if_pos h1, if_neg (by omega), sub_zero, show q.val - 1 = p.val by omega]
    · by_cases h2 : p.val = q.val + 1
      · rw [hK2 p q h2.symm, if_neg h1, if_pos h2, zero_sub, ← h2]
        push_cast
        ring
      · rw [hK0 p q h1 (fun h => h2 h.symm), if_neg h1, if_neg h2]
        simp
  rw [Finset.sum_congr rfl fun p _ => e p, Finset.sum_sub_distrib]
  congr 1
  · by_cases h : 0 < q.val
    · rw [if_pos h, Finset.sum_eq_single ⟨q.val - 1, by omega⟩]
      · rw [if_pos (by show q.val - 1 + 1 = q.val; omega)]
      · intro p _ hp
        rw [if_neg fun h' => hp (Fin.ext (by show p.val = q.val - 1; omega))]
      · intro h'
        exact absurd (Finset.mem_univ _) h'
    · rw [if_neg h]
      exact Finset.sum_eq_zero fun p _ => if_neg (by omega)
  · by_cases h : q.val + 1 < N
    · rw [if_pos h, Finset.sum_eq_single ⟨q.val + 1, h⟩]
      · rw [if_pos rfl]
      · intro p _ hp
        rw [if_neg fun h' => hp (Fin.ext h')]
      · intro h'
        exact absurd (Finset.mem_univ _) h'
    · rw [if_neg h]
      exact Finset.sum_eq_zero fun p _ => if_neg (by omega)

/-- combination of rows -/
noncomputable def comb {g : Nat} (m : Fin g → Nat → ℝ) (a : Fin g → ℝ) (q : Nat) : ℝ := ∑ r, a r * m r q

/-- **Riemann's relations for a chain**: each closed path meets the next one once, and the periods are real multiples of fourth roots of unity turning with the intersection numbers. -/
theorem relations_chain {g : Nat} {W : Matrix (Fin g) (Fin (2 * g)) ℂ} {K : Matrix (Fin (2 * g)) (Fin (2 * g)) ℤ} {κ : Nat → ℤ} {σ : Nat → ℂ} {m : Fin g → Nat → ℝ}
    (hK1 : ∀ p q : Fin (2 * g), p.val + 1 = q.val → K p q = κ p) (hK2 : ∀ p q : Fin (2 * g), q.val + 1 = p.val → K p q = -κ q)
    (hK0 : ∀ p q : Fin (2 * g), p.val + 1 ≠ q.val → q.val + 1 ≠ p.val → K p q = 0) (hκ : ∀ q, q + 1 < 2 * g → κ q * κ q = 1)
    (hσ1 : ∀ q < 2 * g, (starRingEnd ℂ) (σ q) * σ q = 1) (hσ : ∀ q, q + 1 < 2 * g → σ (q + 1) = κ q * I * σ q)
    (hW : ∀ r q, W r q = σ q * m r q)
    (hsym : ∀ a b, tri (2 * g) (fun p => eps p * comb m b p) (fun q => ome q * comb m a q) = tri (2 * g) (fun p => eps p * comb m a p) (fun q => ome q * comb m b q))
    (hpos : ∀ a, a ≠ 0 → 0 < tri (2 * g) (fun p => eps p * comb m a p) (fun q => ome q * comb m a q)) : RiemannRelations W K := by
  set V : Matrix (Fin g) (Fin (2 * g)) ℂ := Matrix.of fun r q => σ q * I * (dualC (2 * g) (m r) q : ℝ) with hV
  have hVK : ∀ r q, ∑ p, V r p * K p q = W r q := by
    intro r q
    have := sum_tridiag hK1 hK2 hK0 (fun p => σ p * I * (dualC (2 * g) (m r) p : ℝ)) q
    simp only [hV, Matrix.of_apply]
    rw [this, hW]
    have hq := q.isLt
    have t2 : (if q.val + 1 < 2 * g then σ (q + 1) * I * (dualC (2 * g) (m r) (q + 1) : ℝ) * (κ q : ℂ) else 0) = -(σ q * (dualC (2 * g) (m r) (q + 1) : ℝ)) := by
      by_cases h : q.val + 1 < 2 * g
      · have hk : (κ q : ℂ) * κ q = 1 := by exact_mod_cast hκ q h
        rw [if_pos h, hσ q h]
        linear_combination (σ q * (dualC (2 * g) (m r) (q + 1) : ℝ) * I * I) * hk + (σ q * (dualC (2 * g) (m r) (q + 1) : ℝ)) * I_mul_I
      · rw [if_neg h, show q.val + 1 = 2 * g by omega, dualC_end]
        simp
    rw [t2]
    rcases Nat.eq_zero_or_pos q.val with h0 | h0
    · rw [if_neg (by omega), h0, dualC_zero]
      ring
    · have hq1 : q.val - 1 + 1 = q.val := by omega
      have hσq := hσ (q.val - 1) (by omega)
      rw [hq1] at hσq
      have hst := dualC_step (N := 2 * g) (q := q.val - 1) (by omega) (m r)
      rw [hq1, show q.val - 1 + 2 = q.val + 1 by omega] at hst
      rw [if_pos h0, ← hst]
      push_cast
      linear_combination (-(dualC (2 * g) (m r) (q - 1) : ℝ) : ℂ) * hσq
  have hσ2 : ∀ q < 2 * g, σ q * σ q = (-1) ^ q * (σ 0 * σ 0) := by
    intro q
    induction q with
    | zero => intro _; simp
    | succ q ih =>
      intro hq
      have hk : (κ q : ℂ) * κ q = 1 := by exact_mod_cast hκ q hq
      rw [hσ q hq, pow_succ]
      linear_combination (-1 : ℂ) * ih (by omega) + (σ q * σ q * I * I) * hk + (σ q * σ q) * I_mul_I
  refine ⟨V, hVK, fun r s => ?_, fun v hv => ?_⟩
  · have e1 : ∑ a, ∑ b, V r a * K a b * V s b = ∑ b, W r b * V s b := by
      rw [Finset.sum_comm]
      refine Finset.sum_congr rfl fun b _ => ?_
      rw [← Finset.sum_mul, hVK]
    have e2 : ∑ b, W r b * V s b = I * (σ 0 * σ 0) * ((∑ q ∈ Finset.range (2 * g), (-1) ^ q * (m r q * dualC (2 * g) (m s) q) : ℝ) : ℂ) := by
      push_cast
      rw [Finset.sum_range, Finset.mul_sum]
      refine Finset.sum_congr rfl fun b _ => ?_
      rw [hW, hV, Matrix.of_apply]
      linear_combination (I * m r b * (dualC (2 * g) (m s) b : ℝ)) * hσ2 b b.isLt
    have e3 : ∀ r, comb m (Pi.single r 1) = m r := by
      intro r
      funext q
      simp [comb, Pi.single_apply]
    have := hsym (Pi.single r 1) (Pi.single s 1)
    rw [e3, e3] at this
    rw [e1, e2, sum_dualC_alt, this, sub_self]
    simp
  · set x : Fin g → ℝ := fun r => (v r).re with hx
    set y : Fin g → ℝ := fun r => (v r).im with hy
    have hWv : ∀ b : Fin (2 * g), ∑ r, v r * W r b = σ b * ((comb m x b : ℂ) + comb m y b * I) := by
      intro b
      unfold comb
      push_cast
      rw [Finset.sum_mul, ← Finset.sum_add_distrib, Finset.mul_sum]
      refine Finset.sum_congr rfl fun r _ => ?_
      rw [hW]
      conv_lhs => rw [← re_add_im (v r)]
      ring
    have hdl : ∀ (u : Fin g → ℝ) (b : Nat), dualC (2 * g) (comb m u) b = ∑ r, u r * dualC (2 * g) (m r) b := by
      intro u b
      unfold dualC comb
      have c1 : ∀ (s : Finset Nat) (w : Nat → ℝ), ∑ p ∈ s, w p * ∑ r, u r * m r p = ∑ r, u r * ∑ p ∈ s, w p * m r p := by
        intro s w
        simp only [Finset.mul_sum]
        rw [Finset.sum_comm]
        exact Finset.sum_congr rfl fun r _ => Finset.sum_congr rfl fun p _ => by ring
      rw [c1, c1, Finset.mul_sum, Finset.mul_sum, ← Finset.sum_add_distrib]
      exact Finset.sum_congr rfl fun r _ => by ring
    have hVv : ∀ b : Fin (2 * g), ∑ r, v r * V r b = σ b * I * ((dualC (2 * g) (comb m x) b : ℂ) + dualC (2 * g) (comb m y) b * I) := by
      intro b
      rw [hdl, hdl]
      push_cast
      rw [Finset.sum_mul, ← Finset.sum_add_distrib, Finset.mul_sum]
      refine Finset.sum_congr rfl fun r _ => ?_
      rw [hV, Matrix.of_apply]
      conv_lhs => rw [← re_add_im (v r)]
      ring
    have e1 : ∑ a, ∑ b, (∑ r, v r * V r a) * K a b * (starRingEnd ℂ) (∑ r, v r * V r b) = ∑ b, (∑ r, v r * W r b) * (starRingEnd ℂ) (∑ r, v r * V r b) := by
      rw [Finset.sum_comm]
      refine Finset.sum_congr rfl fun b _ => ?_
      rw [← Finset.sum_mul]
      congr 1
      simp only [Finset.sum_mul]
      rw [Finset.sum_comm]
      refine Finset.sum_congr rfl fun r _ => ?_
      rw [← hVK, Finset.mul_sum]
      exact Finset.sum_congr rfl fun p _ => by ring
    have e2 : (I * ∑ b, (∑ r, v r * W r b) * (starRingEnd ℂ) (∑ r, v r * V r b)).re = (∑ q ∈ Finset.range (2 * g), comb m x q * dualC (2 * g) (comb m x) q) + ∑ q ∈ Finset.range (2 * g), comb m y q * dualC (2 * g) (comb m y) q := by
      rw [← Finset.sum_add_distrib, Finset.sum_range, Finset.mul_sum, re_sum]
      refine Finset.sum_congr rfl fun b _ => ?_
      rw [hWv, hVv, map_mul, map_mul, conj_I, map_add, map_mul, conj_I, conj_ofReal, conj_ofReal]
      have : I * (σ b * ((comb m x b : ℂ) + comb m y b * I) * ((starRingEnd ℂ) (σ b) * -I * ((dualC (2 * g) (comb m x) b : ℂ) + dualC (2 * g) (comb m y) b * -I))) =
          ((comb m x b : ℂ) + comb m y b * I) * ((dualC (2 * g) (comb m x) b : ℂ) + dualC (2 * g) (comb m y) b * -I) := by
        linear_combination (-(I * I) * ((comb m x b : ℂ) + comb m y b * I) * ((dualC (2 * g) (comb m x) b : ℂ) + dualC (2 * g) (comb m y) b * -I)) * hσ1 b b.isLt - ((comb m x b : ℂ) + comb m y b * I) * ((dualC (2 * g) (comb m x) b : ℂ) + dualC (2 * g) (comb m y) b * -I) * I_mul_I
      rw [this]
      simp
    rw [e1, e2, sum_dualC, sum_dualC]
    have hnn : ∀ u : Fin g → ℝ, 0 ≤ tri (2 * g) (fun p => eps p * comb m u p) (fun q => ome q * comb m u q) := by
      intro u
      by_cases hu : u = 0
      · have : ∀ q, comb m u q = 0 := fun q => by rw [hu]; simp [comb]
        simp only [this, mul_zero]
        simp [tri]
      · exact (hpos u hu).le
    have hxy : x ≠ 0 ∨ y ≠ 0 := by
      by_contra hc
      push Not at hc
      apply hv
      funext r
      have h1 := congrFun hc.1 r
      have h2 := congrFun hc.2 r
      exact Complex.ext h1 h2
    rcases hxy with h | h
    · have := hpos x h
      have := hnn y
      linarith
    · have := hpos y h
      have := hnn x
      linarith

/-- renumbering of the closed paths -/
theorem relations_reindex {g N N' : Nat} {W : Matrix (Fin g) (Fin N) ℂ} {K : Matrix (Fin N) (Fin N) ℤ} (e : Fin N' ≃ Fin N)
    (h : RiemannRelations (W.submatrix id e) (K.submatrix e e)) : RiemannRelations W K := by
  obtain ⟨V, h1, h2, h3⟩ := h
  refine ⟨V.submatrix id e.symm, fun r b => ?_, fun r s => ?_, fun v hv => ?_⟩
  · have := h1 r (e.symm b)
    rw [← Equiv.sum_comp e]
    simpa using this
  · have := h2 r s
    rw [← Equiv.sum_comp e]
    rw [← this]
    refine Finset.sum_congr rfl fun a _ => ?_
    rw [← Equiv.sum_comp e]
    simp
  · have := h3 v hv
    have e1 : ∑ a, ∑ b, (∑ r, v r * V.submatrix id e.symm r a) * (K a b : ℂ) * (starRingEnd ℂ) (∑ r, v r * V.submatrix id e.symm r b) =
        ∑ a, ∑ b, (∑ r, v r * V r a) * (K.submatrix e e a b : ℂ) * (starRingEnd ℂ) (∑ r, v r * V r b) := by
      rw [← Equiv.sum_comp e]
      refine Finset.sum_congr rfl fun a _ => ?_
      rw [← Equiv.sum_comp e]
      simp
    rw [e1]
    exact this

end Hcp.HalfPlane
