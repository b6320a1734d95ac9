import Verif.Spec.Fns
import Verif.Proofs.EdgeFactors

/-! # Gauss-Chebyshev nodes -/

namespace Hcp
open Complex

theorem unitRoot_pow (n k : Nat) :
    exact.unitRoot (4 * n) ^ k = (Real.cos (k / (2 * n) * Real.pi) : ℂ) + (Real.sin (k / (2 * n) * Real.pi) : ℂ) * I := by
  show exp (2 * Real.pi * I / ((4 * n : ℕ) : ℂ)) ^ k = _
  rw [← exp_nat_mul, ofReal_cos, ofReal_sin, ← exp_mul_I]
  congr 1
  push_cast
  rcases eq_or_ne n 0 with rfl | hn
  · simp
  · have : (n : ℂ) ≠ 0 := by exact_mod_cast hn
    field_simp
    ring

theorem unitRoot_re (n k : Nat) : (exact.unitRoot (4 * n) ^ k).re = Real.cos (k / (2 * n) * Real.pi) := by
  rw [unitRoot_pow]; simp only [add_re, mul_re, ofReal_re, ofReal_im, I_re, I_im]; ring

theorem unitRoot_im (n k : Nat) : (exact.unitRoot (4 * n) ^ k).im = Real.sin (k / (2 * n) * Real.pi) := by
  rw [unitRoot_pow]; simp only [add_im, mul_im, ofReal_re, ofReal_im, I_re, I_im]; ring

theorem node_of_re (n k : Nat) : exactFns.re (exact.unitRoot (4 * n) ^ (2 * k + 1)) = (Spec.chebNode n k : ℂ) := by
  show ((_ : ℝ) : ℂ) = _
  rw [unitRoot_re]
  unfold Spec.chebNode
  push_cast
  rfl

theorem node_of_im {n k j : Nat} (hn : 0 < n) (h : 2 * k + 1 + (2 * j + 1) = n) :
    exactFns.im (exact.unitRoot (4 * n) ^ (2 * k + 1)) = (Spec.chebNode n j : ℂ) := by
  show ((_ : ℝ) : ℂ) = _
  rw [unitRoot_im]
  unfold Spec.chebNode
  rw [← Real.cos_pi_div_two_sub]
  congr 2
  have hn' : (n : ℝ) ≠ 0 := by exact_mod_cast hn.ne'
  have h' : (2 * (k : ℝ) + 1 + (2 * j + 1)) = n := by exact_mod_cast h
  push_cast
  field_simp
  linear_combination -h'

theorem node_of_im_odd {n k j : Nat} (hn : 0 < n) (h : 2 * k + 2 + (2 * j + 1) = n) :
    exactFns.im (exact.unitRoot (4 * n) ^ (2 * k + 2)) = (Spec.chebNode n j : ℂ) := by
  show ((_ : ℝ) : ℂ) = _
  rw [unitRoot_im]
  unfold Spec.chebNode
  rw [← Real.cos_pi_div_two_sub]
  congr 2
  have hn' : (n : ℝ) ≠ 0 := by exact_mod_cast hn.ne'
  have h' : (2 * (k : ℝ) + 2 + (2 * j + 1)) = n := by exact_mod_cast h
  push_cast
  field_simp
  linear_combination -h'

theorem cosPi_spec {n : Nat} (hn : 0 < n) :
    ∃ c, cosPi exact exactFns (n / 2) n = .ok c ∧ ∀ k < n / 2, c k = (Spec.chebNode n k : ℂ) := by
  unfold cosPi
  dsimp only
  have key := loopUp_inv (body := fun k c => do
      let p ← rdV (n / 2 + 1) (fun k => exact.pow (exact.unitRoot (4 * n)) k) (2 * k + 1)
      let c1 ← wrV (n / 2) c k (exactFns.re p)
      let q ← rdV (n / 2 + 1) (fun k => exact.pow (exact.unitRoot (4 * n)) k) (2 * k + 1 + n % 2)
      wrV (n / 2) c1 (n / 2 - k - 1) (exactFns.im q))
    (fun k c => ∀ j < n / 2, (j < k ∨ n / 2 - k ≤ j) → c j = (Spec.chebNode n j : ℂ)) (n / 2 / 2) 0
    (fun _ => exact.zero) (by intro j hj h; omega) (by
      intro k c _ hk hc
      refine ⟨_, by simp only [rdV_ok (show 2 * k + 1 < n / 2 + 1 by omega),
        rdV_ok (show 2 * k + 1 + n % 2 < n / 2 + 1 by omega), wrV_ok (show k < n / 2 by omega),
        wrV_ok (show n / 2 - k - 1 < n / 2 by omega), Res.ok_bind]; rfl, ?_⟩
      intro j hj h
      by_cases h1 : j = n / 2 - k - 1
      · simp only [if_pos h1]
        rcases Nat.mod_two_eq_zero_or_one n with h2 | h2
        · rw [h2, Nat.add_zero]
          exact node_of_im hn (by omega)
        · rw [h2]
          exact node_of_im_odd hn (by omega)
      · simp only [if_neg h1]
        by_cases h3 : j = k
        · simp only [if_pos h3]
          subst h3
          exact node_of_re n j
        · simp only [if_neg h3]
          exact hc j hj (by omega))
  obtain ⟨c, e, hc⟩ := key
  rw [e, Res.ok_bind]
  by_cases h : n % 4 ≥ 2
  · rw [if_pos h, rdV_ok (show n / 2 < n / 2 + 1 by omega), Res.ok_bind, wrV_ok (show n / 4 < n / 2 by omega)]
    refine ⟨_, rfl, fun k hk => ?_⟩
    by_cases h1 : k = n / 4
    · simp only [if_pos h1]
      rw [show n / 2 = 2 * k + 1 by omega]
      exact node_of_re n k
    · simp only [if_neg h1]
      exact hc k hk (by omega)
  · rw [if_neg h]
    exact ⟨c, rfl, fun k hk => hc k hk (by omega)⟩

/-- symmetry of the nodes -/
theorem chebNode_symm {n j k : Nat} (h : j + k + 1 = n) : Spec.chebNode n j = - Spec.chebNode n k := by
  unfold Spec.chebNode
  rw [← Real.cos_pi_sub]
  congr 1
  have hn' : (n : ℝ) ≠ 0 := by have : n ≠ 0 := by omega
                               exact_mod_cast this
  have h' : ((j : ℝ) + k + 1) = n := by exact_mod_cast h
  field_simp
  linear_combination 2 * h'

theorem chebNode_mid {n k : Nat} (h : 2 * k + 1 = n) : Spec.chebNode n k = 0 := by
  have := chebNode_symm (n := n) (j := k) (k := k) (by omega)
  linarith

/-- the sum over all nodes, by symmetric pairs -/
theorem sum_nodes {n : Nat} (f : ℝ → ℂ) :
    ∑ k ∈ Finset.range n, f (Spec.chebNode n k) =
      ∑ k ∈ Finset.range (n / 2), (f (Spec.chebNode n k) + f (-Spec.chebNode n k)) +
        if n % 2 ≠ 0 then f 0 else 0 := by
  rw [Finset.sum_add_distrib]
  have hr : ∑ k ∈ Finset.range (n / 2), f (-Spec.chebNode n k) =
      ∑ k ∈ Finset.Ico (n - n / 2) n, f (Spec.chebNode n k) := by
    have h1 : ∀ k ∈ Finset.range (n / 2), f (-Spec.chebNode n k) = f (Spec.chebNode n (n - 1 - k)) := by
      intro k hk
      have := Finset.mem_range.1 hk
      rw [chebNode_symm (n := n) (j := n - 1 - k) (k := k) (by omega)]
    rw [Finset.sum_congr rfl h1]
    refine Finset.sum_bij (fun k _ => n - 1 - k) ?_ ?_ ?_ ?_
    · intro k hk; rw [Finset.mem_range] at hk; rw [Finset.mem_Ico]; omega
    · intro a ha b hb h; rw [Finset.mem_range] at ha hb; omega
    · intro b hb; rw [Finset.mem_Ico] at hb
      exact ⟨n - 1 - b, by rw [Finset.mem_range]; omega, by omega⟩
    · intro k hk; rfl
  rw [hr]
  rcases Nat.mod_two_eq_zero_or_one n with h | h
  · rw [if_neg (by omega), add_zero, show n - n / 2 = n / 2 by omega, Finset.sum_range_add_sum_Ico _ (by omega)]
  · rw [if_pos (by omega), ← chebNode_mid (n := n) (k := n / 2) (by omega),
      ← Finset.sum_range_add_sum_Ico _ (show n / 2 ≤ n by omega), Finset.sum_eq_sum_Ico_succ_bot (show n / 2 < n by omega),
      show n / 2 + 1 = n - n / 2 by omega]
    ring

end Hcp
