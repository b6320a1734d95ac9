import Verif.Proofs.Curve
import Mathlib.Algebra.BigOperators.Fin

/-!
# C01, C02, C03: the curve descriptor
-/

namespace Hcp
open Finset

/-- **C01.** Whenever `sec_init(m,n)` returns (`m,n ≥ 2`), the advertised `g` is
the genus of the curve and the row lengths `ni[0..nj-1]` add up to exactly `g`. -/
theorem C01_differentials_sum_to_genus {m n : Int} {c : Sec} (hn : 2 ≤ n)
    (h : secInit m n = .ok c) :
    Spec.IsGenus m n c.g ∧ c.ni.sum = c.g ∧ (c.ni.length : Int) = c.nj := by
  obtain ⟨hm, e1, e2, eδ, eg, ej, enj, hnj, eni⟩ := secInit_fields h hn
  have hδ0 : 0 < c.delta := by
    rw [eδ]; exact_mod_cast Int.gcd_pos_of_ne_zero_left _ (by omega)
  have hδm' : c.delta ≤ m := Int.le_of_dvd (by omega) (eδ ▸ Int.gcd_dvd_left m n)
  have hδn' : c.delta ≤ n := Int.le_of_dvd (by omega) (eδ ▸ Int.gcd_dvd_right m n)
  obtain ⟨M, rfl⟩ : ∃ M : ℕ, m = M := ⟨m.toNat, by omega⟩
  obtain ⟨N, rfl⟩ : ∃ N : ℕ, n = N := ⟨n.toNat, by omega⟩
  have hgcd : (Int.gcd (M : ℤ) (N : ℤ) : ℤ) = (Nat.gcd M N : ℕ) := by simp
  have hfs := floor_sum (m := M) (n := N) (by omega)
  have hj1 : 1 ≤ c.j1 := by
    rw [ej]
    have := Int.ediv_nonneg (a := (M : ℤ) + c.delta - 1) (b := N) (by omega) (by omega); omega
  obtain ⟨J, hJ⟩ : ∃ J : ℕ, c.j1 = J := ⟨c.j1.toNat, by omega⟩
  have hJ1 : 1 ≤ J := by omega
  have hJM : J ≤ M := by omega
  have hsum : c.ni.sum = ∑ j ∈ Finset.Ico 1 M, (((j : ℤ) * N - (Nat.gcd M N : ℕ)) / (M : ℤ)) := by
    rw [← Finset.sum_Ico_consecutive _ hJ1 hJM]
    have hz : ∑ j ∈ Finset.Ico 1 J, (((j : ℤ) * N - (Nat.gcd M N : ℕ)) / (M : ℤ)) = 0 := by
      apply Finset.sum_eq_zero
      intro j hj
      rw [Finset.mem_Ico] at hj
      rw [← hgcd, ← eδ]
      apply Int.ediv_eq_zero_of_lt
      · have : (1 : ℤ) * N ≤ j * N := by
          apply mul_le_mul_of_nonneg_right <;> omega
        omega
      · have hlt : (j : ℤ) ≤ ((M : ℤ) + c.delta - 1) / N := by omega
        have := (Int.le_ediv_iff_mul_le (by omega : (0 : ℤ) < N)).1 hlt
        omega
    rw [hz, zero_add, eni, Finset.sum_Ico_eq_sum_range]
    have : c.nj.toNat = M - J := by omega
    rw [this, ← Fin.sum_univ_eq_sum_range (fun i : ℕ => (((J + i : ℕ) : ℤ) * N - (Nat.gcd M N : ℕ)) / (M : ℤ)) (M - J)]
    rw [← List.sum_ofFn]
    congr 1
    apply List.ext_getElem
    · simp
    · intro i h1 h2
      simp only [List.getElem_map, List.getElem_range, List.getElem_ofFn]
      rw [hJ, eδ, hgcd]; push_cast; rfl
  have h2g : 2 * c.ni.sum = ((M : ℤ) - 1) * (N - 1) - ((Nat.gcd M N : ℤ) - 1) := by
    rw [hsum]; exact hfs
  have hg : c.g = c.ni.sum := by
    rw [eg, eδ, hgcd]
    have : ((M : ℤ) - 1) * (N - 1) - (Nat.gcd M N : ℕ) + 1 = 2 * c.ni.sum := by rw [h2g]; ring
    rw [this]; omega
  refine ⟨?_, hg.symm, ?_⟩
  · unfold Spec.IsGenus
    rw [hg, hgcd]; exact h2g
  · rw [eni]; simp only [List.length_map, List.length_range]; omega

example : secInit 6 9 = .ok ⟨6, 9, 3, 19, 1, 5, [1, 2, 4, 5, 7]⟩ := by decide

/-- **C02.** The pairs `(i,j)` enumerated by the descriptor are exactly the
holomorphic differentials `x^(i-1) dx/y^j`. -/
theorem C02_enumerates_holomorphic {m n : Int} {c : Sec} (hn : 2 ≤ n) (h : secInit m n = .ok c)
    (i j : Int) :
    (∃ k : Nat, ∃ hk : k < c.ni.length, j = c.j1 + k ∧ 1 ≤ i ∧ i ≤ c.ni[k]) ↔
      Spec.IsHolomorphic m n i j := by
  obtain ⟨hm, e1, e2, eδ, eg, ej, enj, hnj, eni⟩ := secInit_fields h hn
  have hδ0 : 0 < c.delta := by
    rw [eδ]; exact_mod_cast Int.gcd_pos_of_ne_zero_left _ (by omega)
  have hj1 : 1 ≤ c.j1 := by
    rw [ej]
    have hδm' : c.delta ≤ m := Int.le_of_dvd (by omega) (eδ ▸ Int.gcd_dvd_left m n)
    have := Int.ediv_nonneg (a := m + c.delta - 1) (b := n) (by omega) (by omega); omega
  have hlen : c.ni.length = c.nj.toNat := by rw [eni]; simp
  have hget : ∀ (k : Nat) (hk : k < c.ni.length), c.ni[k] = ((c.j1 + k) * n - c.delta) / m := by
    intro k hk
    simp [eni]
  unfold Spec.IsHolomorphic
  rw [← eδ]
  constructor
  · rintro ⟨k, hk, rfl, hi1, hi2⟩
    rw [hget k hk, Int.le_ediv_iff_mul_le (by omega)] at hi2
    refine ⟨hi1, by omega, by omega, ?_⟩
    nlinarith
  · rintro ⟨hi1, hj0, hjm, hge⟩
    have hjn : m + c.delta ≤ n * j := by nlinarith
    have hjj : c.j1 ≤ j := by
      rw [ej]
      by_contra hlt
      have : j ≤ (m + c.delta - 1) / n := by omega
      have := (Int.le_ediv_iff_mul_le (by omega)).1 this
      nlinarith
    refine ⟨(j - c.j1).toNat, by omega, by omega, hi1, ?_⟩
    rw [hget, Int.le_ediv_iff_mul_le (by omega)]
    have : c.j1 + ((j - c.j1).toNat : ℤ) = j := by omega
    rw [this]
    nlinarith

/-- **C02 (block sizes).** No block is empty and none has more than `n-1` entries. -/
theorem C02_blocks_nonempty {m n : Int} {c : Sec} (hn : 2 ≤ n) (h : secInit m n = .ok c)
    {l : Int} (hl : l ∈ c.ni) : 1 ≤ l ∧ l ≤ n - 1 := by
  obtain ⟨hm, e1, e2, eδ, eg, ej, enj, hnj, eni⟩ := secInit_fields h hn
  have hδ0 : 0 < c.delta := by
    rw [eδ]; exact_mod_cast Int.gcd_pos_of_ne_zero_left _ (by omega)
  rw [eni, List.mem_map] at hl
  obtain ⟨t, ht, rfl⟩ := hl
  rw [List.mem_range] at ht
  constructor
  · rw [Int.le_ediv_iff_mul_le (by omega)]
    have : m + c.delta - 1 < c.j1 * n := by
      rw [ej]
      have := Int.lt_ediv_add_one_mul_self (m + c.delta - 1) (by omega : 0 < n)
      rw [add_comm (1 : ℤ)]; exact this
    nlinarith
  · have : ((c.j1 + t) * n - c.delta) / m < n := by
      apply Int.ediv_lt_of_lt_mul (by omega)
      have : (c.j1 + t) * n ≤ (m - 1) * n := by
        apply mul_le_mul_of_nonneg_right <;> omega
      nlinarith
    omega

example : (secInit 6 9 = .ok ⟨6, 9, 3, 19, 1, 5, [1, 2, 4, 5, 7]⟩) ∧
    Spec.IsHolomorphic 6 9 7 5 ∧ ¬ Spec.IsHolomorphic 6 9 8 5 := by
  refine ⟨by decide, ?_, ?_⟩ <;> · unfold Spec.IsHolomorphic; decide

/-- **C03 (partial).**  Complete table of outcomes of `abel_jacobi_init_poly`, for every exponent
and every degree up to `2^31` (`n = -1`: zero polynomial).  The full property
("an abort with a diagnostic or a usable object") fails exactly at `n = 0`. -/
theorem C03_init_outcome_partial (m n : Int) (sq : Bool) (hm : m ≤ 2 ^ 31) (hn1 : -1 ≤ n)
    (hn : n ≤ 2 ^ 31) :
    ((initPoly m n sq).isOk ↔ 2 ≤ m ∧ 2 ≤ n ∧ ¬ (m = 2 ∧ n = 2) ∧ sq = true) ∧
    ((initPoly m n sq).isUb ↔ 2 ≤ m ∧ n = 0) ∧
    ((initPoly m n sq).isAbort ↔
      m < 2 ∨ n = -1 ∨ n = 1 ∧ 2 ≤ m ∨ (m = 2 ∧ n = 2) ∨ (2 ≤ n ∧ sq = false)) := by
  rcases lt_or_ge m 2 with h2 | h2
  · have : initPoly m n sq = .abort "need exponent m > 1" := by
      unfold initPoly secInit; rw [if_pos h2]; rfl
    rw [this]; simp [Res.isOk, Res.isUb, Res.isAbort]; omega
  · rcases lt_trichotomy n 0 with h0 | h0 | h0
    · obtain rfl : n = -1 := by omega
      have := initPoly_neg sq h2 hm
      revert this
      cases initPoly m (-1) sq <;> simp [Res.isOk, Res.isUb, Res.isAbort]
    · subst h0
      have := initPoly_zero sq h2 hm
      revert this
      cases initPoly m 0 sq <;> simp [Res.isOk, Res.isUb, Res.isAbort, h2]
    · rcases eq_or_lt_of_le (by omega : 1 ≤ n) with h1 | h1
      · subst h1
        have := initPoly_one sq h2 hm
        revert this
        cases initPoly m 1 sq <;> simp [Res.isOk, Res.isUb, Res.isAbort, h2]
      · obtain ⟨c, hc⟩ := secInit_succeeds h2 hm (by omega : 2 ≤ n) hn
        have hg := genus_pos_iff h2 (by omega : 2 ≤ n) (C01_differentials_sum_to_genus (by omega) hc).1
        have e : initPoly m n sq = if c.g < 1 then .abort "no periods if genus < 1" else
            if sq = false then .abort "polynomial must be squarefree" else .ok c := by
          unfold initPoly; rw [hc]; rfl
        rw [e]
        by_cases hgg : c.g < 1
        · rw [if_pos hgg]
          have : m = 2 ∧ n = 2 := by by_contra h; exact absurd (hg.2 h) (by omega)
          simp [Res.isOk, Res.isUb, Res.isAbort, this]
        · rw [if_neg hgg]
          have h22 : ¬ (m = 2 ∧ n = 2) := hg.1 (by omega)
          cases sq
          · simp [Res.isOk, Res.isUb, Res.isAbort]; omega
          · simp [Res.isOk, Res.isUb, Res.isAbort]; omega

/-- **C03 (negation).** A non-zero constant polynomial makes the program divide
by zero, for every exponent. -/
theorem C03_constant_polynomial_is_ub (m : Int) (sq : Bool) (h2 : 2 ≤ m) (hm : m ≤ 2 ^ 31) :
    (initPoly m 0 sq).isUb :=
  initPoly_zero sq h2 hm

/-- **C03 (overflow).** Beyond the range above the machine arithmetic does overflow:
`m = n = 2^32` is undefined behaviour. -/
theorem C03_overflow_witness : (initPoly (2 ^ 32) (2 ^ 32) true).isUb := by decide

/-- **C03 (use of the descriptor).** The homology matrix has `treeEdges * (m-1)` rows,
which is at least `2g` (so rows `2i`, `2i+1`, `i < g` exist), with equality
when `gcd(m,n)` is `1` or `m`. -/
theorem C03_enough_edges {m n : Int} {c : Sec} (hn : 2 ≤ n) (h : secInit m n = .ok c) :
    2 * c.g ≤ treeEdges c * (m - 1) ∧
    (c.delta = 1 ∨ c.delta = m → treeEdges c * (m - 1) = 2 * c.g) ∧
    0 ≤ treeEdges c := by
  have hg := (C01_differentials_sum_to_genus hn h).1
  obtain ⟨hm, e1, e2, eδ, -, -, -, -, -⟩ := secInit_fields h hn
  have hδ0 : 0 < c.delta := by
    rw [eδ]; exact_mod_cast Int.gcd_pos_of_ne_zero_left _ (by omega)
  unfold Spec.IsGenus at hg
  rw [← eδ] at hg
  unfold treeEdges
  rw [e1, e2]
  split
  · rename_i hd
    rw [hd] at hg hδ0 ⊢
    refine ⟨by nlinarith, fun _ => by linarith, by omega⟩
  · rename_i hd
    refine ⟨by nlinarith, ?_, by omega⟩
    rintro (h1 | h1)
    · rw [h1] at hg; linarith
    · exact absurd h1 hd

/-- the number of edges asked for is the one of the specification -/
theorem C03_edge_count {m n : Nat} {c : Sec} (hn : 2 ≤ n) (h : secInit m n = .ok c) : Spec.EdgeCount m n (treeEdges c).toNat := by
  obtain ⟨hm, e1, e2, eδ, -, -, -, -, -⟩ := secInit_fields h (by omega)
  unfold treeEdges Spec.EdgeCount
  rw [e1, e2, eδ, Int.gcd_natCast_natCast]
  split
  · rename_i hd
    have hd' : Nat.gcd m n = m := by exact_mod_cast hd
    have hmn : m ∣ n := by rw [← hd']; exact Nat.gcd_dvd_right m n
    have := Nat.le_of_dvd (by omega) hmn
    right
    refine ⟨hmn, by omega⟩
  · left; omega

/-- the number of edges asked for, exactly -/
theorem C03_tree_size {m n : Nat} {c : Sec} (hn : 2 ≤ n) (h : secInit m n = .ok c) : Spec.TreeSize m n (treeEdges c).toNat := by
  obtain ⟨hm, e1, e2, eδ, -, -, -, -, -⟩ := secInit_fields h (by omega)
  unfold treeEdges Spec.TreeSize
  rw [e1, e2, eδ, Int.gcd_natCast_natCast]
  split
  · rename_i hd
    have hd' : Nat.gcd m n = m := by exact_mod_cast hd
    have hmn : m ∣ n := by rw [← hd']; exact Nat.gcd_dvd_right m n
    have := Nat.le_of_dvd (by omega) hmn
    exact ⟨fun _ => by omega, fun h => absurd hmn h⟩
  · rename_i hd
    exact ⟨fun h => absurd (by rw [Nat.gcd_eq_left h]) hd, fun _ => by omega⟩

example : (initPoly 2 5 true).isOk ∧ (initPoly 7 3 false).isAbort ∧ (initPoly 3 0 true).isUb := by
  decide

end Hcp
