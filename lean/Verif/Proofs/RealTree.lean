import Verif.Proofs.RealChain
import Verif.Proofs.RealCurve

/-!
# Trees on the real line

Real branch points in increasing order, a tree each edge of which joins two neighbours, and the integrals along its edges.
-/

namespace Hcp.HalfPlane
open Set Spec

/-- increasing order of real points -/
structure Order (n : Nat) (ξ ζ : Nat → ℝ) (ρ : Nat → Nat) : Prop where
  mono : ∀ i j, i < j → j < n → ζ i < ζ j
  lt : ∀ v < n, ρ v < n
  eq : ∀ v < n, ζ (ρ v) = ξ v
  surj : ∀ j < n, ∃ v < n, ρ v = j
  prod : ∀ x, absf n ζ x = |polR n ξ x|

theorem order_exists {n : Nat} {ξ : Nat → ℝ} (hξ : InjOn ξ (Iio n)) : ∃ ζ ρ, Order n ξ ζ ρ := by
  classical
  set S := (Finset.range n).image ξ with hS
  have hinj : Set.InjOn ξ (Finset.range n : Set Nat) := fun a ha b hb h => hξ (Finset.mem_range.1 ha) (Finset.mem_range.1 hb) h
  have hcard : S.card = n := by rw [hS, Finset.card_image_of_injOn hinj, Finset.card_range]
  set E := S.orderEmbOfFin hcard with hE
  have hmem : ∀ j : Fin n, ∃ v < n, ξ v = E j := by
    intro j
    have := Finset.orderEmbOfFin_mem S hcard j
    obtain ⟨v, hv, e⟩ := Finset.mem_image.1 this
    exact ⟨v, Finset.mem_range.1 hv, e⟩
  have hsur : ∀ v, v < n → ∃ j : Fin n, E j = ξ v := by
    intro v hv
    have h1 : ξ v ∈ (S : Set ℝ) := by
      rw [hS]
      exact Finset.mem_coe.2 (Finset.mem_image.2 ⟨v, Finset.mem_range.2 hv, rfl⟩)
    rw [← Finset.range_orderEmbOfFin S hcard] at h1
    exact h1
  choose J hJ using hsur
  refine ⟨fun j => if h : j < n then E ⟨j, h⟩ else 0, fun v => if h : v < n then (J v h).val else 0, ?_, ?_, ?_, ?_, ?_⟩
  · intro i j hij hj
    rw [dif_pos (hij.trans hj), dif_pos hj]
    exact E.strictMono hij
  · intro v hv
    rw [dif_pos hv]
    exact (J v hv).isLt
  · intro v hv
    rw [dif_pos hv, dif_pos (J v hv).isLt]
    exact hJ v hv
  · intro j hj
    obtain ⟨v, hv, e⟩ := hmem ⟨j, hj⟩
    refine ⟨v, hv, ?_⟩
    rw [dif_pos hv]
    have := E.injective ((hJ v hv).trans e)
    rw [this]
  · intro x
    unfold absf polR
    rw [Finset.abs_prod, Finset.prod_range]
    have e1 : ∏ k ∈ Finset.range n, |x - ξ k| = ∏ y ∈ S, |x - y| := by rw [hS, Finset.prod_image hinj]
    have e2 : ∏ i : Fin n, |x - E i| = ∏ y ∈ S, |x - y| := by
      rw [← Finset.image_orderEmbOfFin_univ S hcard, Finset.prod_image (fun a _ b _ h => E.injective h)]
    rw [e1, ← e2]
    refine Finset.prod_congr rfl fun i _ => ?_
    beta_reduce
    rw [dif_pos i.isLt]

section
variable {n : Nat} {ξ ζ : Nat → ℝ} {ρ : Nat → Nat}

theorem Order.inj (h : Order n ξ ζ ρ) (hξ : InjOn ξ (Iio n)) {u v : Nat} (hu : u < n) (hv : v < n) (e : ρ u = ρ v) : u = v := by
  apply hξ hu hv
  rw [← h.eq u hu, ← h.eq v hv, e]

theorem Order.lt_iff (h : Order n ξ ζ ρ) {u v : Nat} (hu : u < n) (hv : v < n) (e : ξ u < ξ v) : ρ u < ρ v := by
  by_contra hc
  rw [← h.eq u hu, ← h.eq v hv] at e
  rcases (not_lt.1 hc).lt_or_eq with h1 | h1
  · exact absurd (h.mono _ _ h1 (h.lt u hu)) (by linarith)
  · rw [h1] at e
    exact lt_irrefl _ e

theorem Order.next (h : Order n ξ ζ ρ) {a b : Nat} (f : FreeR n ξ a b) (hab : ξ a < ξ b) : ρ b = ρ a + 1 := by
  have h1 := h.lt_iff f.ha f.hb hab
  by_contra hc
  obtain ⟨v, hv, e⟩ := h.surj (ρ a + 1) (by have := h.lt b f.hb; omega)
  have h2 : ξ a < ξ v := by rw [← h.eq a f.ha, ← h.eq v hv, e]; exact h.mono _ _ (by omega) (by have := h.lt b f.hb; omega)
  have h3 : ξ v < ξ b := by rw [← h.eq b f.hb, ← h.eq v hv, e]; exact h.mono _ _ (by omega) (h.lt b f.hb)
  rcases f.away hab hv (fun q => by rw [q] at h2; exact lt_irrefl _ h2) with q | q <;> linarith

/-- an edge without a third point joins neighbours -/
theorem Order.adj (h : Order n ξ ζ ρ) {a b : Nat} (f : FreeR n ξ a b) : ρ b = ρ a + 1 ∨ ρ a = ρ b + 1 := by
  rcases lt_or_gt_of_ne f.ne with h1 | h1
  · exact Or.inl (h.next f h1)
  · exact Or.inr (h.next f.symm h1)

theorem rdif_single {g : Nat} (r : Fin g) (x : ℝ) : rdif n ζ (Pi.single r 1) x = x ^ r.val / √(absf n ζ x) := by
  unfold rdif
  congr 1
  rw [Finset.sum_eq_single r]
  · simp
  · intro i _ hi
    simp [hi]
  · intro h
    exact absurd (Finset.mem_univ _) h

/-- the integral along an edge from the integral between neighbours -/
theorem Order.mom (h : Order n ξ ζ ρ) {a b g : Nat} (f : FreeR n ξ a b) (r : Fin g) : momR n ξ a b r = 2 * seg n ζ (Pi.single r (1 : ℝ)) (min (ρ a) (ρ b)) := by
  have key : ∀ α β : ℝ, |β - α| * ∫ t in (-1 : ℝ)..1, ptR α β t ^ r.val / √|polR n ξ (ptR α β t)| = 2 * ∫ x in (min α β)..(max α β), x ^ r.val / √|polR n ξ x| := by
    intro α β
    have e := intervalIntegral.smul_integral_comp_add_mul (fun x => x ^ r.val / √|polR n ξ x|) (a := -1) (b := 1) ((β - α) / 2) ((α + β) / 2)
    have e1 : ∀ t, (α + β) / 2 + (β - α) / 2 * t = ptR α β t := fun t => by unfold ptR; ring
    simp only [e1] at e
    have e2 : ptR α β (-1) = α := by unfold ptR; ring
    have e3 : ptR α β 1 = β := by unfold ptR; ring
    rw [e2, e3, smul_eq_mul] at e
    rcases le_total α β with q | q
    · rw [abs_of_nonneg (by linarith), min_eq_left q, max_eq_right q, ← e]
      ring
    · rw [abs_of_nonpos (by linarith), min_eq_right q, max_eq_left q, intervalIntegral.integral_symm α β, ← e]
      ring
  unfold momR seg
  rw [key]
  congr 1
  simp only [rdif_single, h.prod]
  rcases lt_or_gt_of_ne f.ne with h1 | h1
  · have := h.next f h1
    rw [min_eq_left h1.le, max_eq_right h1.le, this, min_eq_left (by omega), h.eq a f.ha, ← this, h.eq b f.hb]
  · have := h.next f.symm h1
    rw [min_eq_right h1.le, max_eq_left h1.le, this, min_eq_right (by omega), h.eq b f.hb, ← this, h.eq a f.ha]

theorem seg_comb {g : Nat} (hξ : InjOn ζ (Iio n)) (hn : 0 < n) (a : Fin g → ℝ) (j : Nat) : seg n ζ a j = ∑ r, a r * seg n ζ (Pi.single r (1 : ℝ)) j := by
  unfold seg
  simp only [← intervalIntegral.integral_const_mul]
  rw [← intervalIntegral.integral_finsetSum fun r _ => (rdif_integrable hξ hn _ _).const_mul _]
  apply intervalIntegral.integral_congr
  intro x _
  simp only [rdif_single]
  unfold rdif
  rw [Finset.sum_div]
  exact Finset.sum_congr rfl fun r _ => by ring

end

/-- a tree whose edges join neighbours fills an interval -/
theorem tree_interval {N : Nat} {A B : Nat → Nat} (hadj : ∀ k < N, B k = A k + 1 ∨ A k = B k + 1) (hold : ∀ k < N, k ≠ 0 → ∃ j < k, A k = A j ∨ A k = B j)
    (hnew : ∀ k < N, ∀ j < k, B k ≠ A j ∧ B k ≠ B j) : ∀ k ≤ N, k ≠ 0 → ∃ s, (∀ v, (∃ j < k, v = A j ∨ v = B j) ↔ s ≤ v ∧ v ≤ s + k) ∧ ∀ p, (∃ j < k, min (A j) (B j) = p) ↔ s ≤ p ∧ p < s + k := by
  intro k
  induction k with
  | zero => intro _ h; exact absurd rfl h
  | succ k ih =>
    intro hk _
    have had := hadj k (by omega)
    rcases Nat.eq_zero_or_pos k with rfl | hpos
    · refine ⟨min (A 0) (B 0), fun v => ⟨?_, fun h => ⟨0, by omega, by omega⟩⟩, fun p => ⟨?_, fun h => ⟨0, by omega, by omega⟩⟩⟩
      · rintro ⟨j, hj, h⟩
        obtain rfl : j = 0 := by omega
        omega
      · rintro ⟨j, hj, h⟩
        obtain rfl : j = 0 := by omega
        omega
    · obtain ⟨s, h1, h2⟩ := ih (by omega) (by omega)
      obtain ⟨j, hj, hA⟩ := hold k (by omega) (by omega)
      have hAs := (h1 (A k)).1 ⟨j, hj, hA⟩
      have hBs : ¬ (s ≤ B k ∧ B k ≤ s + k) := by
        intro h
        obtain ⟨i, hi, q⟩ := (h1 (B k)).2 h
        have := hnew k (by omega) i hi
        rcases q with q | q
        · exact this.1 q
        · exact this.2 q
      have split : ∀ P : Nat → Prop, (∃ j < k + 1, P j) ↔ (∃ j < k, P j) ∨ P k := by
        intro P
        constructor
        · rintro ⟨j, hj, hp⟩
          rcases Nat.lt_or_ge j k with q | q
          · exact Or.inl ⟨j, q, hp⟩
          · obtain rfl : j = k := by omega
            exact Or.inr hp
        · rintro (⟨j, hj, hp⟩ | hp)
          · exact ⟨j, by omega, hp⟩
          · exact ⟨k, by omega, hp⟩
      rcases had with q | q
      · have e1 : A k = s + k := by omega
        refine ⟨s, fun v => ?_, fun p => ?_⟩
        · rw [split, h1]
          omega
        · rw [split, h2]
          omega
      · have e1 : A k = s := by omega
        refine ⟨s - 1, fun v => ?_, fun p => ?_⟩
        · rw [split, h1]
          omega
        · rw [split, h2]
          omega

end Hcp.HalfPlane
