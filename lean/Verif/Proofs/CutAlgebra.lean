import Verif.Proofs.PlaneForm
import Mathlib.Analysis.Complex.Basic
import Mathlib.Analysis.SpecialFunctions.Trigonometric.Basic
import Mathlib.LinearAlgebra.FiniteDimensional.Lemmas
import Mathlib.LinearAlgebra.Dimension.Constructions

/-!
# Edges between points sorted by height: integrals, dual vectors, intersection numbers
-/

namespace Hcp.Cut
open PlaneTree Finset

/-- an edge going up from the point number `lo` to the point number `up`, and the points it leaves on its right -/
structure CEdge where
  lo : Nat
  up : Nat
  R : Nat → Prop

open scoped Classical in
/-- number of points on the right of the edge, between its start and the point `k` -/
noncomputable def CEdge.rc (e : CEdge) (k : Nat) : Nat := ((Ioo e.lo k).filter e.R).card

open scoped Classical in
/-- coefficients of the integral over the edge -/
noncomputable def bvec (ζ : ℂ) (e : CEdge) (k : Nat) : ℂ :=
  if k = e.lo then -1 / (1 - ζ) else if k = e.up then ζ ^ e.rc e.up * ζ / (1 - ζ) else if e.lo < k ∧ k < e.up ∧ ¬ e.R k then -ζ ^ e.rc k else 0

open scoped Classical in
/-- dual vector of the edge -/
noncomputable def tvec (ζ : ℂ) (e : CEdge) (k : Nat) : ℂ :=
  if k = e.lo then -1 else if k = e.up then ζ⁻¹ ^ e.rc e.up else if e.lo < k ∧ k < e.up ∧ e.R k then -(ζ⁻¹ - 1) * ζ⁻¹ ^ e.rc k else 0

/-- the form of the points -/
noncomputable def Mv (ζ : ℂ) (τ : Nat → ℂ) (k : Nat) : ℂ := ∑ j ∈ range k, τ j - ζ / (1 - ζ) * τ k

/-- the pairing of the edges -/
noncomputable def kk (ζ : ℂ) (n : Nat) (ek el : CEdge) : ℂ := ∑ v ∈ range n, bvec ζ el v * tvec ζ ek v

section
variable {ζ : ℂ} {n : Nat} {e ek el : CEdge}

theorem CEdge.rc_succ (e : CEdge) {k : Nat} (h : e.lo < k) : e.rc (k + 1) = e.rc k + (open scoped Classical in if e.R k then 1 else 0) := by
  classical
  unfold CEdge.rc
  have : Ioo e.lo (k + 1) = insert k (Ioo e.lo k) := by ext j; simp only [mem_Ioo, mem_insert]; omega
  rw [this, filter_insert]
  split_ifs with hR
  · rw [card_insert_of_notMem (by simp)]
  · rfl

theorem CEdge.rc_lo (e : CEdge) : e.rc (e.lo + 1) = 0 := by
  unfold CEdge.rc
  have : Ioo e.lo (e.lo + 1) = ∅ := by ext j; simp only [mem_Ioo]; constructor <;> intro h <;> simp_all; omega
  rw [this]
  rfl

theorem sum_tvec (he : e.lo < e.up) (k : Nat) : ∑ j ∈ range k, tvec ζ e j = if e.lo < k ∧ k ≤ e.up then -ζ⁻¹ ^ e.rc k else 0 := by
  classical
  induction k with
  | zero => simp
  | succ k ih =>
    rw [sum_range_succ, ih]
    unfold tvec
    rcases Nat.lt_trichotomy k e.lo with h | h | h
    · rw [if_neg (by omega), if_neg (by omega), if_neg (by omega), if_neg (by omega), if_neg (by omega), add_zero]
    · subst h
      rw [if_neg (by omega), if_pos rfl, if_pos (by omega), CEdge.rc_lo]
      simp
    · rw [if_neg (by omega : ¬ k = e.lo)]
      rcases Nat.lt_trichotomy k e.up with h2 | h2 | h2
      · rw [if_pos (by omega), if_neg (by omega), if_pos (by omega : e.lo < k + 1 ∧ k + 1 ≤ e.up), e.rc_succ h]
        by_cases hR : e.R k
        · rw [if_pos ⟨h, h2, hR⟩, if_pos hR, pow_succ]
          ring
        · rw [if_neg (fun q => hR q.2.2), if_neg hR]
          simp
      · rw [if_pos (by omega), if_pos h2, if_neg (by omega), h2]
        ring
      · rw [if_neg (by omega), if_neg (by omega), if_neg (by omega), if_neg (by omega), add_zero]

theorem sum_tvec_all (he : e.lo < e.up) (hn : e.up < n) : ∑ j ∈ range n, tvec ζ e j = 0 := by
  rw [sum_tvec he, if_neg (by omega)]

theorem inv_one_sub (hz : ζ ≠ 0) (h1 : ζ ≠ 1) : (1 - ζ⁻¹)⁻¹ = -ζ / (1 - ζ) := by
  have h2 : 1 - ζ ≠ 0 := sub_ne_zero.2 (Ne.symm h1)
  have h3 : 1 - ζ⁻¹ ≠ 0 := by
    intro h
    apply h1
    rw [sub_eq_zero] at h
    exact (inv_eq_one.1 h.symm)
  rw [inv_eq_iff_eq_inv, inv_div]
  field_simp
  ring

/-- the form of a dual vector is the vector of the integral, for the inverse -/
theorem Mv_tvec (hz : ζ ≠ 0) (h1 : ζ ≠ 1) (he : e.lo < e.up) (k : Nat) : Mv ζ (tvec ζ e) k = bvec ζ⁻¹ e k := by
  classical
  have h2 : 1 - ζ ≠ 0 := sub_ne_zero.2 (Ne.symm h1)
  have h3 := inv_one_sub hz h1
  unfold Mv
  rw [sum_tvec he]
  have hA : -1 / (1 - ζ⁻¹) = ζ / (1 - ζ) := by
    rw [div_eq_mul_inv, h3]
    ring
  have hB : ∀ X : ℂ, X * ζ⁻¹ / (1 - ζ⁻¹) = -X / (1 - ζ) := by
    intro X
    rw [div_eq_mul_inv, h3]
    field_simp
  unfold tvec bvec
  rw [hA, hB]
  rcases Nat.lt_trichotomy k e.lo with h | h | h
  · simp [show ¬ e.lo < k by omega, show ¬ k = e.lo by omega, show ¬ k = e.up by omega]
  · subst h
    simp
  · have hlo : ¬ k = e.lo := by omega
    simp only [if_neg hlo]
    rcases Nat.lt_trichotomy k e.up with h4 | h4 | h4
    · have hu : ¬ k = e.up := by omega
      have hin : e.lo < k ∧ k ≤ e.up := ⟨h, h4.le⟩
      simp only [if_neg hu, if_pos hin]
      by_cases hR : e.R k
      · rw [if_pos ⟨h, h4, hR⟩, if_neg (fun q => q.2.2 hR)]
        field_simp
        ring
      · rw [if_neg (fun q => hR q.2.2), if_pos ⟨h, h4, hR⟩]
        ring
    · have hin : e.lo < k ∧ k ≤ e.up := ⟨h, h4.le⟩
      simp only [if_pos h4, if_pos hin]
      rw [h4]
      field_simp
      ring
    · simp [show ¬ k ≤ e.up by omega, show ¬ k = e.up by omega, show ¬ k < e.up by omega]

/-- the form and its adjoint -/
theorem Mv_adjoint (hz : ζ ≠ 0) (h1 : ζ ≠ 1) (p q : Nat → ℂ) (n : Nat) : ∑ v ∈ range n, Mv ζ⁻¹ p v * q v + ∑ v ∈ range n, p v * Mv ζ q v = (∑ v ∈ range n, p v) * ∑ v ∈ range n, q v := by
  have h2 : 1 - ζ ≠ 0 := sub_ne_zero.2 (Ne.symm h1)
  have h3 := inv_one_sub hz h1
  induction n with
  | zero => simp
  | succ n ih =>
    simp only [sum_range_succ]
    have e1 : Mv ζ⁻¹ p n = ∑ j ∈ range n, p j + 1 / (1 - ζ) * p n := by
      unfold Mv
      rw [div_eq_mul_inv, h3]
      field_simp
      ring
    have e2 : Mv ζ q n = ∑ j ∈ range n, q j - ζ / (1 - ζ) * q n := rfl
    rw [e1, e2]
    have e3 : 1 / (1 - ζ) - ζ / (1 - ζ) = 1 := by rw [← sub_div]; exact div_self h2
    linear_combination ih + p n * q n * e3

theorem kk_anti (hz : ζ ≠ 0) (h1 : ζ ≠ 1) (hk : ek.lo < ek.up) (hk' : ek.up < n) (hl : el.lo < el.up) : kk ζ n ek el = -kk ζ⁻¹ n el ek := by
  have hz' : ζ⁻¹ ≠ 0 := inv_ne_zero hz
  have h1' : ζ⁻¹ ≠ 1 := fun h => h1 (inv_eq_one.1 h)
  have e := Mv_adjoint hz h1 (tvec ζ⁻¹ el) (tvec ζ ek) n
  rw [sum_tvec_all hk hk', mul_zero] at e
  have e1 : ∑ v ∈ range n, Mv ζ⁻¹ (tvec ζ⁻¹ el) v * tvec ζ ek v = kk ζ n ek el := by
    unfold kk
    refine sum_congr rfl fun v _ => ?_
    rw [Mv_tvec hz' h1' hl, inv_inv]
  have e2 : ∑ v ∈ range n, tvec ζ⁻¹ el v * Mv ζ (tvec ζ ek) v = kk ζ⁻¹ n el ek := by
    unfold kk
    refine sum_congr rfl fun v _ => ?_
    rw [Mv_tvec hz h1 hk, mul_comm]
  rw [e1, e2] at e
  linear_combination e

/-- the radical -/
noncomputable def rad (ζ : ℂ) (k : Nat) : ℂ := ζ⁻¹ ^ k

theorem sum_rad (hz : ζ ≠ 0) (h1 : ζ ≠ 1) (k : Nat) : ∑ j ∈ range k, rad ζ j = -ζ / (1 - ζ) * (1 - ζ⁻¹ ^ k) := by
  have h2 : 1 - ζ ≠ 0 := sub_ne_zero.2 (Ne.symm h1)
  induction k with
  | zero => simp
  | succ k ih =>
    rw [sum_range_succ, ih, rad, pow_succ]
    field_simp
    ring

theorem Mv_rad (hz : ζ ≠ 0) (h1 : ζ ≠ 1) (k : Nat) : Mv ζ (rad ζ) k = -ζ / (1 - ζ) := by
  unfold Mv
  rw [sum_rad hz h1, rad]
  ring

theorem sum_bvec_rad (hz : ζ ≠ 0) (h1 : ζ ≠ 1) (he : e.lo < e.up) (hn : e.up < n) : ∑ v ∈ range n, bvec ζ e v * rad ζ v = 0 := by
  have hz' : ζ⁻¹ ≠ 0 := inv_ne_zero hz
  have h1' : ζ⁻¹ ≠ 1 := fun h => h1 (inv_eq_one.1 h)
  have q := Mv_adjoint hz h1 (tvec ζ⁻¹ e) (rad ζ) n
  rw [sum_tvec_all he hn, zero_mul] at q
  simp only [Mv_rad hz h1, ← sum_mul] at q
  rw [sum_tvec_all he hn, zero_mul, add_zero] at q
  rw [← q]
  refine sum_congr rfl fun v _ => ?_
  rw [Mv_tvec hz' h1' he, inv_inv]

/-- the first edge is on the left of the second one at all heights where both exist -/
structure LeftOf (el ek : CEdge) : Prop where
  both : ∀ v, el.lo < v → v < el.up → ek.lo < v → v < ek.up → ek.R v → el.R v
  endl : ∀ v, v = el.lo ∨ v = el.up → ek.lo < v → v < ek.up → ¬ ek.R v
  endk : ∀ v, v = ek.lo ∨ v = ek.up → el.lo < v → v < el.up → el.R v

theorem LeftOf.refl (e : CEdge) : LeftOf e e := ⟨fun _ _ _ _ _ h => h, fun v h => by omega, fun v h => by omega⟩

theorem kk_left (hk : ek.lo < ek.up) (hl : el.lo < el.up) (hl' : el.up < n) (h : LeftOf el ek) :
    kk ζ n ek el = (1 - ζ)⁻¹ * ((if el.lo = ek.lo then 1 else 0) - (if el.lo = ek.up then ζ⁻¹ ^ ek.rc ek.up else 0) + ζ ^ el.rc el.up * ζ * (-(if el.up = ek.lo then 1 else 0) + (if el.up = ek.up then ζ⁻¹ ^ ek.rc ek.up else 0))) := by
  classical
  set tE : Nat → ℂ := fun v => -(if v = ek.lo then 1 else 0) + (if v = ek.up then ζ⁻¹ ^ ek.rc ek.up else 0) with htE
  have hpt : ∀ v, bvec ζ el v * tvec ζ ek v = (if v = el.lo then -(1 - ζ)⁻¹ * tE v else 0) + (if v = el.up then (1 - ζ)⁻¹ * (ζ ^ el.rc el.up * ζ) * tE v else 0) := by
    intro v
    have ht : v = el.lo ∨ v = el.up → tvec ζ ek v = tE v := by
      intro hv
      rw [htE]
      unfold tvec
      by_cases c1 : v = ek.lo
      · simp only [if_pos c1, if_neg (by omega : ¬ v = ek.up)]
        ring
      · by_cases c2 : v = ek.up
        · simp only [if_neg c1, if_pos c2]
          ring
        · simp only [if_neg c1, if_neg c2]
          rw [if_neg fun q => h.endl v hv q.1 q.2.1 q.2.2]
          ring
    by_cases c1 : v = el.lo
    · rw [ht (Or.inl c1), if_pos c1, if_neg (by omega), bvec, if_pos c1]
      ring
    · by_cases c2 : v = el.up
      · rw [ht (Or.inr c2), if_neg c1, if_pos c2, bvec, if_neg c1, if_pos c2]
        ring
      · rw [if_neg c1, if_neg c2, add_zero, bvec, if_neg c1, if_neg c2]
        by_cases c3 : el.lo < v ∧ v < el.up ∧ ¬ el.R v
        · obtain ⟨q1, q2, q3⟩ := c3
          have : tvec ζ ek v = 0 := by
            unfold tvec
            rw [if_neg fun q => q3 (h.endk v (Or.inl q) q1 q2), if_neg fun q => q3 (h.endk v (Or.inr q) q1 q2), if_neg fun q => q3 (h.both v q1 q2 q.1 q.2.1 q.2.2)]
          rw [this, mul_zero]
        · rw [if_neg c3, zero_mul]
  unfold kk
  simp only [hpt, sum_add_distrib, Finset.sum_ite_eq', mem_range]
  rw [if_pos (hl.trans hl'), if_pos hl', htE]
  simp only
  ring

end

/-! ### the matrix of the edges -/

/-- an edge with its direction and the sheet at its start -/
structure DEdge extends CEdge where
  θ : ℝ
  τ : ℤ

/-- the edge as an edge of a plane tree -/
noncomputable def DEdge.pe (e : DEdge) : PEdge := ⟨e.lo, e.up, e.θ, e.θ - Real.pi, e.τ, e.τ - e.rc e.up⟩

/-- directions around the common ends -/
structure LeftDir (el ek : DEdge) : Prop where
  left : LeftOf el.toCEdge ek.toCEdge
  lo : ek.lo = el.lo → ek.θ < el.θ
  up : ek.up = el.up → el.θ < ek.θ

section
variable {ζ : ℂˣ} {n : Nat} {E : Nat → DEdge} {k l : Nat}

theorem zu (s : ℤ) : ((ζ ^ s : ℂˣ) : ℂ) = (ζ : ℂ) ^ s := Units.val_zpow_eq_zpow_val ζ s

theorem Hm_expand (hkl : k ≠ l) (hk : 0 < (E k).θ ∧ (E k).θ < Real.pi) (hl : 0 < (E l).θ ∧ (E l).θ < Real.pi) :
    Hm ζ (fun i => (E i).pe) k l = (ζ : ℂ) ^ ((E k).τ - (E l).τ) * ((if (E k).lo = (E l).lo then cut ζ ((E k).θ < (E l).θ) else 0) - (if (E k).up = (E l).lo then (ζ : ℂ)⁻¹ ^ (E k).rc (E k).up * (ζ : ℂ)⁻¹ else 0)
      - (ζ : ℂ) ^ (E l).rc (E l).up * ((if (E k).lo = (E l).up then 1 else 0) - (if (E k).up = (E l).up then (ζ : ℂ)⁻¹ ^ (E k).rc (E k).up * cut ζ ((E k).θ < (E l).θ) else 0))) := by
  have hz : (ζ : ℂ) ≠ 0 := ζ.ne_zero
  unfold Hm bco DEdge.pe
  simp only [if_neg hkl, add_zero, zu]
  have c1 : cut ζ ((E k).θ - Real.pi < (E l).θ) = (ζ : ℂ)⁻¹ := by
    unfold cut
    rw [if_pos (by linarith [hk.1, hk.2, hl.1]), Units.val_inv_eq_inv_val]
  have c2 : cut ζ ((E k).θ < (E l).θ - Real.pi) = 1 := by
    unfold cut
    rw [if_neg (by linarith [hk.1, hl.2])]
  have c3 : ((E k).θ - Real.pi < (E l).θ - Real.pi) = ((E k).θ < (E l).θ) := by simp
  rw [c1, c2, c3, zpow_sub₀ hz, zpow_sub₀ hz, neg_sub, zpow_sub₀ hz, zpow_neg, zpow_natCast, zpow_natCast]
  simp only [inv_pow]
  split_ifs <;> field_simp <;> ring

theorem Hm_left (hz1 : (ζ : ℂ) ≠ 1) (hkl : k ≠ l) (hk : 0 < (E k).θ ∧ (E k).θ < Real.pi) (hl : 0 < (E l).θ ∧ (E l).θ < Real.pi) (hk1 : (E k).lo < (E k).up) (hl1 : (E l).lo < (E l).up) (hl2 : (E l).up < n) (h : LeftDir (E l) (E k)) :
    Hm ζ (fun i => (E i).pe) k l = (ζ : ℂ) ^ ((E k).τ - (E l).τ) * (((ζ : ℂ)⁻¹ - 1) * kk ζ n (E k).toCEdge (E l).toCEdge) := by
  have hz : (ζ : ℂ) ≠ 0 := ζ.ne_zero
  have h2 : 1 - (ζ : ℂ) ≠ 0 := sub_ne_zero.2 (Ne.symm hz1)
  rw [Hm_expand hkl hk hl, kk_left hk1 hl1 hl2 h.left]
  congr 1
  have e1 : (if (E k).lo = (E l).lo then cut ζ ((E k).θ < (E l).θ) else 0) = if (E k).lo = (E l).lo then (ζ : ℂ)⁻¹ else 0 := by
    split_ifs with q
    · rw [cut, if_pos (h.lo q), Units.val_inv_eq_inv_val]
    · rfl
  have e2 : (if (E k).up = (E l).up then (ζ : ℂ)⁻¹ ^ (E k).rc (E k).up * cut ζ ((E k).θ < (E l).θ) else 0) = if (E k).up = (E l).up then (ζ : ℂ)⁻¹ ^ (E k).rc (E k).up else 0 := by
    split_ifs with q
    · rw [cut, if_neg (not_lt.2 (h.up q).le), mul_one]
    · rfl
  rw [e1, e2]
  have e3 : ((ζ : ℂ)⁻¹ - 1) * (1 - (ζ : ℂ))⁻¹ = (ζ : ℂ)⁻¹ := by field_simp
  rw [← mul_assoc, e3]
  simp only [eq_comm (a := (E k).lo), eq_comm (a := (E k).up)]
  generalize (ζ : ℂ)⁻¹ ^ (E k).rc (E k).up = ck
  generalize (ζ : ℂ) ^ (E l).rc (E l).up = cl
  split_ifs <;> field_simp <;> ring

theorem Hm_right (hz1 : (ζ : ℂ) ≠ 1) (hkl : k ≠ l) (hk : 0 < (E k).θ ∧ (E k).θ < Real.pi) (hl : 0 < (E l).θ ∧ (E l).θ < Real.pi) (hk1 : (E k).lo < (E k).up) (hk2 : (E k).up < n) (hl1 : (E l).lo < (E l).up) (h : LeftDir (E k) (E l)) :
    Hm ζ (fun i => (E i).pe) k l = (ζ : ℂ) ^ ((E k).τ - (E l).τ) * (((ζ : ℂ)⁻¹ - 1) * kk ζ n (E k).toCEdge (E l).toCEdge) := by
  have hz : (ζ : ℂ) ≠ 0 := ζ.ne_zero
  have h2 : 1 - (ζ : ℂ) ≠ 0 := sub_ne_zero.2 (Ne.symm hz1)
  rw [Hm_expand hkl hk hl, kk_anti hz hz1 hk1 hk2 hl1, kk_left hl1 hk1 hk2 h.left, inv_inv, inv_one_sub hz hz1]
  congr 1
  have e1 : (if (E k).lo = (E l).lo then cut ζ ((E k).θ < (E l).θ) else 0) = if (E k).lo = (E l).lo then 1 else 0 := by
    split_ifs with q
    · rw [cut, if_neg (not_lt.2 (h.lo q.symm).le)]
    · rfl
  have e2 : (if (E k).up = (E l).up then (ζ : ℂ)⁻¹ ^ (E k).rc (E k).up * cut ζ ((E k).θ < (E l).θ) else 0) = if (E k).up = (E l).up then (ζ : ℂ)⁻¹ ^ (E k).rc (E k).up * (ζ : ℂ)⁻¹ else 0 := by
    split_ifs with q
    · rw [cut, if_pos (h.up q.symm), Units.val_inv_eq_inv_val]
    · rfl
  rw [e1, e2]
  generalize (ζ : ℂ)⁻¹ ^ (E k).rc (E k).up = ck
  generalize (ζ : ℂ) ^ (E l).rc (E l).up = cl
  split_ifs <;> field_simp <;> ring

theorem Hm_self (hz1 : (ζ : ℂ) ≠ 1) (hk1 : (E k).lo < (E k).up) (hk2 : (E k).up < n) :
    Hm ζ (fun i => (E i).pe) k k = ((ζ : ℂ)⁻¹ - 1) * kk ζ n (E k).toCEdge (E k).toCEdge := by
  have hz : (ζ : ℂ) ≠ 0 := ζ.ne_zero
  have h2 : 1 - (ζ : ℂ) ≠ 0 := sub_ne_zero.2 (Ne.symm hz1)
  rw [kk_left hk1 hk1 hk2 (LeftOf.refl _)]
  unfold Hm bco DEdge.pe
  have hc : cut ζ False = 1 := by simp [cut]
  simp only [if_true, if_neg hk1.ne, if_neg hk1.ne', lt_irrefl, hc, zu, mul_one, sub_zero, zero_sub, neg_zero, zero_add, Units.val_inv_eq_inv_val]
  have e1 : (ζ : ℂ) ^ (-(E k).τ) * (ζ : ℂ) ^ (E k).τ = 1 := by rw [← zpow_add₀ hz]; simp
  have e2 : (ζ : ℂ) ^ (-((E k).τ - (E k).rc (E k).up)) * (ζ : ℂ) ^ ((E k).τ - (E k).rc (E k).up) = 1 := by rw [← zpow_add₀ hz]; simp
  have e3 : (ζ : ℂ) ^ (E k).rc (E k).up * (ζ : ℂ)⁻¹ ^ (E k).rc (E k).up = 1 := by rw [← mul_pow, mul_inv_cancel₀ hz, one_pow]
  have e4 : ((ζ : ℂ)⁻¹ - 1) * (1 - (ζ : ℂ))⁻¹ = (ζ : ℂ)⁻¹ := by field_simp
  linear_combination e1 + e2 - (1 + (ζ : ℂ) * ((ζ : ℂ) ^ (E k).rc (E k).up * (ζ : ℂ)⁻¹ ^ (E k).rc (E k).up)) * e4 - (ζ : ℂ)⁻¹ * (ζ : ℂ) * e3 - mul_inv_cancel₀ hz

end

end Hcp.Cut
