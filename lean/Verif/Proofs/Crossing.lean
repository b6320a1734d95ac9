import Verif.Spec.Crossing
import Verif.Proofs.Sheet

/-!
# Crossing numbers of rays
-/

namespace Hcp
open Complex Spec

theorem turns_iff {z o : ℂ} (hz : z ≠ 0) (ho : o ≠ 0) {φ : ℝ} : Turns z o φ ↔ ∃ r : ℝ, 0 < r ∧ z = r * exp (φ * I) * o := by
  unfold Turns
  constructor
  · intro h
    refine ⟨‖z / o‖, norm_pos_iff.2 (div_ne_zero hz ho), ?_⟩
    rw [← h, div_mul_cancel₀ _ ho]
  · rintro ⟨r, hr, rfl⟩
    rw [mul_div_cancel_right₀ _ ho, norm_mul, norm_exp_ofReal_mul_I, mul_one, norm_real, Real.norm_of_nonneg hr.le]

theorem turns_unique_mod {z o : ℂ} (hz : z ≠ 0) (ho : o ≠ 0) {φ φ' : ℝ} (h : Turns z o φ) (h' : Turns z o φ') : ∃ j : ℤ, φ' = φ + 2 * Real.pi * j := by
  unfold Turns at h h'
  have hn : (‖z / o‖ : ℂ) ≠ 0 := ofReal_ne_zero.2 (norm_ne_zero_iff.2 (div_ne_zero hz ho))
  have e : exp (φ' * I) = exp (φ * I) := mul_left_cancel₀ hn (h'.symm.trans h)
  obtain ⟨j, hj⟩ := exp_eq_exp_iff_exists_int.1 e
  refine ⟨j, ?_⟩
  have : (φ' : ℂ) * I = ((φ + 2 * Real.pi * j : ℝ) : ℂ) * I := by rw [hj]; push_cast; ring
  exact ofReal_injective (mul_right_cancel₀ I_ne_zero this)

theorem turns_add {z o : ℂ} {φ : ℝ} (h : Turns z o φ) (j : ℤ) : Turns z o (φ + 2 * Real.pi * j) := by
  unfold Turns at h ⊢
  rw [h]
  have : exp (((φ + 2 * Real.pi * j : ℝ) : ℂ) * I) = exp (φ * I) := by
    rw [exp_eq_exp_iff_exists_int]
    exact ⟨j, by push_cast; ring⟩
  rw [this, norm_mul, norm_exp_ofReal_mul_I, mul_one, norm_real, norm_norm]

theorem turns_zeta {m : Nat} {A B : ℂ} (hA : A ≠ 0) (hB : B ≠ 0) {φ : ℝ} (h : Turns B A φ) (p q : ℤ) :
    Turns (zeta m ^ p * B) (zeta m ^ q * A) (2 * Real.pi * (p - q) / m + φ) := by
  have hz : zeta m ≠ 0 := exp_ne_zero _
  rw [turns_iff (mul_ne_zero (zpow_ne_zero _ hz) hB) (mul_ne_zero (zpow_ne_zero _ hz) hA)]
  rw [turns_iff hB hA] at h
  obtain ⟨r, hr, rfl⟩ := h
  refine ⟨r, hr, ?_⟩
  unfold zeta
  rw [← exp_int_mul, ← exp_int_mul]
  have : exp ((p : ℂ) * (2 * Real.pi * I / m)) * exp (φ * I) = exp (((2 * Real.pi * (p - q) / m + φ : ℝ) : ℂ) * I) * exp ((q : ℂ) * (2 * Real.pi * I / m)) := by
    rw [← exp_add, ← exp_add]
    congr 1
    push_cast
    ring
  linear_combination (r : ℂ) * A * this

theorem between_iff {o i z : ℂ} (ho : o ≠ 0) (hi : i ≠ 0) (hz : z ≠ 0) {φ ψ : ℝ} (h1 : Turns z o φ) (h2 : Turns i o ψ) (hψ : 0 < ψ) (hψ' : ψ ≤ 2 * Real.pi) :
    Between o i z ↔ ∃ j : ℤ, 0 < φ + 2 * Real.pi * j ∧ φ + 2 * Real.pi * j < ψ := by
  have hpi := Real.pi_pos
  constructor
  · rintro ⟨φ', ψ', a1, a2, a3, a4, a5⟩
    obtain ⟨j, rfl⟩ := turns_unique_mod hz ho h1 a4
    obtain ⟨k, rfl⟩ := turns_unique_mod hi ho h2 a5
    have hk : k = 0 := by
      have k1 : (k : ℝ) < 1 := by
        by_contra h
        push Not at h
        nlinarith
      have k2 : (-1 : ℝ) < k := by
        by_contra h
        push Not at h
        nlinarith
      have k1' : k < 1 := by exact_mod_cast k1
      have k2' : -1 < k := by exact_mod_cast k2
      omega
    subst hk
    exact ⟨j, a1, by simpa using a2⟩
  · rintro ⟨j, b1, b2⟩
    exact ⟨_, ψ, b1, b2, hψ', turns_add h1 j, h2⟩

theorem turns_zero_iff {z o : ℂ} (ho : o ≠ 0) (hz : z ≠ 0) {φ : ℝ} (h1 : Turns z o φ) : Turns z o 0 ↔ ∃ j : ℤ, φ + 2 * Real.pi * j = 0 := by
  constructor
  · intro h
    obtain ⟨j, hj⟩ := turns_unique_mod hz ho h1 h
    exact ⟨j, hj.symm⟩
  · rintro ⟨j, hj⟩
    rw [← hj]
    exact turns_add h1 j

/-- the rays of the lifts of two edges at a common vertex -/
structure Rays (m : Nat) (A B : ℂ) (S : ℤ) (θ : ℝ) : Prop where
  two : 2 ≤ m
  hA : A ≠ 0
  hB : B ≠ 0
  pos : 0 < θ
  lt : θ < 2 * Real.pi / m
  turn : Turns (zeta m ^ S * A) B θ

theorem zeta_ne (m : Nat) : zeta m ≠ 0 := exp_ne_zero _

theorem Rays.rev {m : Nat} {A B : ℂ} {S : ℤ} {θ : ℝ} (h : Rays m A B S θ) (p q : ℤ) :
    Turns (zeta m ^ p * B) (zeta m ^ q * A) (2 * Real.pi * (p + S - q) / m - θ) := by
  have hz := zeta_ne m
  have h1 : Turns B A (2 * Real.pi * S / m - θ) := by
    have h2 := h.turn
    rw [turns_iff (mul_ne_zero (zpow_ne_zero _ hz) h.hA) h.hB] at h2
    rw [turns_iff h.hB h.hA]
    obtain ⟨r, hr, e⟩ := h2
    refine ⟨r⁻¹, inv_pos.2 hr, ?_⟩
    have hr' : (r : ℂ) ≠ 0 := by exact_mod_cast hr.ne'
    have e2 : zeta m ^ S = exp (((2 * Real.pi * S / m - θ : ℝ) : ℂ) * I) * exp (θ * I) := by
      unfold zeta
      rw [← exp_int_mul, ← exp_add]
      congr 1
      push_cast
      ring
    rw [e2] at e
    push_cast
    field_simp
    have e3 : exp (θ * I) * (exp (((2 * Real.pi * S / m - θ : ℝ) : ℂ) * I) * A) = exp (θ * I) * (r * B) := by linear_combination e
    have := mul_left_cancel₀ (exp_ne_zero _) e3
    push_cast at this
    rw [mul_comm B, ← this]
  have h3 := turns_zeta (m := m) h.hA h.hB h1 p q
  have : 2 * Real.pi * ((p : ℝ) - q) / m + (2 * Real.pi * S / m - θ) = 2 * Real.pi * (p + S - q) / m - θ := by ring
  rwa [this] at h3

theorem turn_step {m : Nat} (_hm : 2 ≤ m) {A : ℂ} (hA : A ≠ 0) (p q : ℤ) : Turns (zeta m ^ p * A) (zeta m ^ q * A) (2 * Real.pi * (p - q) / m) := by
  have : Turns A A 0 := by
    rw [turns_iff hA hA]
    exact ⟨1, one_pos, by simp⟩
  have := turns_zeta (m := m) hA hA this p q
  rwa [add_zero] at this

/-- `φ = 2π K / m - θ` lies in the open arc of length `2π L / m` after `0` -/
theorem arc_iff {m : Nat} (hm : 2 ≤ m) {θ : ℝ} (h0 : 0 < θ) (h1 : θ < 2 * Real.pi / m) (K L : ℤ) :
    (∃ j : ℤ, 0 < (2 * Real.pi * K / m - θ) + 2 * Real.pi * j ∧ (2 * Real.pi * K / m - θ) + 2 * Real.pi * j < 2 * Real.pi * L / m) ↔
      ∃ j : ℤ, 1 ≤ K + m * j ∧ K + m * j ≤ L := by
  have hpi := Real.pi_pos
  have hm0 : (0 : ℝ) < m := by exact_mod_cast (by omega : 0 < m)
  have e : ∀ j : ℤ, (2 * Real.pi * K / m - θ) + 2 * Real.pi * j = 2 * Real.pi / m * ((K + m * j : ℤ) : ℝ) - θ := by
    intro j
    push_cast
    field_simp
    ring
  have e2 : 2 * Real.pi * (L : ℝ) / m = 2 * Real.pi / m * L := by ring
  have hq : 0 < 2 * Real.pi / m := by positivity
  constructor
  · rintro ⟨j, a, b⟩
    rw [e] at a b
    rw [e2] at b
    refine ⟨j, ?_, ?_⟩
    · by_contra hc
      have hc' : ((K + m * j : ℤ) : ℝ) ≤ 0 := by exact_mod_cast (by omega : K + m * j ≤ 0)
      nlinarith
    · by_contra hc
      have hc' : (L : ℝ) + 1 ≤ ((K + m * j : ℤ) : ℝ) := by exact_mod_cast (by omega : L + 1 ≤ K + m * j)
      nlinarith
  · rintro ⟨j, a, b⟩
    refine ⟨j, ?_, ?_⟩
    · rw [e]
      have a' : (1 : ℝ) ≤ ((K + m * j : ℤ) : ℝ) := by exact_mod_cast a
      nlinarith
    · rw [e, e2]
      have b' : ((K + m * j : ℤ) : ℝ) ≤ L := by exact_mod_cast b
      nlinarith

theorem arc_iff' {m : Nat} (hm : 2 ≤ m) (K L : ℤ) :
    (∃ j : ℤ, 0 < (2 * Real.pi * K / m) + 2 * Real.pi * j ∧ (2 * Real.pi * K / m) + 2 * Real.pi * j < 2 * Real.pi * L / m) ↔
      ∃ j : ℤ, 1 ≤ K + m * j ∧ K + m * j < L := by
  have hpi := Real.pi_pos
  have hm0 : (0 : ℝ) < m := by exact_mod_cast (by omega : 0 < m)
  have e : ∀ j : ℤ, (2 * Real.pi * K / m) + 2 * Real.pi * j = 2 * Real.pi / m * ((K + m * j : ℤ) : ℝ) := by
    intro j
    push_cast
    field_simp
  have e2 : 2 * Real.pi * (L : ℝ) / m = 2 * Real.pi / m * L := by ring
  have hq : 0 < 2 * Real.pi / m := by positivity
  refine exists_congr fun j => ?_
  rw [e, e2]
  refine and_congr ?_ ?_
  · rw [mul_pos_iff_of_pos_left hq, Int.cast_pos]
    omega
  · rw [mul_lt_mul_iff_right₀ hq, Int.cast_lt]

theorem arc_zero {m : Nat} (hm : 2 ≤ m) {θ : ℝ} (h0 : 0 < θ) (h1 : θ < 2 * Real.pi / m) (K : ℤ) : ¬ ∃ j : ℤ, (2 * Real.pi * K / m - θ) + 2 * Real.pi * j = 0 := by
  have hpi := Real.pi_pos
  have hm0 : (0 : ℝ) < m := by exact_mod_cast (by omega : 0 < m)
  have hq : 0 < 2 * Real.pi / m := by positivity
  rintro ⟨j, hj⟩
  have e : (2 * Real.pi * K / m - θ) + 2 * Real.pi * j = 2 * Real.pi / m * ((K + m * j : ℤ) : ℝ) - θ := by
    push_cast
    field_simp
    ring
  rw [e] at hj
  rcases le_or_gt (K + m * j) 0 with h | h
  · have h' : ((K + m * j : ℤ) : ℝ) ≤ 0 := by exact_mod_cast h
    nlinarith
  · have h' : (1 : ℝ) ≤ ((K + m * j : ℤ) : ℝ) := by exact_mod_cast (by omega : 1 ≤ K + m * j)
    nlinarith

theorem arc_zero' {m : Nat} (hm : 2 ≤ m) (K : ℤ) : (∃ j : ℤ, (2 * Real.pi * K / m) + 2 * Real.pi * j = 0) ↔ (m : ℤ) ∣ K := by
  have hpi := Real.pi_pos
  have hm0 : (0 : ℝ) < m := by exact_mod_cast (by omega : 0 < m)
  have hq : 2 * Real.pi / m ≠ 0 := by positivity
  have e : ∀ j : ℤ, (2 * Real.pi * K / m) + 2 * Real.pi * j = 2 * Real.pi / m * ((K + m * j : ℤ) : ℝ) := by
    intro j
    push_cast
    field_simp
  constructor
  · rintro ⟨j, hj⟩
    rw [e] at hj
    have : ((K + m * j : ℤ) : ℝ) = 0 := (mul_eq_zero.1 hj).resolve_left hq
    have h : K + m * j = 0 := by exact_mod_cast this
    exact ⟨-j, by linarith⟩
  · rintro ⟨j, rfl⟩
    refine ⟨-j, ?_⟩
    rw [e]
    have : (m : ℤ) * j + m * -j = 0 := by ring
    rw [this]; simp

theorem one_arc {m : Nat} (_hm : 2 ≤ m) (K : ℤ) : (∃ j : ℤ, 1 ≤ K + m * j ∧ K + m * j ≤ 1) ↔ (m : ℤ) ∣ K - 1 := by
  constructor
  · rintro ⟨j, a, b⟩
    exact ⟨-j, by linarith [mul_neg (m : ℤ) j]⟩
  · rintro ⟨j, hj⟩
    have : K + m * -j = 1 := by linarith [mul_neg (m : ℤ) j]
    exact ⟨-j, by omega, by omega⟩

theorem long_arc {m : Nat} (hm : 2 ≤ m) (K : ℤ) : (∃ j : ℤ, 1 ≤ K + m * j ∧ K + m * j ≤ m - 1) ↔ ¬ (m : ℤ) ∣ K := by
  have hm0 : (0 : ℤ) < m := by omega
  constructor
  · rintro ⟨j, a, b⟩ ⟨k, rfl⟩
    have e : (m : ℤ) * k + m * j = m * (k + j) := by ring
    rw [e] at a b
    have h1 : 0 < k + j := by by_contra hc; nlinarith
    nlinarith
  · intro h
    refine ⟨-(K / m), ?_, ?_⟩
    · have h1 := Int.emod_nonneg K hm0.ne'
      have h2 := Int.emod_add_mul_ediv K m
      have h3 : K % m ≠ 0 := fun h0 => h (Int.dvd_of_emod_eq_zero h0)
      have : K + m * -(K / m) = K % m := by linarith [mul_neg (m : ℤ) (K / m)]
      omega
    · have h1 := Int.emod_lt_of_pos K hm0
      have h2 := Int.emod_add_mul_ediv K m
      have : K + m * -(K / m) = K % m := by linarith [mul_neg (m : ℤ) (K / m)]
      omega

theorem step_pos {m : Nat} (hm : 2 ≤ m) : 0 < 2 * Real.pi * ((1 : ℤ) : ℝ) / m ∧ 2 * Real.pi * ((1 : ℤ) : ℝ) / m ≤ 2 * Real.pi ∧
    0 < 2 * Real.pi * (((m : ℤ) - 1 : ℤ) : ℝ) / m ∧ 2 * Real.pi * (((m : ℤ) - 1 : ℤ) : ℝ) / m ≤ 2 * Real.pi := by
  have hpi := Real.pi_pos
  have hm2 : (2 : ℝ) ≤ m := by exact_mod_cast hm
  have hm0 : (0 : ℝ) < m := by linarith
  push_cast
  refine ⟨by positivity, ?_, ?_, ?_⟩
  · rw [div_le_iff₀ hm0]; nlinarith
  · apply div_pos _ hm0
    apply mul_pos (by positivity); linarith
  · rw [div_le_iff₀ hm0]; nlinarith

theorem turn_back {m : Nat} (hm : 2 ≤ m) {A : ℂ} (hA : A ≠ 0) (p : ℤ) : Turns (zeta m ^ p * A) (zeta m ^ (p + 1) * A) (2 * Real.pi * (((m : ℤ) - 1 : ℤ) : ℝ) / m) := by
  have h := turns_add (turn_step hm hA p (p + 1)) 1
  have hm0 : (m : ℝ) ≠ 0 := by exact_mod_cast (by omega : m ≠ 0)
  have : 2 * Real.pi * ((p : ℝ) - ((p + 1 : ℤ) : ℝ)) / m + 2 * Real.pi * ((1 : ℤ) : ℝ) = 2 * Real.pi * (((m : ℤ) - 1 : ℤ) : ℝ) / m := by
    push_cast
    field_simp
    ring
  rwa [this] at h

theorem turn_fwd {m : Nat} (hm : 2 ≤ m) {A : ℂ} (hA : A ≠ 0) (p : ℤ) : Turns (zeta m ^ (p + 1) * A) (zeta m ^ p * A) (2 * Real.pi * ((1 : ℤ) : ℝ) / m) := by
  have h := turn_step hm hA (p + 1) p
  have : ((p + 1 : ℤ) : ℝ) - p = ((1 : ℤ) : ℝ) := by push_cast; ring
  rwa [this] at h

/-- the left of a loop leaving the vertex -/
theorem left_start {m : Nat} {A B : ℂ} {S : ℤ} {θ : ℝ} (h : Rays m A B S θ) (α β : ℤ) :
    leftSide (zeta m ^ (α + 1) * A) (zeta m ^ α * A) (zeta m ^ β * B) = if (m : ℤ) ∣ β + S - α - 1 then 1 else 0 := by
  have hz : ∀ (p : ℤ) {C : ℂ}, C ≠ 0 → zeta m ^ p * C ≠ 0 := fun p C hC => mul_ne_zero (zpow_ne_zero _ (zeta_ne m)) hC
  obtain ⟨s1, s2, -, -⟩ := step_pos h.two
  have t1 := h.rev β α
  have t2 := h.rev β (α + 1)
  have c1 : (β : ℝ) + S - α = ((β + S - α : ℤ) : ℝ) := by push_cast; ring
  have c2 : (β : ℝ) + S - ((α + 1 : ℤ) : ℝ) = ((β + S - α - 1 : ℤ) : ℝ) := by push_cast; ring
  rw [c1] at t1
  rw [c2] at t2
  unfold leftSide
  rw [between_iff (hz α h.hA) (hz _ h.hA) (hz β h.hB) t1 (turn_fwd h.two h.hA α) s1 s2, arc_iff h.two h.pos h.lt, one_arc h.two]
  split
  · rfl
  · rw [if_neg]
    rintro (g | g)
    · exact arc_zero h.two h.pos h.lt _ ((turns_zero_iff (hz _ h.hA) (hz _ h.hB) t1).1 g)
    · exact arc_zero h.two h.pos h.lt _ ((turns_zero_iff (hz _ h.hA) (hz _ h.hB) t2).1 g)

/-- the left of a loop arriving at the vertex -/
theorem left_end {m : Nat} {A B : ℂ} {S : ℤ} {θ : ℝ} (h : Rays m A B S θ) (α β : ℤ) :
    leftSide (zeta m ^ α * A) (zeta m ^ (α + 1) * A) (zeta m ^ β * B) = if (m : ℤ) ∣ β + S - α - 1 then 0 else 1 := by
  have hz : ∀ (p : ℤ) {C : ℂ}, C ≠ 0 → zeta m ^ p * C ≠ 0 := fun p C hC => mul_ne_zero (zpow_ne_zero _ (zeta_ne m)) hC
  obtain ⟨-, -, s1, s2⟩ := step_pos h.two
  have t1 := h.rev β (α + 1)
  have t2 := h.rev β α
  have c1 : (β : ℝ) + S - ((α + 1 : ℤ) : ℝ) = ((β + S - α - 1 : ℤ) : ℝ) := by push_cast; ring
  have c2 : (β : ℝ) + S - α = ((β + S - α : ℤ) : ℝ) := by push_cast; ring
  rw [c1] at t1
  rw [c2] at t2
  unfold leftSide
  rw [between_iff (hz _ h.hA) (hz _ h.hA) (hz β h.hB) t1 (turn_back h.two h.hA α) s1 s2, arc_iff h.two h.pos h.lt, long_arc h.two]
  by_cases hd : (m : ℤ) ∣ β + S - α - 1
  · rw [if_neg (not_not.2 hd), if_pos hd, if_neg]
    rintro (g | g)
    · exact arc_zero h.two h.pos h.lt _ ((turns_zero_iff (hz _ h.hA) (hz _ h.hB) t1).1 g)
    · exact arc_zero h.two h.pos h.lt _ ((turns_zero_iff (hz _ h.hA) (hz _ h.hB) t2).1 g)
  · rw [if_pos hd, if_neg hd]

theorem self_start {m : Nat} (hm : 2 ≤ m) {A : ℂ} (hA : A ≠ 0) (α β : ℤ) :
    leftSide (zeta m ^ (α + 1) * A) (zeta m ^ α * A) (zeta m ^ β * A) = if (m : ℤ) ∣ β - α ∨ (m : ℤ) ∣ β - α - 1 then 1 / 2 else 0 := by
  have hz : ∀ (p : ℤ) {C : ℂ}, C ≠ 0 → zeta m ^ p * C ≠ 0 := fun p C hC => mul_ne_zero (zpow_ne_zero _ (zeta_ne m)) hC
  obtain ⟨s1, s2, -, -⟩ := step_pos hm
  have t1 := turn_step hm hA β α
  have t2 := turn_step hm hA β (α + 1)
  have c1 : (β : ℝ) - α = ((β - α : ℤ) : ℝ) := by push_cast; ring
  have c2 : (β : ℝ) - ((α + 1 : ℤ) : ℝ) = ((β - α - 1 : ℤ) : ℝ) := by push_cast; ring
  rw [c1] at t1
  rw [c2] at t2
  unfold leftSide
  rw [between_iff (hz α hA) (hz _ hA) (hz β hA) t1 (turn_fwd hm hA α) s1 s2, arc_iff' hm, if_neg (by rintro ⟨j, a, b⟩; omega)]
  rw [turns_zero_iff (hz _ hA) (hz _ hA) t1, turns_zero_iff (hz _ hA) (hz _ hA) t2, arc_zero' hm, arc_zero' hm]
  split_ifs <;> rfl

theorem self_end {m : Nat} (hm : 2 ≤ m) {A : ℂ} (hA : A ≠ 0) (α β : ℤ) :
    leftSide (zeta m ^ α * A) (zeta m ^ (α + 1) * A) (zeta m ^ β * A) = if (m : ℤ) ∣ β - α ∨ (m : ℤ) ∣ β - α - 1 then 1 / 2 else 1 := by
  have hz : ∀ (p : ℤ) {C : ℂ}, C ≠ 0 → zeta m ^ p * C ≠ 0 := fun p C hC => mul_ne_zero (zpow_ne_zero _ (zeta_ne m)) hC
  obtain ⟨-, -, s1, s2⟩ := step_pos hm
  have t1 := turn_step hm hA β (α + 1)
  have t2 := turn_step hm hA β α
  have c1 : (β : ℝ) - ((α + 1 : ℤ) : ℝ) = ((β - α - 1 : ℤ) : ℝ) := by push_cast; ring
  have c2 : (β : ℝ) - α = ((β - α : ℤ) : ℝ) := by push_cast; ring
  rw [c1] at t1
  rw [c2] at t2
  have hm0 : (0 : ℤ) < m := by omega
  have key : (∃ j : ℤ, 1 ≤ (β - α - 1) + m * j ∧ (β - α - 1) + m * j < (m : ℤ) - 1) ↔ ¬ ((m : ℤ) ∣ β - α ∨ (m : ℤ) ∣ β - α - 1) := by
    constructor
    · rintro ⟨j, a, b⟩ (⟨k, hk⟩ | ⟨k, hk⟩)
      · have e : (β - α - 1) + m * j = m * (k + j) - 1 := by rw [hk]; ring
        rw [e] at a b
        have h1 : 0 < k + j := by by_contra hc; nlinarith
        nlinarith
      · have e : (β - α - 1) + m * j = m * (k + j) := by rw [hk]; ring
        rw [e] at a b
        have h1 : 0 < k + j := by by_contra hc; nlinarith
        nlinarith
    · intro h
      push Not at h
      obtain ⟨j, a, b⟩ := (long_arc hm (β - α - 1)).2 h.2
      refine ⟨j, a, lt_of_le_of_ne b fun hc => h.1 ⟨1 - j, ?_⟩⟩
      have := mul_sub (m : ℤ) 1 j
      linarith
  unfold leftSide
  rw [between_iff (hz _ hA) (hz _ hA) (hz β hA) t1 (turn_back hm hA α) s1 s2, arc_iff' hm, key]
  rw [turns_zero_iff (hz _ hA) (hz _ hA) t1, turns_zero_iff (hz _ hA) (hz _ hA) t2, arc_zero' hm, arc_zero' hm]
  by_cases hd : (m : ℤ) ∣ β - α ∨ (m : ℤ) ∣ β - α - 1
  · rw [if_neg (not_not.2 hd), if_pos hd.symm, if_pos hd]
  · rw [if_pos hd, if_neg hd]

end Hcp
