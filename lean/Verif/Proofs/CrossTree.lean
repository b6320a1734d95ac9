import Verif.Proofs.Crossing
import Verif.Proofs.Branch
import Verif.Props.Rank

/-!
# Crossing numbers of the loops of a tree
-/

namespace Hcp
open Spec

theorem rays_of_gap {m : Nat} (hm : 2 ≤ m) {dk dl Yk Yl : ℂ} {S : ℤ} (hdk : dk ≠ 0) (hdl : dl ≠ 0) (hk : Yk ≠ 0) (hl : Yl ≠ 0) (h : SheetGap m dk dl Yk Yl S) :
    ∃ θ, Rays m Yk Yl S θ := by
  obtain ⟨θ, h0, h1, -, hc⟩ := h
  have hm0 : (0 : ℝ) < m := by exact_mod_cast (by omega : 0 < m)
  refine ⟨θ / m, hm, hk, hl, by positivity, by gcongr, ?_⟩
  rw [turns_iff (mul_ne_zero (zpow_ne_zero _ (zeta_ne m)) hk) hl]
  have p1 : 0 < ‖dk‖ ^ ((m : ℝ)⁻¹) := Real.rpow_pos_of_pos (norm_pos_iff.2 hdk) _
  have p2 : 0 < ‖dl‖ ^ ((m : ℝ)⁻¹) := Real.rpow_pos_of_pos (norm_pos_iff.2 hdl) _
  unfold Continues at hc
  have e : (((θ / m : ℝ) : ℂ) * Complex.I) = θ * Complex.I / m := by push_cast; ring
  generalize ‖dk‖ ^ ((m : ℝ)⁻¹) = q1 at hc p1
  generalize ‖dl‖ ^ ((m : ℝ)⁻¹) = q2 at hc p2
  refine ⟨q1 / q2, by positivity, ?_⟩
  have p2' : (q2 : ℂ) ≠ 0 := by exact_mod_cast p2.ne'
  rw [e, Complex.ofReal_div]
  apply mul_right_cancel₀ p2'
  have : (q1 : ℂ) / q2 * q2 = q1 := div_mul_cancel₀ _ p2'
  linear_combination -hc - Complex.exp (θ * Complex.I / m) * Yl * this

theorem Rays.symm {m : Nat} {A B : ℂ} {S : ℤ} {θ : ℝ} (h : Rays m A B S θ) : Rays m B A (1 - S) (2 * Real.pi / m - θ) := by
  refine ⟨h.two, h.hB, h.hA, by linarith [h.lt], by linarith [h.pos], ?_⟩
  have := h.rev (1 - S) 0
  have e : 2 * Real.pi * (((1 - S : ℤ) : ℝ) + S - ((0 : ℤ) : ℝ)) / m = 2 * Real.pi / m := by push_cast; ring
  rwa [e, zpow_zero, one_mul] at this

theorem not_both {m : Nat} (hm : 2 ≤ m) {z : ℤ} (h1 : (m : ℤ) ∣ z) (h2 : (m : ℤ) ∣ z - 1) : False := by
  have := dvd_sub h1 h2
  have e : z - (z - 1) = 1 := by ring
  rw [e] at this
  have := Int.le_of_dvd one_pos this
  omega

theorem local_swap {m : Nat} (hm : 2 ≤ m) (a b S : ℤ) : localNumber m a b (1 - S) = - localNumber m b a S := by
  have i1 : (m : ℤ) ∣ b - a - (1 - (1 - S)) ↔ (m : ℤ) ∣ a - b + S := by
    rw [← dvd_neg, show -(b - a - (1 - (1 - S))) = a - b + S by ring]
  have i2 : (m : ℤ) ∣ b - a - -(1 - S) ↔ (m : ℤ) ∣ a - b + S - 1 := by
    rw [← dvd_neg, show -(b - a - -(1 - S)) = a - b + S - 1 by ring]
  have i3 : (m : ℤ) ∣ a - b - (1 - S) ↔ (m : ℤ) ∣ a - b + S - 1 := by
    constructor <;> (intro h; convert h using 1; ring)
  have i4 : (m : ℤ) ∣ a - b - -S ↔ (m : ℤ) ∣ a - b + S := by
    constructor <;> (intro h; convert h using 1; ring)
  unfold localNumber pm
  simp only [i1, i2, i3, i4]
  have := fun h1 h2 => not_both hm (z := a - b + S) h1 h2
  split_ifs <;> simp_all

theorem crossing_rev (p q : Passage) : crossing p ⟨q.out, q.inn⟩ = - crossing p q := by
  unfold crossing; ring

/-- loops leaving the common vertex -/
theorem crossing_start {m : Nat} {A B : ℂ} {S : ℤ} {θ : ℝ} (h : Rays m A B S θ) (α β : Nat) :
    crossing ⟨zeta m ^ (α + 1) * A, zeta m ^ α * A⟩ ⟨zeta m ^ (β + 1) * B, zeta m ^ β * B⟩ = localNumber m α β S := by
  have h1 := left_start h α β
  have h2 := left_start h α (β + 1)
  have c : ∀ s : Nat, zeta m ^ (s + 1) = zeta m ^ ((s : ℤ) + 1) := fun s => by exact_mod_cast (zpow_natCast (zeta m) (s + 1)).symm
  have c' : ∀ s : Nat, zeta m ^ s = zeta m ^ (s : ℤ) := fun s => (zpow_natCast (zeta m) s).symm
  unfold crossing
  simp only
  rw [c, c, c', c', h1, h2]
  have i1 : (m : ℤ) ∣ (β : ℤ) + 1 + S - α - 1 ↔ (m : ℤ) ∣ β - α + S := by
    constructor <;> (intro h; convert h using 1; ring)
  have i2 : (m : ℤ) ∣ (β : ℤ) + S - α - 1 ↔ (m : ℤ) ∣ β - α + S - 1 := by
    constructor <;> (intro h; convert h using 1; ring)
  have i3 : (m : ℤ) ∣ (β : ℤ) - α - (1 - S) ↔ (m : ℤ) ∣ β - α + S - 1 := by
    constructor <;> (intro h; convert h using 1; ring)
  have i4 : (m : ℤ) ∣ (β : ℤ) - α - -S ↔ (m : ℤ) ∣ β - α + S := by
    constructor <;> (intro h; convert h using 1; ring)
  unfold localNumber pm
  simp only [i1, i2, i3, i4]
  have nb := fun h1 h2 => not_both h.two (z := (β : ℤ) - α + S) h1 h2
  by_cases p1 : (m : ℤ) ∣ β - α + S
  · have p2 : ¬ (m : ℤ) ∣ β - α + S - 1 := nb p1
    simp [p1, p2]
  · by_cases p2 : (m : ℤ) ∣ β - α + S - 1 <;> simp [p1, p2]

/-- the first loop arrives at the common vertex -/
theorem crossing_end {m : Nat} {A B : ℂ} {S : ℤ} {θ : ℝ} (h : Rays m A B S θ) (α β : Nat) :
    crossing ⟨zeta m ^ α * A, zeta m ^ (α + 1) * A⟩ ⟨zeta m ^ (β + 1) * B, zeta m ^ β * B⟩ = - localNumber m α β S := by
  have h1 := left_end h α β
  have h2 := left_end h α (β + 1)
  have c : ∀ s : Nat, zeta m ^ (s + 1) = zeta m ^ ((s : ℤ) + 1) := fun s => by exact_mod_cast (zpow_natCast (zeta m) (s + 1)).symm
  have c' : ∀ s : Nat, zeta m ^ s = zeta m ^ (s : ℤ) := fun s => (zpow_natCast (zeta m) s).symm
  unfold crossing
  simp only
  rw [c, c, c', c', h1, h2]
  have i1 : (m : ℤ) ∣ (β : ℤ) + 1 + S - α - 1 ↔ (m : ℤ) ∣ β - α + S := by
    constructor <;> (intro h; convert h using 1; ring)
  have i2 : (m : ℤ) ∣ (β : ℤ) + S - α - 1 ↔ (m : ℤ) ∣ β - α + S - 1 := by
    constructor <;> (intro h; convert h using 1; ring)
  have i3 : (m : ℤ) ∣ (β : ℤ) - α - (1 - S) ↔ (m : ℤ) ∣ β - α + S - 1 := by
    constructor <;> (intro h; convert h using 1; ring)
  have i4 : (m : ℤ) ∣ (β : ℤ) - α - -S ↔ (m : ℤ) ∣ β - α + S := by
    constructor <;> (intro h; convert h using 1; ring)
  unfold localNumber pm
  simp only [i1, i2, i3, i4]
  have nb := fun h1 h2 => not_both h.two (z := (β : ℤ) - α + S) h1 h2
  by_cases p1 : (m : ℤ) ∣ β - α + S
  · have p2 : ¬ (m : ℤ) ∣ β - α + S - 1 := nb p1
    simp [p1, p2]
  · by_cases p2 : (m : ℤ) ∣ β - α + S - 1 <;> simp [p1, p2]

theorem dvd_small {m : Nat} {z : ℤ} (h1 : -(m : ℤ) < z) (h2 : z < m) : (m : ℤ) ∣ z ↔ z = 0 := by
  constructor
  · rintro ⟨k, rfl⟩
    have hm : (0 : ℤ) < m := by omega
    have h3 : k < 1 := by by_contra h; nlinarith
    have h4 : -1 < k := by by_contra h; nlinarith
    have : k = 0 := by omega
    simp [this]
  · rintro rfl; exact dvd_zero _

/-- the two lifts of one edge -/
theorem crossing_self {m : Nat} (hm : 2 ≤ m) {A B : ℂ} (hA : A ≠ 0) (hB : B ≠ 0) {α β : Nat} (hα : α < m - 1) (hβ : β < m - 1) :
    crossing ⟨zeta m ^ (α + 1) * A, zeta m ^ α * A⟩ ⟨zeta m ^ (β + 1) * A, zeta m ^ β * A⟩ +
      crossing ⟨zeta m ^ α * B, zeta m ^ (α + 1) * B⟩ ⟨zeta m ^ β * B, zeta m ^ (β + 1) * B⟩ = selfNumber α β := by
  have h1 := self_start hm hA α β
  have h2 := self_start hm hA α (β + 1)
  have h3 := self_end hm hB α β
  have h4 := self_end hm hB α (β + 1)
  have c : ∀ s : Nat, zeta m ^ (s + 1) = zeta m ^ ((s : ℤ) + 1) := fun s => by exact_mod_cast (zpow_natCast (zeta m) (s + 1)).symm
  have c' : ∀ s : Nat, zeta m ^ s = zeta m ^ (s : ℤ) := fun s => (zpow_natCast (zeta m) s).symm
  unfold crossing
  simp only
  rw [c, c, c', c', h1, h2, h3, h4]
  have d1 := dvd_small (m := m) (z := (β : ℤ) - α) (by omega) (by omega)
  have d2 := dvd_small (m := m) (z := (β : ℤ) - α - 1) (by omega) (by omega)
  have d3 := dvd_small (m := m) (z := (β : ℤ) + 1 - α) (by omega) (by omega)
  have d4 : (m : ℤ) ∣ (β : ℤ) + 1 - α - 1 ↔ (β : ℤ) - α = 0 := by
    rw [← d1]; constructor <;> (intro h; convert h using 1; ring)
  simp only [d1, d2, d3, d4]
  unfold selfNumber
  by_cases e1 : (β : ℤ) = α
  · have : ¬ (β : ℤ) = α + 1 := by omega
    have : ¬ (α : ℤ) = β + 1 := by omega
    have f1 : (β : ℤ) - α = 0 := by omega
    simp [*]
  · by_cases e2 : (β : ℤ) = α + 1
    · have f1 : ¬ (β : ℤ) - α = 0 := by omega
      have f2 : (β : ℤ) - α - 1 = 0 := by omega
      have f3 : ¬ (β : ℤ) + 1 - α = 0 := by omega
      rw [if_pos e2, if_pos (Or.inr f2), if_neg (by tauto), if_neg (by tauto), if_pos (Or.inr f2)]
      norm_num
    · by_cases e3 : (α : ℤ) = β + 1
      · have f1 : ¬ (β : ℤ) - α = 0 := by omega
        have f2 : ¬ (β : ℤ) - α - 1 = 0 := by omega
        have f3 : (β : ℤ) + 1 - α = 0 := by omega
        rw [if_neg e2, if_pos e3, if_neg (by tauto), if_pos (Or.inl f3), if_pos (Or.inl f3), if_neg (by tauto)]
        norm_num
      · have f1 : ¬ (β : ℤ) - α = 0 := by omega
        have f2 : ¬ (β : ℤ) - α - 1 = 0 := by omega
        have f3 : ¬ (β : ℤ) + 1 - α = 0 := by omega
        simp [e2, e3, f1, f2, f3]

theorem pathNumber_eq (m : Nat) (a b a' b' : Nat) (ca cb ca' cb' : ℂ) (s s' : Nat) :
    pathNumber (passages m a b ca cb s) (passages m a' b' ca' cb' s') =
      (if a = a' then crossing ⟨zeta m ^ (s + 1) * ca, zeta m ^ s * ca⟩ ⟨zeta m ^ (s' + 1) * ca', zeta m ^ s' * ca'⟩ else 0) +
      (if a = b' then crossing ⟨zeta m ^ (s + 1) * ca, zeta m ^ s * ca⟩ ⟨zeta m ^ s' * cb', zeta m ^ (s' + 1) * cb'⟩ else 0) +
      ((if b = a' then crossing ⟨zeta m ^ s * cb, zeta m ^ (s + 1) * cb⟩ ⟨zeta m ^ (s' + 1) * ca', zeta m ^ s' * ca'⟩ else 0) +
      (if b = b' then crossing ⟨zeta m ^ s * cb, zeta m ^ (s + 1) * cb⟩ ⟨zeta m ^ s' * cb', zeta m ^ (s' + 1) * cb'⟩ else 0)) := by
  simp [pathNumber, passages]

/-- the entries of the matrix are the intersection numbers of the loops -/
theorem PlainTree.number {m N : Nat} (hm : 2 ≤ m) {a b : Nat → Nat} {d Ya Yb : Nat → ℂ} {c : IMat} (h : PlainTree m N a b d Ya Yb c)
    {k l α β : Nat} (hk : k < N) (hl : l < N) (hα : α < m - 1) (hβ : β < m - 1) :
    ((c (k * (m - 1) + α) (l * (m - 1) + β) : ℤ) : ℚ) =
      pathNumber (passages m (a k) (b k) (Ya k) (Yb k) α) (passages m (a l) (b l) (Ya l) (Yb l) β) := by
  have hab : ∀ k l, k ≤ l → l < N → a k ≠ b l := by
    intro k l hkl hl e
    rcases h.start k (by omega) with g | ⟨j, hj, g⟩
    · exact (h.new l hl).1 (e.symm.trans g)
    · exact (h.new l hl).2 j (by omega) (e.symm.trans g)
  have hbb : ∀ k l, k < l → l < N → b k ≠ b l := fun k l hkl hl e => (h.new l hl).2 k hkl e.symm
  have idx : ∀ {q γ : Nat}, q < N → γ < m - 1 → q * (m - 1) + γ < N * (m - 1) := by
    intro q γ hq hγ
    have : (q + 1) * (m - 1) ≤ N * (m - 1) := Nat.mul_le_mul_right _ hq
    rw [Nat.add_mul, Nat.one_mul] at this
    omega
  rw [pathNumber_eq]
  rcases lt_trichotomy k l with hkl | hkl | hkl
  · rw [if_neg (hab k l hkl.le hl), if_neg (hbb k l hkl hl), add_zero, add_zero]
    by_cases e1 : a l = a k
    · obtain ⟨S, g1, g2⟩ := h.h1 k l hkl hl e1
      obtain ⟨θ, hr⟩ := rays_of_gap hm (h.hd k hk) (h.hd l hl) (h.hYa k hk) (h.hYa l hl) g1
      rw [if_pos e1.symm, if_neg (fun e => hab k k le_rfl hk (e1.symm.trans e.symm)), add_zero, crossing_start hr, g2 α hα β hβ]
    · rw [if_neg (Ne.symm e1), zero_add]
      by_cases e2 : a l = b k
      · obtain ⟨S, g1, g2⟩ := h.h2 k l hkl hl e2
        obtain ⟨θ, hr⟩ := rays_of_gap hm (neg_ne_zero.2 (h.hd k hk)) (h.hd l hl) (h.hYb k hk) (h.hYa l hl) g1
        rw [if_pos e2.symm, crossing_end hr, g2 α hα β hβ]
        push_cast; rfl
      · rw [if_neg (Ne.symm e2), h.h3 k l hkl hl e1 e2 α hα β hβ]
        simp
  · subst hkl
    rw [if_pos rfl, if_pos rfl, if_neg (hab k k le_rfl hk), if_neg (hab k k le_rfl hk).symm, add_zero, zero_add, crossing_self hm (h.hYa k hk) (h.hYb k hk) hα hβ, h.self k hk α hα β hβ]
  · rw [h.anti _ _ (idx hk hα) (idx hl hβ)]
    rw [if_neg (hab l k hkl.le hk).symm, if_neg (hbb l k hkl hk).symm, add_zero, add_zero]
    by_cases e1 : a k = a l
    · obtain ⟨S, g1, g2⟩ := h.h1 l k hkl hk e1
      obtain ⟨θ, hr⟩ := rays_of_gap hm (h.hd l hl) (h.hd k hk) (h.hYa l hl) (h.hYa k hk) g1
      rw [if_pos e1, if_neg (fun e => hab l l le_rfl hl (e1.symm.trans e)), add_zero, crossing_start hr.symm, g2 β hβ α hα, local_swap hm]
    · rw [if_neg e1, zero_add]
      by_cases e2 : a k = b l
      · obtain ⟨S, g1, g2⟩ := h.h2 l k hkl hk e2
        obtain ⟨θ, hr⟩ := rays_of_gap hm (neg_ne_zero.2 (h.hd l hl)) (h.hd k hk) (h.hYb l hl) (h.hYa k hk) g1
        have := crossing_rev ⟨zeta m ^ (α + 1) * Ya k, zeta m ^ α * Ya k⟩ ⟨zeta m ^ (β + 1) * Yb l, zeta m ^ β * Yb l⟩
        simp only at this
        rw [if_pos e2, this, crossing_start hr.symm, g2 β hβ α hα, local_swap hm]
        push_cast; ring
      · rw [if_neg e2, h.h3 l k hkl hk e1 e2 β hβ α hα]
        simp

end Hcp
