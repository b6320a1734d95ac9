import Verif.Spec.Riemann
import Verif.Spec.Sheet
import Verif.Props.Riemann

/-!
# The relations of Riemann for a chain of loops, any number of sheets
-/

namespace Hcp.Super
open Complex Spec Finset

/-- `1` if `u = 1` modulo `m`, `-1` if `u = 0` -/
def step (m : Nat) (u : ℤ) : ℤ := (if (m : ℤ) ∣ u - 1 then 1 else 0) - (if (m : ℤ) ∣ u then 1 else 0)

theorem sum_pairs {S : Type} [AddCommMonoid S] {N m1 : Nat} (f : Nat → Nat → S) : ∑ a : Fin (N * m1), f (a.val / m1) (a.val % m1) = ∑ k : Fin N, ∑ α ∈ range m1, f k α := by
  rw [← finProdFinEquiv.sum_comp, Fintype.sum_prod_type]
  refine Finset.sum_congr rfl fun k _ => ?_
  rw [Finset.sum_range]
  refine Finset.sum_congr rfl fun α _ => ?_
  have h := finProdFinEquiv.symm_apply_apply (k, α)
  have h1 : (finProdFinEquiv (k, α)).val / m1 = k := congrArg (fun x => x.1.val) h
  have h2 : (finProdFinEquiv (k, α)).val % m1 = α := congrArg (fun x => x.2.val) h
  rw [h1, h2]

section
variable {m : Nat} {z : ℂ}

theorem zpow_mod (hm : 0 < m) (hz : z ^ m = 1) {u v : ℤ} (h : (m : ℤ) ∣ u - v) : z ^ u = z ^ v := by
  have hz0 : z ≠ 0 := by rintro rfl; rw [zero_pow hm.ne'] at hz; exact zero_ne_one hz
  obtain ⟨k, hk⟩ := h
  rw [show u = v + m * k by omega, zpow_add₀ hz0, zpow_mul, zpow_natCast, hz, one_zpow, mul_one]

theorem pick (hm : 0 < m) {f : ℤ → ℂ} (hf : ∀ u v : ℤ, (m : ℤ) ∣ u - v → f u = f v) (c : ℤ) : ∑ α ∈ range m, (if (m : ℤ) ∣ c - α then f α else 0) = f c := by
  have hm' : (0 : ℤ) < m := by exact_mod_cast hm
  have h1 := Int.emod_nonneg c hm'.ne'
  have h2 := Int.emod_lt_of_pos c hm'
  have h3 : (m : ℤ) ∣ c - c % m := Int.dvd_self_sub_emod
  rw [Finset.sum_eq_single (c % m).toNat]
  · have e : (((c % m).toNat : ℕ) : ℤ) = c % m := Int.toNat_of_nonneg h1
    rw [e, if_pos h3]
    exact (hf _ _ h3).symm
  · intro b hb hne
    rw [if_neg]
    intro hd
    apply hne
    have hb' : (b : ℤ) < m := by exact_mod_cast mem_range.1 hb
    have h4 : (m : ℤ) ∣ (c - c % m) - (c - b) := dvd_sub h3 hd
    have h5 : c - c % m - (c - b) = b - c % m := by ring
    rw [h5] at h4
    have := Int.eq_zero_of_abs_lt_dvd h4 (by rw [abs_lt]; constructor <;> omega)
    omega
  · intro h
    exfalso
    apply h
    rw [mem_range]
    omega

/-- the vector `z^-α - z` against the numbers of two loops with a common vertex -/
theorem sum_step (hm : 2 ≤ m) (hz : z ^ m = 1) (β S : ℤ) : ∑ α ∈ range (m - 1), (z ^ (-(α : ℤ)) - z) * (step m (β - α + S) : ℂ) = z ^ (-β) * (z ^ (-S) * (z - 1)) := by
  have hm0 : 0 < m := by omega
  have hz0 : z ≠ 0 := by rintro rfl; rw [zero_pow hm0.ne'] at hz; exact zero_ne_one hz
  have hlast : z ^ (-((m - 1 : ℕ) : ℤ)) - z = 0 := by
    rw [zpow_mod hm0 hz (v := 1) ⟨-1, by push_cast [Nat.cast_sub (by omega : 1 ≤ m)]; ring⟩, zpow_one, sub_self]
  have e : ∑ α ∈ range (m - 1), (z ^ (-(α : ℤ)) - z) * (step m (β - α + S) : ℂ) = ∑ α ∈ range m, (z ^ (-(α : ℤ)) - z) * (step m (β - α + S) : ℂ) := by
    rw [show range m = range (m - 1 + 1) by rw [Nat.sub_add_cancel (by omega : 1 ≤ m)], sum_range_succ, hlast, zero_mul, add_zero]
  rw [e]
  have hf : ∀ u v : ℤ, (m : ℤ) ∣ u - v → z ^ (-u) - z = z ^ (-v) - z := by
    intro u v h
    rw [zpow_mod hm0 hz (u := -u) (v := -v)]
    obtain ⟨k, hk⟩ := h
    exact ⟨-k, by rw [mul_neg, ← hk]; ring⟩
  have h1 := pick hm0 (f := fun u => z ^ (-u) - z) hf (β + S - 1)
  have h2 := pick hm0 (f := fun u => z ^ (-u) - z) hf (β + S)
  have e2 : ∀ α ∈ range m, (z ^ (-(α : ℤ)) - z) * (step m (β - α + S) : ℂ) = (if (m : ℤ) ∣ β + S - 1 - α then z ^ (-(α : ℤ)) - z else 0) - (if (m : ℤ) ∣ β + S - α then z ^ (-(α : ℤ)) - z else 0) := by
    intro α _
    unfold step
    rw [show β - (α : ℤ) + S - 1 = β + S - 1 - α by ring, show β - (α : ℤ) + S = β + S - α by ring]
    push_cast
    rw [mul_sub, mul_ite, mul_ite, mul_one, mul_zero]
  rw [sum_congr rfl e2, sum_sub_distrib, h1, h2, show -(β + S - 1) = -β + -S + 1 by ring, show -(β + S) = -β + -S by ring, zpow_add₀ hz0, zpow_add₀ hz0, zpow_one]
  ring

/-- the numbers of the loops over the same edge -/
theorem self_step (hm : 2 ≤ m) {α β : Nat} (hα : α < m - 1) (hβ : β < m - 1) : selfNumber α β = step m ((β : ℤ) - α + 0) + step m ((β : ℤ) - α + 1) := by
  have key : ∀ u : ℤ, -(m : ℤ) < u → u < m → ((m : ℤ) ∣ u ↔ u = 0) := by
    intro u h1 h2
    constructor
    · intro h
      exact Int.eq_zero_of_abs_lt_dvd h (abs_lt.2 ⟨h1, h2⟩)
    · rintro rfl
      exact dvd_zero _
  unfold selfNumber step
  rw [show (β : ℤ) - α + 1 - 1 = (β : ℤ) - α by ring, add_zero]
  have k1 := key ((β : ℤ) - α - 1) (by omega) (by omega)
  have k2 := key ((β : ℤ) - α) (by omega) (by omega)
  have k3 := key ((β : ℤ) - α + 1) (by omega) (by omega)
  simp only [k1, k2, k3]
  split_ifs <;> omega

end

/-- sum over positions -/
theorem sum_pos {S : Type} [AddCommMonoid S] {N lo : Nat} {pos : Fin N → Nat} (hinj : Function.Injective pos) (hpos : ∀ k, lo < pos k ∧ pos k < lo + N + 1) (f : Nat → S) :
    ∑ k, f (pos k) = ∑ q ∈ Ioo lo (lo + N + 1), f q := by
  have himg : univ.image pos = Ioo lo (lo + N + 1) := by
    refine Finset.eq_of_subset_of_card_le ?_ ?_
    · intro q hq
      obtain ⟨k, -, rfl⟩ := mem_image.1 hq
      exact mem_Ioo.2 (hpos k)
    · rw [Finset.card_image_of_injective _ hinj, Nat.card_Ioo, Finset.card_univ, Fintype.card_fin]
      omega
  rw [← himg, Finset.sum_image fun a _ b _ h => hinj h]

/-- a sum with at most three terms -/
theorem sum_three {lo hi q : Nat} (h1 : lo < q) (h2 : q < hi) {A B C : ℂ} (w : Nat → ℂ) (hlo : w lo = 0) (hhi : w hi = 0) :
    ∑ p ∈ Ioo lo hi, (if p = q then w p * A else if q = p + 1 then w p * B else if p = q + 1 then w p * C else 0) = w q * A + w (q - 1) * B + w (q + 1) * C := by
  have e : ∀ p, (if p = q then w p * A else if q = p + 1 then w p * B else if p = q + 1 then w p * C else 0) = (if p = q then w p * A else 0) + (if p = q - 1 then w p * B else 0) + (if p = q + 1 then w p * C else 0) := by
    intro p
    split_ifs <;> first | omega | simp
  simp only [e, sum_add_distrib, Finset.sum_ite_eq', mem_Ioo]
  rw [if_pos ⟨h1, h2⟩]
  congr 1
  · congr 1
    split_ifs with h
    · rfl
    · rw [show q - 1 = lo by omega, hlo, zero_mul]
  · split_ifs with h
    · rfl
    · rw [show q + 1 = hi by omega, hhi, zero_mul]

/-- telescoping: the form is symmetric -/
theorem form_symm {lo hi : Nat} (hlh : lo < hi) {c s : ℝ} (hs : s ≠ 0) {r r' T T' : Nat → ℝ} (hT : ∀ q, lo < q → q < hi → T (q + 1) + T (q - 1) - 2 * c * T q = s * r q) (hT' : ∀ q, lo < q → q < hi → T' (q + 1) + T' (q - 1) - 2 * c * T' q = s * r' q)
    (h0 : T lo = 0) (h0' : T' lo = 0) (h1 : T hi = 0) (h1' : T' hi = 0) : ∑ q ∈ Ioo lo hi, r q * T' q = ∑ q ∈ Ioo lo hi, r' q * T q := by
  have key : ∀ k, lo + k + 1 ≤ hi → ∑ q ∈ Ioo lo (lo + k + 1), s * (r q * T' q - r' q * T q) = T (lo + k + 1) * T' (lo + k) - T (lo + k) * T' (lo + k + 1) := by
    intro k
    induction k with
    | zero =>
      intro _
      rw [show Ioo lo (lo + 0 + 1) = ∅ by ext q; simp only [mem_Ioo]; simp, sum_empty, add_zero, h0, h0']
      ring
    | succ k ih =>
      intro hk
      have hI : Ioo lo (lo + (k + 1) + 1) = insert (lo + k + 1) (Ioo lo (lo + k + 1)) := by ext q; simp only [mem_Ioo, mem_insert]; omega
      rw [hI, sum_insert (by simp), ih (by omega)]
      have a1 := hT (lo + k + 1) (by omega) (by omega)
      have a2 := hT' (lo + k + 1) (by omega) (by omega)
      rw [Nat.add_sub_cancel] at a1 a2
      rw [show lo + (k + 1) = lo + k + 1 by ring]
      linear_combination -T' (lo + k + 1) * a1 + T (lo + k + 1) * a2
  have h := key (hi - lo - 1) (by omega)
  rw [show lo + (hi - lo - 1) + 1 = hi by omega, h1, h1', zero_mul, mul_zero, sub_zero, ← mul_sum, sum_sub_distrib] at h
  have := (mul_eq_zero.1 h).resolve_left hs
  linarith

/-- The data of a chain of edges: positions, orientations and sheets of the edges; exponents of the differentials, their integrals between neighbours and their dual vectors. -/
structure ChainData (m n N g lo : Nat) (K : Matrix (Fin (N * (m - 1))) (Fin (N * (m - 1))) ℤ) (W : Matrix (Fin g) (Fin (N * (m - 1))) ℂ) where
  pos : Nat → Nat
  ε : Nat → ℤ
  t : Nat → ℤ
  j : Fin g → Nat
  r : Fin g → Nat → ℝ
  T : Fin g → Nat → ℝ
  inj : ∀ k l, k < N → l < N → pos k = pos l → k = l
  range : ∀ k < N, lo < pos k ∧ pos k < lo + N + 1
  sign : ∀ k < N, ε k * ε k = 1
  hj : ∀ i, 0 < j i ∧ j i < m
  hK : ∀ a b : Fin (N * (m - 1)), K a b =
    if pos (a / (m - 1)) = pos (b / (m - 1)) then step m (((b.val % (m - 1) : ℕ) : ℤ) - ((a.val % (m - 1) : ℕ) : ℤ) + 0) + step m (((b.val % (m - 1) : ℕ) : ℤ) - ((a.val % (m - 1) : ℕ) : ℤ) + 1)
    else if pos (b / (m - 1)) = pos (a / (m - 1)) + 1 then -(ε (a / (m - 1)) * ε (b / (m - 1))) * step m (((b.val % (m - 1) : ℕ) : ℤ) - ((a.val % (m - 1) : ℕ) : ℤ) + (t (b / (m - 1)) - t (a / (m - 1))))
    else if pos (a / (m - 1)) = pos (b / (m - 1)) + 1 then -(ε (a / (m - 1)) * ε (b / (m - 1))) * step m (((b.val % (m - 1) : ℕ) : ℤ) - ((a.val % (m - 1) : ℕ) : ℤ) + (t (b / (m - 1)) - t (a / (m - 1)) + 1))
    else 0
  hW : ∀ i (a : Fin (N * (m - 1))), W i a = (1 - (zeta m ^ j i)⁻¹) * ε (a / (m - 1)) * exp (((Real.pi * j i / m : ℝ) : ℂ) * I) ^ ((pos (a / (m - 1)) : ℤ) - n) * (zeta m ^ j i) ^ (-t (a / (m - 1))) * r i (pos (a / (m - 1))) * (zeta m ^ j i) ^ (-((a.val % (m - 1) : ℕ) : ℤ))
  hlo : ∀ i, T i lo = 0
  hhi : ∀ i, T i (lo + N + 1) = 0
  hT : ∀ i q, lo < q → q < lo + N + 1 → T i (q + 1) + T i (q - 1) - 2 * Real.cos (Real.pi * j i / m) * T i q = Real.sin (Real.pi * j i / m) * r i q
  two : ∀ i i', j i + j i' = m → ∑ q ∈ Ioo lo (lo + N + 1), (-1) ^ q * r i q * T i' q = 0
  pos' : ∀ (J : Nat) (a : Fin g → ℝ), (∀ i, j i ≠ J → a i = 0) → a ≠ 0 → 0 < ∑ q ∈ Ioo lo (lo + N + 1), (∑ i, a i * r i q) * ∑ i, a i * T i q

section
variable {m n N g lo : Nat} {K : Matrix (Fin (N * (m - 1))) (Fin (N * (m - 1))) ℤ} {W : Matrix (Fin g) (Fin (N * (m - 1))) ℂ}

/-- angle of a differential -/
noncomputable def ChainData.e (d : ChainData m n N g lo K W) (i : Fin g) : ℂ := exp (((Real.pi * d.j i / m : ℝ) : ℂ) * I)
noncomputable def ChainData.z (d : ChainData m n N g lo K W) (i : Fin g) : ℂ := zeta m ^ d.j i

theorem ChainData.e_ne (d : ChainData m n N g lo K W) (i : Fin g) : d.e i ≠ 0 := exp_ne_zero _

theorem ChainData.z_eq (d : ChainData m n N g lo K W) (i : Fin g) : d.z i = d.e i ^ 2 := by
  unfold ChainData.z ChainData.e zeta
  rw [← exp_nat_mul, ← exp_nat_mul]
  congr 1
  push_cast
  ring

theorem ChainData.e_inv (d : ChainData m n N g lo K W) (i : Fin g) : (d.e i)⁻¹ = (starRingEnd ℂ) (d.e i) :=
  Complex.inv_eq_conj (norm_exp_ofReal_mul_I _)

theorem ChainData.e_cos (d : ChainData m n N g lo K W) (i : Fin g) : d.e i + (d.e i)⁻¹ = 2 * (Real.cos (Real.pi * d.j i / m) : ℂ) := by
  rw [d.e_inv, add_conj]
  unfold ChainData.e
  rw [exp_ofReal_mul_I_re]
  push_cast
  ring

theorem ChainData.e_sin (d : ChainData m n N g lo K W) (i : Fin g) : d.e i - (d.e i)⁻¹ = 2 * I * (Real.sin (Real.pi * d.j i / m) : ℂ) := by
  rw [d.e_inv, sub_conj]
  unfold ChainData.e
  rw [exp_ofReal_mul_I_im]
  push_cast
  ring

theorem ChainData.sin_pos (d : ChainData m n N g lo K W) (i : Fin g) : 0 < Real.sin (Real.pi * d.j i / m) := by
  obtain ⟨h1, h2⟩ := d.hj i
  have hm : (0 : ℝ) < m := by exact_mod_cast (by omega : 0 < m)
  have h1' : (0 : ℝ) < d.j i := by exact_mod_cast h1
  have h2' : (d.j i : ℝ) < m := by exact_mod_cast h2
  have hpi := Real.pi_pos
  refine Real.sin_pos_of_pos_of_lt_pi (by positivity) ?_
  rw [div_lt_iff₀ hm]
  nlinarith

theorem ChainData.z_pow (d : ChainData m n N g lo K W) (hm : 2 ≤ m) (i : Fin g) : d.z i ^ m = 1 := by
  have hzm : zeta m ^ m = 1 := (Complex.isPrimitiveRoot_exp m (by omega)).pow_eq_one
  unfold ChainData.z
  rw [← pow_mul, mul_comm, pow_mul, hzm, one_pow]

theorem ChainData.z_ne_one (d : ChainData m n N g lo K W) (i : Fin g) : d.z i ≠ 1 := by
  obtain ⟨h1, h2⟩ := d.hj i
  have hp : IsPrimitiveRoot (zeta m) m := Complex.isPrimitiveRoot_exp m (by omega)
  intro h
  have := hp.dvd_of_pow_eq_one _ h
  exact absurd (Nat.le_of_dvd h1 this) (by omega)

theorem ChainData.z_prod (d : ChainData m n N g lo K W) (i i' : Fin g) : d.z i * d.z i' = 1 ↔ d.j i + d.j i' = m := by
  obtain ⟨h1, h2⟩ := d.hj i
  obtain ⟨h3, h4⟩ := d.hj i'
  have hp : IsPrimitiveRoot (zeta m) m := Complex.isPrimitiveRoot_exp m (by omega)
  unfold ChainData.z
  rw [← pow_add, hp.pow_eq_one_iff_dvd]
  constructor
  · rintro ⟨k, hk⟩
    have k1 : 0 < k := by by_contra h; obtain rfl : k = 0 := by omega
                          omega
    have k2 : k < 2 := by
      by_contra h
      have : m * 2 ≤ m * k := Nat.mul_le_mul_left _ (by omega)
      omega
    obtain rfl : k = 1 := by omega
    omega
  · intro h
    rw [h]

theorem ChainData.z_inj (d : ChainData m n N g lo K W) (i i' : Fin g) : d.z i * (starRingEnd ℂ) (d.z i') = 1 ↔ d.j i = d.j i' := by
  obtain ⟨h1, h2⟩ := d.hj i
  obtain ⟨h3, h4⟩ := d.hj i'
  have hp : IsPrimitiveRoot (zeta m) m := Complex.isPrimitiveRoot_exp m (by omega)
  have hc : (starRingEnd ℂ) (d.z i') = (d.z i')⁻¹ := by rw [d.z_eq, map_pow, ← d.e_inv, inv_pow]
  have h0 : d.z i' ≠ 0 := by rw [d.z_eq]; exact pow_ne_zero _ (d.e_ne _)
  rw [hc, ← div_eq_mul_inv, div_eq_one_iff_eq h0]
  constructor
  · exact hp.pow_inj h2 h4
  · intro h
    unfold ChainData.z
    rw [h]

/-- the dual vectors: value at a position -/
noncomputable def ChainData.w (d : ChainData m n N g lo K W) (i : Fin g) (q : Nat) : ℂ := -((d.e i)⁻¹ / (Real.sin (Real.pi * d.j i / m) : ℂ)) * d.e i ^ ((q : ℤ) - n) * d.T i q
noncomputable def ChainData.u (d : ChainData m n N g lo K W) (i : Fin g) (k : Nat) : ℂ := d.ε k * d.z i ^ (-d.t k) * d.w i (d.pos k)
noncomputable def ChainData.W0 (d : ChainData m n N g lo K W) (i : Fin g) (k : Nat) : ℂ := (1 - (d.z i)⁻¹) * d.ε k * d.e i ^ ((d.pos k : ℤ) - n) * d.z i ^ (-d.t k) * d.r i (d.pos k)
noncomputable def ChainData.V (d : ChainData m n N g lo K W) : Matrix (Fin g) (Fin (N * (m - 1))) ℂ := Matrix.of fun i a => d.u i (a.val / (m - 1)) * (d.z i ^ (-((a.val % (m - 1) : ℕ) : ℤ)) - d.z i)

theorem ChainData.w_rec (d : ChainData m n N g lo K W) (i : Fin g) {q : Nat} (h1 : lo < q) (h2 : q < lo + N + 1) :
    d.w i q * (d.z i - (d.z i)⁻¹) + d.w i (q - 1) * -(d.z i - 1) + d.w i (q + 1) * -(1 - (d.z i)⁻¹) = (1 - (d.z i)⁻¹) * d.e i ^ ((q : ℤ) - n) * d.r i q := by
  have he := d.e_ne i
  have hs : (Real.sin (Real.pi * d.j i / m) : ℂ) ≠ 0 := ofReal_ne_zero.2 (d.sin_pos i).ne'
  have hT := d.hT i q h1 h2
  have hT' : (d.T i (q + 1) : ℂ) + d.T i (q - 1) - (d.e i + (d.e i)⁻¹) * d.T i q = (Real.sin (Real.pi * d.j i / m) : ℂ) * d.r i q := by
    rw [d.e_cos]
    exact_mod_cast hT
  have e1 : d.e i ^ (((q - 1 : ℕ) : ℤ) - n) = d.e i ^ ((q : ℤ) - n) * (d.e i)⁻¹ := by
    rw [← zpow_neg_one, ← zpow_add₀ he]
    congr 1
    omega
  have e2 : d.e i ^ (((q + 1 : ℕ) : ℤ) - n) = d.e i ^ ((q : ℤ) - n) * d.e i := by
    rw [← zpow_add_one₀ he]
    congr 1
    push_cast
    ring
  unfold ChainData.w
  rw [e1, e2, d.z_eq]
  set s := (Real.sin (Real.pi * d.j i / m) : ℂ) with hsd
  set P := d.e i ^ ((q : ℤ) - n) with hP
  have hr : (d.r i q : ℂ) = ((d.T i (q + 1) : ℂ) + d.T i (q - 1) - (d.e i + (d.e i)⁻¹) * d.T i q) / s := by rw [hT']; field_simp
  rw [hr]
  field_simp
  ring

theorem ChainData.dual (d : ChainData m n N g lo K W) (hm : 2 ≤ m) (i : Fin g) (b : Fin (N * (m - 1))) : ∑ a, d.V i a * K a b = W i b := by
  have hm1 : 0 < m - 1 := by omega
  have hbN : b.val / (m - 1) < N := Nat.div_lt_of_lt_mul (lt_of_lt_of_eq b.isLt (Nat.mul_comm _ _))
  set l := b.val / (m - 1) with hl
  set β := b.val % (m - 1) with hβ
  have hz := d.z_pow hm i
  have hz0 : d.z i ≠ 0 := by rw [d.z_eq]; exact pow_ne_zero _ (d.e_ne _)
  -- the sum over the sheets of one edge
  let F : Nat → Nat → ℂ := fun k α => d.u i k * (d.z i ^ (-(α : ℤ)) - d.z i) * ((
    if d.pos k = d.pos l then step m ((β : ℤ) - (α : ℤ) + 0) + step m ((β : ℤ) - (α : ℤ) + 1)
    else if d.pos l = d.pos k + 1 then -(d.ε k * d.ε l) * step m ((β : ℤ) - (α : ℤ) + (d.t l - d.t k))
    else if d.pos k = d.pos l + 1 then -(d.ε k * d.ε l) * step m ((β : ℤ) - (α : ℤ) + (d.t l - d.t k + 1))
    else 0 : ℤ) : ℂ)
  have e1 : ∑ a, d.V i a * K a b = ∑ a : Fin (N * (m - 1)), F (a.val / (m - 1)) (a.val % (m - 1)) := by
    refine sum_congr rfl fun a _ => ?_
    rw [d.hK]
    rfl
  rw [e1, sum_pairs F]
  have e2 : ∀ k : Fin N, ∑ α ∈ Finset.range (m - 1), F k α = d.z i ^ (-(β : ℤ)) * (d.ε l * d.z i ^ (-d.t l)) *
      (if d.pos k = d.pos l then d.w i (d.pos k) * (d.z i - (d.z i)⁻¹) else if d.pos l = d.pos k + 1 then d.w i (d.pos k) * -(d.z i - 1) else if d.pos k = d.pos l + 1 then d.w i (d.pos k) * -(1 - (d.z i)⁻¹) else 0) := by
    intro k
    have hsg : (d.ε k : ℂ) * d.ε k = 1 := by exact_mod_cast d.sign k k.isLt
    have hS := sum_step hm hz (β : ℤ)
    simp only [F]
    by_cases c1 : d.pos k = d.pos l
    · have hkl := d.inj k l k.isLt hbN c1
      simp only [if_pos c1]
      push_cast
      simp only [mul_add, sum_add_distrib, mul_assoc (d.u i k)]
      rw [← mul_sum, ← mul_sum, hS 0, hS 1, ChainData.u, hkl]
      rw [neg_zero, zpow_zero, zpow_neg_one]
      field_simp
      ring
    · by_cases c2 : d.pos l = d.pos k + 1
      · simp only [if_neg c1, if_pos c2]
        push_cast
        have : ∀ α : ℕ, d.u i k * (d.z i ^ (-(α : ℤ)) - d.z i) * (-((d.ε k : ℂ) * d.ε l) * (step m ((β : ℤ) - α + (d.t l - d.t k)) : ℂ)) = -(d.u i k * (d.ε k * d.ε l)) * ((d.z i ^ (-(α : ℤ)) - d.z i) * (step m ((β : ℤ) - α + (d.t l - d.t k)) : ℂ)) := fun α => by ring
        simp only [this]
        rw [← mul_sum, hS, ChainData.u, show -(d.t l - d.t k) = -d.t l + d.t k by ring, zpow_add₀ hz0]
        have hk : d.z i ^ (-d.t k) * d.z i ^ d.t k = 1 := by rw [← zpow_add₀ hz0, neg_add_cancel, zpow_zero]
        linear_combination (-(d.ε l : ℂ) * d.w i (d.pos k) * d.z i ^ (-(β : ℤ)) * d.z i ^ (-d.t l) * (d.z i - 1) * (d.z i ^ (-d.t k) * d.z i ^ d.t k)) * hsg + (-(d.ε l : ℂ) * d.w i (d.pos k) * d.z i ^ (-(β : ℤ)) * d.z i ^ (-d.t l) * (d.z i - 1)) * hk
      · by_cases c3 : d.pos k = d.pos l + 1
        · simp only [if_neg c1, if_neg c2, if_pos c3]
          push_cast
          have : ∀ α : ℕ, d.u i k * (d.z i ^ (-(α : ℤ)) - d.z i) * (-((d.ε k : ℂ) * d.ε l) * (step m ((β : ℤ) - α + (d.t l - d.t k + 1)) : ℂ)) = -(d.u i k * (d.ε k * d.ε l)) * ((d.z i ^ (-(α : ℤ)) - d.z i) * (step m ((β : ℤ) - α + (d.t l - d.t k + 1)) : ℂ)) := fun α => by ring
          simp only [this]
          rw [← mul_sum, hS, ChainData.u, show -(d.t l - d.t k + 1) = -d.t l + d.t k + -1 by ring, zpow_add₀ hz0, zpow_add₀ hz0, zpow_neg_one]
          have hk : d.z i ^ (-d.t k) * d.z i ^ d.t k = 1 := by rw [← zpow_add₀ hz0, neg_add_cancel, zpow_zero]
          have hzi : (d.z i)⁻¹ * (d.z i - 1) = 1 - (d.z i)⁻¹ := by rw [mul_sub, inv_mul_cancel₀ hz0, mul_one]
          linear_combination (-(d.ε l : ℂ) * d.w i (d.pos k) * d.z i ^ (-(β : ℤ)) * d.z i ^ (-d.t l) * ((d.z i)⁻¹ * (d.z i - 1)) * (d.z i ^ (-d.t k) * d.z i ^ d.t k)) * hsg + (-(d.ε l : ℂ) * d.w i (d.pos k) * d.z i ^ (-(β : ℤ)) * d.z i ^ (-d.t l) * ((d.z i)⁻¹ * (d.z i - 1))) * hk - (d.ε l : ℂ) * d.w i (d.pos k) * d.z i ^ (-(β : ℤ)) * d.z i ^ (-d.t l) * hzi
        · simp only [if_neg c1, if_neg c2, if_neg c3, Int.cast_zero, mul_zero, sum_const_zero]
  rw [sum_congr rfl fun k _ => e2 k, ← mul_sum]
  have hinj : Function.Injective fun k : Fin N => d.pos k := fun k l' h => Fin.ext (d.inj k l' k.isLt l'.isLt h)
  rw [sum_pos (pos := fun k : Fin N => d.pos k) hinj (fun k => d.range k k.isLt) (fun p => if p = d.pos l then d.w i p * (d.z i - (d.z i)⁻¹) else if d.pos l = p + 1 then d.w i p * -(d.z i - 1) else if p = d.pos l + 1 then d.w i p * -(1 - (d.z i)⁻¹) else 0)]
  obtain ⟨r1, r2⟩ := d.range l hbN
  rw [sum_three r1 r2 _ (by unfold ChainData.w; rw [d.hlo]; simp) (by unfold ChainData.w; rw [d.hhi]; simp), d.w_rec i r1 r2, d.hW i b]
  show _ = (1 - (d.z i)⁻¹) * (d.ε l : ℂ) * d.e i ^ ((d.pos l : ℤ) - n) * d.z i ^ (-d.t l) * d.r i (d.pos l) * d.z i ^ (-(β : ℤ))
  ring

theorem ChainData.W_eq (d : ChainData m n N g lo K W) (i : Fin g) (a : Fin (N * (m - 1))) : W i a = d.W0 i (a.val / (m - 1)) * d.z i ^ (-((a.val % (m - 1) : ℕ) : ℤ)) := d.hW i a

/-- the form of two dual vectors, the second one multiplied by a character -/
theorem ChainData.pairing (d : ChainData m n N g lo K W) (hm : 2 ≤ m) (i : Fin g) (x : Nat → ℂ) {y : ℂ} (hy : y ^ m = 1) :
    ∑ b : Fin (N * (m - 1)), W i b * (x (b.val / (m - 1)) * (y ^ (-((b.val % (m - 1) : ℕ) : ℤ)) - y)) = (if d.z i * y = 1 then (m : ℂ) else 0) * ∑ k : Fin N, d.W0 i k * x k := by
  simp only [d.W_eq]
  rw [sum_pairs (fun k α => d.W0 i k * d.z i ^ (-(α : ℤ)) * (x k * (y ^ (-(α : ℤ)) - y))), mul_sum]
  refine sum_congr rfl fun k _ => ?_
  rw [← sum_chars (by omega) (d.z_pow hm i) hy (d.z_ne_one i), sum_mul]
  refine sum_congr rfl fun α _ => ?_
  rw [zpow_neg, zpow_neg, zpow_natCast, zpow_natCast]
  ring

theorem ChainData.sum_k (d : ChainData m n N g lo K W) {S : Type} [AddCommMonoid S] (f : Nat → S) : ∑ k : Fin N, f (d.pos k) = ∑ q ∈ Ioo lo (lo + N + 1), f q :=
  sum_pos (pos := fun k : Fin N => d.pos k) (fun k l h => Fin.ext (d.inj k l k.isLt l.isLt h)) (fun k => d.range k k.isLt) f

theorem ChainData.isotropic (d : ChainData m n N g lo K W) (hm : 2 ≤ m) (i i' : Fin g) : ∑ a, ∑ b, d.V i a * K a b * d.V i' b = 0 := by
  rw [sum_comm]
  simp only [← sum_mul, d.dual hm]
  refine (d.pairing hm i (d.u i') (d.z_pow hm i')).trans ?_
  by_cases h : d.z i * d.z i' = 1
  · rw [if_pos h]
    have hjj := (d.z_prod i i').1 h
    have hz0 : d.z i ≠ 0 := by rw [d.z_eq]; exact pow_ne_zero _ (d.e_ne _)
    have hee : d.e i * d.e i' = -1 := by
      unfold ChainData.e
      rw [← exp_add, ← exp_pi_mul_I]
      congr 1
      have hm0 : (m : ℂ) ≠ 0 := by exact_mod_cast (by omega : m ≠ 0)
      have : ((d.j i : ℂ) + d.j i') = m := by exact_mod_cast hjj
      push_cast
      field_simp
      exact this
    have e : ∀ k : Fin N, d.W0 i k * d.u i' k = (1 - (d.z i)⁻¹) * -((d.e i')⁻¹ / (Real.sin (Real.pi * d.j i' / m) : ℂ)) * (-1) ^ n * (((-1) ^ d.pos k * d.r i (d.pos k) * d.T i' (d.pos k) : ℝ) : ℂ) := by
      intro k
      have hsg : (d.ε k : ℂ) * d.ε k = 1 := by exact_mod_cast d.sign k k.isLt
      have h1 : d.e i ^ ((d.pos k : ℤ) - n) * d.e i' ^ ((d.pos k : ℤ) - n) = (-1) ^ d.pos k * (-1) ^ n := by
        rw [← mul_zpow, hee, zpow_sub₀ (by norm_num), zpow_natCast, zpow_natCast, div_eq_mul_inv, ← inv_pow]
        norm_num
      have h2 : d.z i ^ (-d.t k) * d.z i' ^ (-d.t k) = 1 := by rw [← mul_zpow, h, one_zpow]
      unfold ChainData.W0 ChainData.u ChainData.w
      simp only [ofReal_mul, ofReal_pow, ofReal_neg, ofReal_one]
      linear_combination (1 - (d.z i)⁻¹) * -((d.e i')⁻¹ / (Real.sin (Real.pi * d.j i' / m) : ℂ)) * d.r i (d.pos k) * d.T i' (d.pos k) *
        (d.e i ^ ((d.pos k : ℤ) - n) * d.e i' ^ ((d.pos k : ℤ) - n) * (d.z i ^ (-d.t k) * d.z i' ^ (-d.t k)) * hsg + d.e i ^ ((d.pos k : ℤ) - n) * d.e i' ^ ((d.pos k : ℤ) - n) * h2 + h1)
    rw [sum_congr rfl fun k _ => e k, ← mul_sum, d.sum_k (fun q => (((-1) ^ q * d.r i q * d.T i' q : ℝ) : ℂ)), ← ofReal_sum, d.two i i' hjj]
    simp
  · rw [if_neg h, zero_mul]

/-- real form of the positivity -/
noncomputable def ChainData.H (d : ChainData m n N g lo K W) (i i' : Fin g) : ℝ := ∑ q ∈ Ioo lo (lo + N + 1), d.r i q * d.T i' q

theorem ChainData.hermitian (d : ChainData m n N g lo K W) (hm : 2 ≤ m) (i i' : Fin g) : ∑ a, ∑ b, d.V i a * K a b * (starRingEnd ℂ) (d.V i' b) = (if d.j i = d.j i' then -2 * I * m * d.H i i' else 0) := by
  rw [sum_comm]
  simp only [← sum_mul, d.dual hm]
  have hc : ∀ b : Fin (N * (m - 1)), (starRingEnd ℂ) (d.V i' b) = (starRingEnd ℂ) (d.u i' (b.val / (m - 1))) * (((starRingEnd ℂ) (d.z i')) ^ (-((b.val % (m - 1) : ℕ) : ℤ)) - (starRingEnd ℂ) (d.z i')) := by
    intro b
    simp only [ChainData.V, Matrix.of_apply, map_mul, map_sub, map_zpow₀]
  simp only [hc]
  refine (d.pairing hm i (fun k => (starRingEnd ℂ) (d.u i' k)) (y := (starRingEnd ℂ) (d.z i')) (by rw [← map_pow, d.z_pow hm, map_one])).trans ?_
  by_cases h : d.j i = d.j i'
  · rw [if_pos h, if_pos ((d.z_inj i i').2 h)]
    have he : d.e i' = d.e i := by unfold ChainData.e; rw [h]
    have hz : d.z i' = d.z i := by unfold ChainData.z; rw [h]
    have hei := d.e_ne i
    have hz0 : d.z i ≠ 0 := by rw [d.z_eq]; exact pow_ne_zero _ hei
    have hs : (Real.sin (Real.pi * d.j i / m) : ℂ) ≠ 0 := ofReal_ne_zero.2 (d.sin_pos i).ne'
    have e : ∀ k : Fin N, d.W0 i k * (starRingEnd ℂ) (d.u i' k) = -2 * I * ((d.r i (d.pos k) * d.T i' (d.pos k) : ℝ) : ℂ) := by
      intro k
      have hsg : (d.ε k : ℂ) * d.ε k = 1 := by exact_mod_cast d.sign k k.isLt
      have hcz : (starRingEnd ℂ) (d.z i) = (d.z i)⁻¹ := by rw [d.z_eq, map_pow, ← d.e_inv, inv_pow]
      have hu : (starRingEnd ℂ) (d.u i' k) = d.ε k * (d.z i)⁻¹ ^ (-d.t k) * (-(d.e i / (Real.sin (Real.pi * d.j i / m) : ℂ)) * (d.e i)⁻¹ ^ ((d.pos k : ℤ) - n) * d.T i' (d.pos k)) := by
        unfold ChainData.u ChainData.w
        rw [he, hz, ← h]
        simp only [map_mul, map_neg, map_div₀, map_zpow₀, map_inv₀, conj_ofReal, map_intCast, hcz, ← d.e_inv, inv_inv]
      have h1 : d.e i ^ ((d.pos k : ℤ) - n) * (d.e i)⁻¹ ^ ((d.pos k : ℤ) - n) = 1 := by rw [← mul_zpow, mul_inv_cancel₀ hei, one_zpow]
      have h2 : d.z i ^ (-d.t k) * (d.z i)⁻¹ ^ (-d.t k) = 1 := by rw [← mul_zpow, mul_inv_cancel₀ hz0, one_zpow]
      have h3 : (1 - (d.z i)⁻¹) * (d.e i / (Real.sin (Real.pi * d.j i / m) : ℂ)) = 2 * I := by
        have hsin := d.e_sin i
        rw [d.z_eq]
        field_simp
        field_simp at hsin
        linear_combination hsin
      rw [hu, ofReal_mul]
      unfold ChainData.W0
      linear_combination -(1 - (d.z i)⁻¹) * (d.e i / (Real.sin (Real.pi * d.j i / m) : ℂ)) * d.r i (d.pos k) * d.T i' (d.pos k) *
        (d.e i ^ ((d.pos k : ℤ) - n) * (d.e i)⁻¹ ^ ((d.pos k : ℤ) - n) * (d.z i ^ (-d.t k) * (d.z i)⁻¹ ^ (-d.t k)) * hsg + d.e i ^ ((d.pos k : ℤ) - n) * (d.e i)⁻¹ ^ ((d.pos k : ℤ) - n) * h2 + h1) - d.r i (d.pos k) * d.T i' (d.pos k) * h3
    rw [sum_congr rfl fun k _ => e k, ← mul_sum, d.sum_k (fun q => ((d.r i q * d.T i' q : ℝ) : ℂ)), ← ofReal_sum]
    show _ = -2 * I * m * ((∑ q ∈ Ioo lo (lo + N + 1), d.r i q * d.T i' q : ℝ) : ℂ)
    ring
  · rw [if_neg h, if_neg (fun h' => h ((d.z_inj i i').1 h')), zero_mul]

theorem ChainData.H_symm (d : ChainData m n N g lo K W) {i i' : Fin g} (h : d.j i = d.j i') : d.H i i' = d.H i' i := by
  have h2 := d.hT i'
  rw [← h] at h2
  exact form_symm (by omega) (d.sin_pos i).ne' (d.hT i) h2 (d.hlo i) (d.hlo i') (d.hhi i) (d.hhi i')

/-- the form is positive on the real vectors -/
theorem ChainData.form_pos (d : ChainData m n N g lo K W) (v : Fin g → ℝ) : 0 ≤ ∑ i, ∑ i', (if d.j i = d.j i' then v i * v i' * d.H i i' else 0) ∧ (v ≠ 0 → 0 < ∑ i, ∑ i', (if d.j i = d.j i' then v i * v i' * d.H i i' else 0)) := by
  classical
  let a : Nat → Fin g → ℝ := fun J i => if d.j i = J then v i else 0
  have hP : ∀ J, ∑ q ∈ Ioo lo (lo + N + 1), (∑ i, a J i * d.r i q) * ∑ i, a J i * d.T i q = ∑ i, ∑ i', a J i * a J i' * d.H i i' := by
    intro J
    simp only [sum_mul_sum, ChainData.H]
    rw [sum_comm]
    refine sum_congr rfl fun i _ => ?_
    rw [sum_comm]
    refine sum_congr rfl fun i' _ => ?_
    rw [mul_sum]
    exact sum_congr rfl fun q _ => by ring
  have hsum : ∑ i, ∑ i', (if d.j i = d.j i' then v i * v i' * d.H i i' else 0) = ∑ J ∈ Finset.range m, ∑ i, ∑ i', a J i * a J i' * d.H i i' := by
    refine Eq.symm ?_
    rw [sum_comm]
    refine sum_congr rfl fun i _ => ?_
    rw [sum_comm]
    refine sum_congr rfl fun i' _ => ?_
    rw [Finset.sum_eq_single (d.j i)]
    · simp only [a, if_pos]
      by_cases h : d.j i = d.j i'
      · rw [if_pos h.symm, if_pos h]
      · rw [if_neg (Ne.symm h), if_neg h, mul_zero, zero_mul]
    · intro J _ hJ
      simp only [a]
      rw [if_neg (Ne.symm hJ), zero_mul, zero_mul]
    · intro h
      exact absurd (mem_range.2 (d.hj i).2) h
  have hnn : ∀ J, 0 ≤ ∑ i, ∑ i', a J i * a J i' * d.H i i' := by
    intro J
    rw [← hP]
    by_cases h : a J = 0
    · simp [h]
    · exact (d.pos' J (a J) (fun i hi => if_neg hi) h).le
  rw [hsum]
  refine ⟨sum_nonneg fun J _ => hnn J, fun hv => ?_⟩
  obtain ⟨i, hi⟩ : ∃ i, v i ≠ 0 := by
    by_contra hc
    push Not at hc
    exact hv (funext hc)
  refine sum_pos' (fun J _ => hnn J) ⟨d.j i, mem_range.2 (d.hj i).2, ?_⟩
  rw [← hP]
  refine d.pos' _ (a (d.j i)) (fun i' hi' => if_neg hi') fun h => hi ?_
  have := congrFun h i
  simpa [a] using this

/-- **The relations of Riemann** for a chain. -/
theorem ChainData.relations (d : ChainData m n N g lo K W) (hm : 2 ≤ m) : RiemannRelations W K := by
  refine ⟨d.V, d.dual hm, d.isotropic hm, fun v hv => ?_⟩
  have e1 : ∑ a, ∑ b, (∑ i, v i * d.V i a) * K a b * (starRingEnd ℂ) (∑ i, v i * d.V i b) = ∑ i, ∑ i', v i * (starRingEnd ℂ) (v i') * ∑ a, ∑ b, d.V i a * K a b * (starRingEnd ℂ) (d.V i' b) := by
    have f1 : ∀ a b, (∑ i, v i * d.V i a) * K a b * (starRingEnd ℂ) (∑ i, v i * d.V i b) = ∑ i, ∑ i', v i * (starRingEnd ℂ) (v i') * (d.V i a * K a b * (starRingEnd ℂ) (d.V i' b)) := by
      intro a b
      rw [map_sum, sum_mul, sum_mul_sum]
      refine sum_congr rfl fun i _ => sum_congr rfl fun i' _ => ?_
      rw [map_mul]
      ring
    simp only [f1, mul_sum]
    rw [sum_congr rfl fun a _ => sum_comm, sum_comm]
    refine sum_congr rfl fun i _ => ?_
    rw [sum_congr rfl fun a _ => sum_comm, sum_comm]
  rw [e1]
  simp only [d.hermitian hm]
  have e2 : (I * ∑ i, ∑ i', v i * (starRingEnd ℂ) (v i') * (if d.j i = d.j i' then -2 * I * m * d.H i i' else 0)).re = 2 * m * (∑ i, ∑ i', (if d.j i = d.j i' then (v i).re * (v i').re * d.H i i' else 0) + ∑ i, ∑ i', (if d.j i = d.j i' then (v i).im * (v i').im * d.H i i' else 0)) := by
    rw [mul_sum, re_sum, ← sum_add_distrib, mul_sum]
    refine sum_congr rfl fun i _ => ?_
    rw [mul_sum, re_sum, ← sum_add_distrib, mul_sum]
    refine sum_congr rfl fun i' _ => ?_
    by_cases h : d.j i = d.j i'
    · simp only [if_pos h]
      rw [show I * (v i * (starRingEnd ℂ) (v i') * (-2 * I * m * (d.H i i' : ℂ))) = ((2 * m * d.H i i' : ℝ) : ℂ) * (v i * (starRingEnd ℂ) (v i')) by push_cast; linear_combination (-2 * (v i) * (starRingEnd ℂ) (v i') * m * (d.H i i' : ℂ)) * I_mul_I, re_ofReal_mul, mul_re, conj_re, conj_im]
      ring
    · simp only [if_neg h]
      simp
  rw [e2]
  have hm0 : (0 : ℝ) < m := by exact_mod_cast (by omega : 0 < m)
  have p1 := d.form_pos fun i => (v i).re
  have p2 := d.form_pos fun i => (v i).im
  refine mul_pos (by positivity) ?_
  by_cases h1 : (fun i => (v i).re) = 0
  · refine add_pos_of_nonneg_of_pos p1.1 (p2.2 fun h2 => hv ?_)
    funext i
    exact Complex.ext (congrFun h1 i) (congrFun h2 i)
  · exact add_pos_of_pos_of_nonneg (p1.2 h1) p2.1

end

end Hcp.Super
