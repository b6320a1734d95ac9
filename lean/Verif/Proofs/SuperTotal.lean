import Verif.Proofs.PowTotal

/-!
# Partial sums of the integrals over the segments of the real line

Integrals of monomials, and partial sums corrected so that they vanish at the ends of a chain of segments.
-/

namespace Hcp.PowPlane
open Complex Set MeasureTheory Filter Topology Interval
open HalfPlane (absf)

section
variable {κ κ' : ℝ} {n g : Nat} {ξ : Nat → ℝ}

/-- coefficients of a monomial -/
def mono1 (i : Nat) : Fin (i + 1) → ℝ := fun x => if x.val = i then 1 else 0

/-- integral of `x^i / |f|^κ` over the segment number `q` -/
noncomputable def mon (κ : ℝ) (n : Nat) (ξ : Nat → ℝ) (i q : Nat) : ℝ := total κ n ξ (mono1 i) q

theorem rdif_mono1 (i : Nat) (x : ℝ) : rdif κ n ξ (mono1 i) x = x ^ i / absf n ξ x ^ κ := by
  unfold rdif mono1
  congr 1
  rw [Finset.sum_eq_single (Fin.last i)]
  · simp
  · intro b _ hb
    rw [if_neg, zero_mul]
    intro e
    exact hb (Fin.ext e)
  · intro h
    exact absurd (Finset.mem_univ _) h

theorem rdif_lin (a : Fin g → ℝ) (x : ℝ) : rdif κ n ξ a x = ∑ i, a i * rdif κ n ξ (mono1 i.val) x := by
  simp only [rdif_mono1]
  unfold rdif
  rw [Finset.sum_div]
  exact Finset.sum_congr rfl fun i _ => by ring

theorem total_lin (hκ : 0 < κ) (hκ1 : κ < 1) (hξ : Mono n ξ) (hn : 0 < n) (hng : (g : ℝ) < κ * n) (a : Fin g → ℝ) (q : Nat) : total κ n ξ a q = ∑ i, a i * mon κ n ξ i q := by
  have hi : ∀ i : Fin g, Integrable (rdif κ n ξ (mono1 i.val)) := fun i => by
    refine rdif_on hκ hκ1 hξ hn (lt_of_le_of_lt ?_ hng)
    exact_mod_cast i.isLt
  unfold mon total
  split_ifs
  · simp only [← integral_const_mul]
    rw [← integral_finsetSum _ fun i _ => ((hi i).integrableOn.const_mul _)]
    exact integral_congr_ae (Eventually.of_forall fun x => rdif_lin a x)
  · simp only [← intervalIntegral.integral_const_mul]
    rw [← intervalIntegral.integral_finsetSum fun i _ => ((hi i).intervalIntegrable.const_mul _)]
    exact intervalIntegral.integral_congr fun x _ => rdif_lin a x
  · simp only [← integral_const_mul]
    rw [← integral_finsetSum _ fun i _ => ((hi i).integrableOn.const_mul _)]
    exact integral_congr_ae (Eventually.of_forall fun x => rdif_lin a x)

theorem part_zero (r : Nat → ℝ) : part κ r 0 = 0 := by simp [part]

theorem part_rec (r : Nat → ℝ) {q : Nat} (hq : 0 < q) : part κ r (q + 1) + part κ r (q - 1) - 2 * Real.cos (κ * Real.pi) * part κ r q = Real.sin (κ * Real.pi) * r q := by
  obtain ⟨p, rfl⟩ : ∃ p, q = p + 1 := ⟨q - 1, by omega⟩
  have e1 : part κ r p = ∑ i ∈ Finset.range (p + 1), Real.sin (κ * Real.pi * ((p : ℝ) - i)) * r i := by
    rw [Finset.sum_range_succ, sub_self, mul_zero, Real.sin_zero, zero_mul, add_zero]
    rfl
  rw [Nat.add_sub_cancel, e1]
  unfold part
  rw [Finset.sum_range_succ _ (p + 1), Finset.mul_sum]
  have key : ∀ i : Nat, Real.sin (κ * Real.pi * (((p + 1 + 1 : ℕ) : ℝ) - i)) * r i + Real.sin (κ * Real.pi * ((p : ℝ) - i)) * r i - 2 * Real.cos (κ * Real.pi) * (Real.sin (κ * Real.pi * (((p + 1 : ℕ) : ℝ) - i)) * r i) = 0 := by
    intro i
    have h1 : Real.sin (κ * Real.pi * (((p + 1 + 1 : ℕ) : ℝ) - i)) = Real.sin (κ * Real.pi * (((p + 1 : ℕ) : ℝ) - i) + κ * Real.pi) := by
      congr 1
      push_cast
      ring
    have h2 : Real.sin (κ * Real.pi * ((p : ℝ) - i)) = Real.sin (κ * Real.pi * (((p + 1 : ℕ) : ℝ) - i) - κ * Real.pi) := by
      congr 1
      push_cast
      ring
    rw [h1, h2, Real.sin_add, Real.sin_sub]
    ring
  have h3 := Finset.sum_congr (s₁ := Finset.range (p + 1)) rfl fun i _ => key i
  rw [Finset.sum_sub_distrib, Finset.sum_add_distrib, Finset.sum_const_zero] at h3
  have h4 : κ * Real.pi * (((p + 1 + 1 : ℕ) : ℝ) - ((p + 1 : ℕ) : ℝ)) = κ * Real.pi := by push_cast; ring
  rw [h4]
  linarith

/-- corrected partial sums -/
noncomputable def tee (κ : ℝ) (r : Nat → ℝ) (c : ℝ) (q : Nat) : ℝ := part κ r q - c * Real.sin (κ * Real.pi * q)

theorem tee_rec (r : Nat → ℝ) (c : ℝ) {q : Nat} (hq : 0 < q) : tee κ r c (q + 1) + tee κ r c (q - 1) - 2 * Real.cos (κ * Real.pi) * tee κ r c q = Real.sin (κ * Real.pi) * r q := by
  rw [← part_rec r hq]
  obtain ⟨p, rfl⟩ : ∃ p, q = p + 1 := ⟨q - 1, by omega⟩
  rw [Nat.add_sub_cancel]
  unfold tee
  have h1 : Real.sin (κ * Real.pi * ((p + 1 + 1 : ℕ) : ℝ)) = Real.sin (κ * Real.pi * ((p + 1 : ℕ) : ℝ) + κ * Real.pi) := by
    congr 1
    push_cast
    ring
  have h2 : Real.sin (κ * Real.pi * (p : ℝ)) = Real.sin (κ * Real.pi * ((p + 1 : ℕ) : ℝ) - κ * Real.pi) := by
    congr 1
    push_cast
    ring
  rw [h1, h2, Real.sin_add, Real.sin_sub]
  ring

/-- the correction -/
theorem tee_exists (hκ : 0 < κ) (hκ1 : κ < 1) (hn : 0 < n) {r : Nat → ℝ} (hr : part κ r n = 0) {lo hi : Nat}
    (h : (lo = 0 ∧ hi = n) ∨ (Real.sin (κ * Real.pi * n) = 0 ∧ ((lo = 0 ∧ hi + 1 = n) ∨ (lo = 1 ∧ hi = n)))) :
    ∃ c, (c = 0 ∨ Real.sin (κ * Real.pi * n) = 0) ∧ tee κ r c lo = 0 ∧ tee κ r c hi = 0 ∧ ∀ q < n, q ∉ Finset.Ioo lo hi → tee κ r c q = 0 := by
  have hpi := Real.pi_pos
  have hs : Real.sin (κ * Real.pi) ≠ 0 := (Real.sin_pos_of_pos_of_lt_pi (by positivity) (by nlinarith)).ne'
  have h0 : ∀ c, tee κ r c 0 = 0 := fun c => by simp [tee, part_zero]
  have hN : ∀ c, (c = 0 ∨ Real.sin (κ * Real.pi * n) = 0) → tee κ r c n = 0 := by
    intro c hc
    rcases hc with hc | hc <;> simp [tee, hr, hc]
  rcases h with ⟨rfl, rfl⟩ | ⟨hsin, ⟨rfl, rfl⟩ | ⟨rfl, rfl⟩⟩
  · refine ⟨0, Or.inl rfl, h0 0, hN 0 (Or.inl rfl), fun q h1 h2 => ?_⟩
    rw [Finset.mem_Ioo] at h2
    rw [show q = 0 by omega]
    exact h0 0
  · have hs' : Real.sin (κ * Real.pi * hi) ≠ 0 := by
      intro e
      have e1 : κ * Real.pi = κ * Real.pi * ((hi + 1 : ℕ) : ℝ) - κ * Real.pi * hi := by push_cast; ring
      apply hs
      rw [e1, Real.sin_sub, hsin, e]
      ring
    have ht : tee κ r (part κ r hi / Real.sin (κ * Real.pi * hi)) hi = 0 := by
      unfold tee
      field_simp
      ring
    refine ⟨part κ r hi / Real.sin (κ * Real.pi * hi), Or.inr hsin, h0 _, ht, fun q h1 h2 => ?_⟩
    rw [Finset.mem_Ioo] at h2
    rcases (by omega : q = 0 ∨ q = hi) with rfl | rfl
    · exact h0 _
    · exact ht
  · have ht : tee κ r (part κ r 1 / Real.sin (κ * Real.pi)) 1 = 0 := by
      unfold tee
      rw [Nat.cast_one, mul_one]
      field_simp
      ring
    refine ⟨part κ r 1 / Real.sin (κ * Real.pi), Or.inr hsin, ht, hN _ (Or.inr hsin), fun q h1 h2 => ?_⟩
    rw [Finset.mem_Ioo] at h2
    rcases (by omega : q = 0 ∨ q = 1) with rfl | rfl
    · exact h0 _
    · exact ht

/-- the sum of the corrections -/
theorem sin_sum {r : Nat → ℝ} (hr : part κ r n = 0) (hs : Real.sin (κ * Real.pi * n) = 0) : ∑ q ∈ Finset.range n, Real.sin (κ * Real.pi * q) * r q = 0 := by
  have hc : Real.cos (κ * Real.pi * n) ≠ 0 := by
    intro e
    have := Real.sin_sq_add_cos_sq (κ * Real.pi * n)
    rw [hs, e] at this
    norm_num at this
  have h1 : part κ r n = -Real.cos (κ * Real.pi * n) * ∑ q ∈ Finset.range n, Real.sin (κ * Real.pi * q) * r q := by
    unfold part
    rw [Finset.mul_sum]
    refine Finset.sum_congr rfl fun q _ => ?_
    rw [mul_sub, Real.sin_sub, hs]
    ring
  rw [hr] at h1
  exact (mul_eq_zero.1 h1.symm).resolve_left (neg_ne_zero.2 hc)

theorem sin_compl (q : Nat) : Real.sin ((1 - κ) * Real.pi * q) = -((-1) ^ q * Real.sin (κ * Real.pi * q)) := by
  rw [show (1 - κ) * Real.pi * q = q * Real.pi - κ * Real.pi * q by ring, Real.sin_nat_mul_pi_sub]

theorem sum_Ioo_range {lo hi : Nat} {f : Nat → ℝ} (hhi : hi ≤ n) (h : ∀ q < n, q ∉ Finset.Ioo lo hi → f q = 0) : ∑ q ∈ Finset.Ioo lo hi, f q = ∑ q ∈ Finset.range n, f q := by
  refine Finset.sum_subset (fun q hq => ?_) fun q hq hq' => h q (Finset.mem_range.1 hq) hq'
  rw [Finset.mem_Ioo] at hq
  exact Finset.mem_range.2 (by omega)

/-- second relation, corrected -/
theorem tee_two (hκ : 0 < κ) (hκ1 : κ < 1) (hξ : Mono n ξ) (hn : 0 < n) {i i' : Nat} (hm : ((i + 1 : ℕ) : ℝ) < κ * n) (hi' : ((i' + 1 : ℕ) : ℝ) < (1 - κ) * n) {c : ℝ} (hc : c = 0 ∨ Real.sin (κ * Real.pi * n) = 0) {lo hi : Nat} (hhi : hi ≤ n)
    (hv : ∀ q < n, q ∉ Finset.Ioo lo hi → tee κ (mon κ n ξ i) c q = 0) : ∑ q ∈ Finset.Ioo lo hi, (-1) ^ q * mon (1 - κ) n ξ i' q * tee κ (mon κ n ξ i) c q = 0 := by
  rw [sum_Ioo_range hhi fun q h1 h2 => by rw [hv q h1 h2, mul_zero] ]
  have h2 := total_two (a := mono1 i) (b := mono1 i') hκ hκ1 hξ hn hm hi'
  have h3 : c * ∑ q ∈ Finset.range n, Real.sin ((1 - κ) * Real.pi * q) * mon (1 - κ) n ξ i' q = 0 := by
    rcases hc with hc | hc
    · rw [hc, zero_mul]
    · rw [sin_sum (r := mon (1 - κ) n ξ i') (total_part (a := mono1 i') (by linarith) (by linarith) hξ hn hi'), mul_zero]
      rw [sin_compl, hc, mul_zero, neg_zero]
  rw [Finset.mul_sum] at h3
  have h4 := congrArg₂ (· + ·) h2 h3
  simp only [← Finset.sum_add_distrib, add_zero] at h4
  rw [← h4]
  refine Finset.sum_congr rfl fun q _ => ?_
  rw [sin_compl]
  unfold tee mon
  have : ((-1 : ℝ) ^ q) * (-1) ^ q = 1 := by rw [← mul_pow]; norm_num
  change _ = (-1) ^ q * part κ (total κ n ξ (mono1 i)) q * total (1 - κ) n ξ (mono1 i') q + _
  change (-1) ^ q * total (1 - κ) n ξ (mono1 i') q * (part κ (total κ n ξ (mono1 i)) q - _) = _
  ring

/-- third relation, corrected -/
theorem tee_pos (hκ : 0 < κ) (hκ1 : κ < 1) (hξ : Mono n ξ) (hn : 0 < n) {d : Nat} {G : Nat} (hG : (G : ℝ) < κ * n) (e : Fin d → Nat) (a c : Fin d → ℝ) (he : ∀ r, a r ≠ 0 → e r < G) (hinj : ∀ r s, a r ≠ 0 → a s ≠ 0 → e r = e s → r = s) (ha : a ≠ 0)
    (hc : ∀ r, a r ≠ 0 → c r = 0 ∨ Real.sin (κ * Real.pi * n) = 0) {lo hi : Nat} (hhi : hi ≤ n) (hv : ∀ r, a r ≠ 0 → ∀ q < n, q ∉ Finset.Ioo lo hi → tee κ (mon κ n ξ (e r)) (c r) q = 0) :
    0 < ∑ q ∈ Finset.Ioo lo hi, (∑ r, a r * mon κ n ξ (e r) q) * ∑ r, a r * tee κ (mon κ n ξ (e r)) (c r) q := by
  classical
  rw [sum_Ioo_range hhi fun q h1 h2 => ?_]
  swap
  · rw [Finset.sum_eq_zero (f := fun r => a r * tee κ (mon κ n ξ (e r)) (c r) q) fun r _ => ?_, mul_zero]
    by_cases h : a r = 0
    · rw [h, zero_mul]
    · rw [hv r h q h1 h2, mul_zero]
  let A : Fin G → ℝ := fun x => ∑ r, if e r = x.val then a r else 0
  have hA : A ≠ 0 := by
    obtain ⟨r, hr⟩ := Function.ne_iff.1 ha
    refine Function.ne_iff.2 ⟨⟨e r, he r hr⟩, ?_⟩
    have : A ⟨e r, he r hr⟩ = a r := by
      show (∑ s, if e s = e r then a s else 0) = a r
      rw [Finset.sum_eq_single r]
      · rw [if_pos rfl]
      · intro s _ hs
        split_ifs with h
        · by_contra h'
          exact hs (hinj s r h' hr h)
        · rfl
      · intro h
        exact absurd (Finset.mem_univ _) h
    rw [this]
    exact hr
  have htot : ∀ q, total κ n ξ A q = ∑ r, a r * mon κ n ξ (e r) q := by
    intro q
    rw [total_lin hκ hκ1 hξ hn hG]
    simp only [A, Finset.sum_mul]
    rw [Finset.sum_comm]
    refine Finset.sum_congr rfl fun r _ => ?_
    by_cases h : a r = 0
    · simp [h]
    · rw [Finset.sum_eq_single ⟨e r, he r h⟩]
      · rw [if_pos rfl]
      · intro x _ hx
        rw [if_neg (fun h' => hx (Fin.ext h'.symm)), zero_mul]
      · intro h
        exact absurd (Finset.mem_univ _) h
  have hp := total_pos hκ hκ1 hξ hn hG hA
  have hpart : ∀ q, ∑ r, a r * tee κ (mon κ n ξ (e r)) (c r) q = part κ (total κ n ξ A) q - (∑ r, a r * c r) * Real.sin (κ * Real.pi * q) := by
    intro q
    unfold tee part
    simp only [htot, mul_sub, Finset.sum_sub_distrib, Finset.mul_sum, Finset.sum_mul]
    rw [Finset.sum_comm]
    congr 1
    · exact Finset.sum_congr rfl fun p _ => Finset.sum_congr rfl fun r _ => by ring
    · exact Finset.sum_congr rfl fun r _ => by ring
  have h3 : (∑ r, a r * c r) * ∑ q ∈ Finset.range n, Real.sin (κ * Real.pi * q) * total κ n ξ A q = 0 := by
    by_cases hs : Real.sin (κ * Real.pi * n) = 0
    · rw [sin_sum (total_part hκ hκ1 hξ hn hG) hs, mul_zero]
    · rw [Finset.sum_eq_zero, zero_mul]
      intro r _
      by_cases h : a r = 0
      · rw [h, zero_mul]
      · rw [(hc r h).resolve_right hs, mul_zero]
  rw [Finset.mul_sum] at h3
  refine lt_of_lt_of_eq hp ?_
  rw [← sub_zero (∑ j ∈ Finset.range n, _), ← h3, ← Finset.sum_sub_distrib]
  refine Finset.sum_congr rfl fun q _ => ?_
  rw [hpart, ← htot]
  ring

end

end Hcp.PowPlane
