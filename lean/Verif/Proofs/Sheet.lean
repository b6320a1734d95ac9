import Verif.Proofs.EdgeData
import Verif.Proofs.Turn
import Verif.Spec.Sheet
import Verif.Props.Edge
import Mathlib.Analysis.SpecialFunctions.Pow.Real

/-! # Shift numbers are sheet gaps -/

namespace Hcp
open Complex

/-- what `arb_angle` computes, in exact terms: some determination of the argument over `2 pi` -/
theorem arbAngle_spec {A : Type} {X : Arith A} {R : A → ℂ → Prop} (E : Encloses X exact R) {T : Tests A}
    (hT : SoundTests T R) {a c r : A} {a' c' : ℂ} (ha : R a a') (hc : R c c')
    (h : arbAngle X T a c = .ok r) :
    ∃ φ : ℝ, R r ((φ / (2 * Real.pi) : ℝ) : ℂ) ∧
      φ = (if T.reNonpos (X.div a c) then
        (if T.reNonneg (T.arg (X.neg (X.div a c))) then (-(a' / c')).arg - Real.pi else (-(a' / c')).arg + Real.pi)
        else (a' / c').arg) := by
  have hpi : ((Real.pi : ℝ) : ℂ) ≠ 0 := by exact_mod_cast Real.pi_ne_zero
  have ht : R (X.div a c) (a' / c') := E.div ha hc
  have fin : ∀ (p : A) (φ : ℝ), R p (φ : ℂ) → R (X.mul2exp (X.div p X.pi) (-1)) ((φ / (2 * Real.pi) : ℝ) : ℂ) := by
    intro p φ hp
    have h1 := E.mul2exp (-1) (E.div hp E.pi)
    have h2 : exact.mul2exp (exact.div (φ : ℂ) exact.pi) (-1) = ((φ / (2 * Real.pi) : ℝ) : ℂ) := by
      show (φ : ℂ) / (Real.pi : ℂ) * (2 : ℂ) ^ (-1 : Int) = _
      rw [zpow_neg_one]
      push_cast
      field_simp
    rwa [h2] at h1
  unfold arbAngle at h
  simp only at h
  split at h
  · cases h
  · cases h
    refine ⟨_, fin _ _ ?_, rfl⟩
    split
    · have hneg : R (T.arg (X.neg (X.div a c))) (((-(a' / c')).arg : ℝ) : ℂ) := hT.arg (E.neg ht)
      split
      · have := E.sub hneg E.pi
        push_cast
        exact this
      · have := E.add hneg E.pi
        push_cast
        exact this
    · exact hT.arg ht

/-- the angle modulo `2 pi` -/
theorem angle_turns {z : ℂ} (φ : ℝ) (h : φ = z.arg ∨ φ = (-z).arg + Real.pi ∨ φ = (-z).arg - Real.pi) :
    z = (‖z‖ : ℂ) * exp (φ * I) := by
  have h1 := norm_mul_exp_arg_mul_I z
  have h2 := norm_mul_exp_arg_mul_I (-z)
  rw [norm_neg] at h2
  rcases h with h | h | h
  · rw [h, h1]
  · rw [h]; push_cast
    rw [add_mul, exp_add, exp_pi_mul_I]
    linear_combination h2
  · rw [h]; push_cast
    rw [sub_mul, exp_sub, exp_pi_mul_I]
    have : (‖z‖ : ℂ) * (exp ((-z).arg * I) / -1) = -((‖z‖ : ℂ) * exp ((-z).arg * I)) := by ring
    rw [this, h2, neg_neg]

/-- The algebra behind the shift number: if `(Yl/Yk)^m = dl/dk`, an angle `θ` from `dl` to `dk` and a determination `ψ` of
the argument of `Yl/Yk` add up to an integer number of turns, which is the gap. -/
theorem gap_of_angles {m : Nat} (hm : 0 < m) {dk dl Yk Yl : ℂ} (hdk : dk ≠ 0) (hdl : dl ≠ 0) (hYk : Yk ≠ 0)
    (hp : Yl ^ m * dk = Yk ^ m * dl) {θ ψ : ℝ} (hθ : Spec.Turns dk dl θ)
    (hψ : Yl / Yk = (‖Yl / Yk‖ : ℂ) * exp (ψ * I)) :
    ∃ S : Int, θ + m * ψ = 2 * Real.pi * S ∧ Spec.Continues m dk dl Yk Yl θ S := by
  have hm0 : (m : ℂ) ≠ 0 := by exact_mod_cast hm.ne'
  have hmR : (m : ℝ) ≠ 0 := by exact_mod_cast hm.ne'
  have hnk : 0 < ‖dk‖ := norm_pos_iff.2 hdk
  have hnl : 0 < ‖dl‖ := norm_pos_iff.2 hdl
  have hq : (Yl / Yk) ^ m * (dk / dl) = 1 := by
    have := pow_ne_zero m hYk
    rw [div_pow]
    field_simp
    linear_combination hp
  have hnorm : ‖Yl / Yk‖ ^ m * ‖dk / dl‖ = 1 := by
    have := congrArg norm hq
    rwa [norm_mul, norm_pow, norm_one] at this
  have hexp : exp ((θ + m * ψ : ℝ) * I) = 1 := by
    unfold Spec.Turns at hθ
    rw [hψ, hθ, mul_pow, ← exp_nat_mul] at hq
    have h3 : ((‖Yl / Yk‖ : ℂ) ^ m * exp (m * (ψ * I))) * ((‖dk / dl‖ : ℂ) * exp (θ * I)) =
        ((‖Yl / Yk‖ ^ m * ‖dk / dl‖ : ℝ) : ℂ) * exp ((θ + m * ψ : ℝ) * I) := by
      push_cast
      rw [show ((θ : ℂ) + m * ψ) * I = θ * I + m * (ψ * I) by ring, exp_add]
      ring
    rw [h3, hnorm] at hq
    simpa using hq
  obtain ⟨S, hS⟩ := exp_eq_one_iff.1 hexp
  have hS' : θ + m * ψ = 2 * Real.pi * S := by
    have h4 : ((θ + m * ψ : ℝ) : ℂ) = ((2 * Real.pi * S : ℝ) : ℂ) := by
      apply mul_right_cancel₀ I_ne_zero
      rw [hS]; push_cast; ring
    exact_mod_cast h4
  refine ⟨S, hS', ?_⟩
  unfold Spec.Continues
  -- moduli
  have hmod : ‖Yl / Yk‖ * ‖dk‖ ^ ((m : ℝ)⁻¹) = ‖dl‖ ^ ((m : ℝ)⁻¹) := by
    have h5 : (‖Yl / Yk‖ * ‖dk‖ ^ ((m : ℝ)⁻¹)) ^ m = (‖dl‖ ^ ((m : ℝ)⁻¹)) ^ m := by
      rw [mul_pow, Real.rpow_inv_natCast_pow hnk.le hm.ne', Real.rpow_inv_natCast_pow hnl.le hm.ne']
      rw [norm_div dk dl] at hnorm
      field_simp at hnorm
      linarith
    exact (pow_left_inj₀ (by positivity) (by positivity) hm.ne').1 h5
  have hz : Spec.zeta m ^ S = exp (((θ + m * ψ : ℝ) : ℂ) * I / m) := by
    unfold Spec.zeta
    rw [← exp_int_mul, hS']
    congr 1
    push_cast
    ring
  have hY : Yl = Yk * ((‖Yl / Yk‖ : ℂ) * exp (ψ * I)) := by
    rw [← hψ]; field_simp
  rw [hz, show ((θ + m * ψ : ℝ) : ℂ) * I / m = θ * I / m + ψ * I by push_cast; field_simp, exp_add, ← hmod]
  conv_lhs => rw [hY]
  push_cast
  ring

/-- the gap is determined modulo `m` -/
theorem continues_unique {m : Nat} (hm : 0 < m) {dk dl Yk Yl : ℂ} (hdl : dl ≠ 0) (hYk : Yk ≠ 0) {θ : ℝ}
    {S S' : Int} (h : Spec.Continues m dk dl Yk Yl θ S) (h' : Spec.Continues m dk dl Yk Yl θ S') :
    (m : Int) ∣ S - S' := by
  unfold Spec.Continues at h h'
  have hnl : ((‖dl‖ ^ ((m : ℝ)⁻¹) : ℝ) : ℂ) ≠ 0 := by
    have : 0 < ‖dl‖ ^ ((m : ℝ)⁻¹) := Real.rpow_pos_of_pos (norm_pos_iff.2 hdl) _
    exact_mod_cast this.ne'
  have h1 : Spec.zeta m ^ S = Spec.zeta m ^ S' := by
    apply mul_right_cancel₀ hYk
    apply mul_right_cancel₀ hnl
    rw [← h, ← h']
  have h2 : Spec.zeta m ^ (S - S') = 1 := by
    rw [zpow_sub₀ (zeta_ne_zero m), h1, div_self (zpow_ne_zero _ (zeta_ne_zero m))]
  unfold Spec.zeta at h2
  rw [← exp_int_mul, exp_eq_one_iff] at h2
  obtain ⟨k, hk⟩ := h2
  have hm0 : (m : ℂ) ≠ 0 := by exact_mod_cast hm.ne'
  refine ⟨k, ?_⟩
  have h3 : ((S - S' : Int) : ℂ) = m * k := by
    field_simp at hk
    push_cast at hk ⊢
    linear_combination hk
  exact_mod_cast h3

theorem turns_unique {dk dl : ℂ} (hdk : dk ≠ 0) (hdl : dl ≠ 0) {θ θ' : ℝ} (h : Spec.Turns dk dl θ)
    (h' : Spec.Turns dk dl θ') (h0 : 0 < θ) (h1 : θ < 2 * Real.pi) (h0' : 0 < θ') (h1' : θ' < 2 * Real.pi) :
    θ = θ' := by
  unfold Spec.Turns at h h'
  have hn : (‖dk / dl‖ : ℂ) ≠ 0 := by
    have := norm_ne_zero_iff.2 (div_ne_zero hdk hdl)
    exact_mod_cast this
  have he : exp (θ * I) = exp (θ' * I) := mul_left_cancel₀ hn (h ▸ h')
  rw [exp_eq_exp_iff_exists_int] at he
  obtain ⟨n, hn⟩ := he
  have h2 : θ = θ' + n * (2 * Real.pi) := by
    have h4 : (θ : ℂ) = ((θ' + n * (2 * Real.pi) : ℝ) : ℂ) := by
      apply mul_right_cancel₀ I_ne_zero
      rw [hn]; push_cast; ring
    exact_mod_cast h4
  have hpi := Real.pi_pos
  have hn1 : (-1 : ℝ) < n := by
    by_contra hc; push Not at hc; nlinarith
  have hn2 : (n : ℝ) < 1 := by
    by_contra hc; push Not at hc; nlinarith
  have : n = 0 := by
    have a : -1 < n := by exact_mod_cast hn1
    have b : n < 1 := by exact_mod_cast hn2
    omega
  subst this
  simpa using h2

/-- the gap is determined modulo `m` by the edges -/
theorem sheetGap_unique {m : Nat} (hm : 0 < m) {dk dl Yk Yl : ℂ} (hdk : dk ≠ 0) (hdl : dl ≠ 0) (hYk : Yk ≠ 0)
    {S S' : Int} (h : Spec.SheetGap m dk dl Yk Yl S) (h' : Spec.SheetGap m dk dl Yk Yl S') :
    (m : Int) ∣ S - S' := by
  obtain ⟨θ, a1, a2, a3, a4⟩ := h
  obtain ⟨θ', b1, b2, b3, b4⟩ := h'
  have := turns_unique hdk hdl a3 b3 a1 a2 b1 b2
  subst this
  exact continues_unique hm hdl hYk a4 b4

end Hcp
