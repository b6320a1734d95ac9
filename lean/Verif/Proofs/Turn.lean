import Verif.Proofs.EdgeData
import Verif.Proofs.Inter
import Mathlib.Analysis.SpecialFunctions.Complex.Arg
import Mathlib.Tactic.NormNum
import Mathlib.Tactic.Positivity

/-! # The turning number of `acb_prod_turn` -/

namespace Hcp
open Complex

theorem sgnImag_exact (z : ℂ) : sgnImag exactTests z =
    if z.im = 0 then (if 0 ≤ z.re then 1 else 0) else if 0 < z.im then 1 else -1 := by
  unfold sgnImag exactTests
  simp only [decide_eq_true_eq]
  split_ifs with h1 h2 h3 <;> try rfl
  · rw [sign_pos h3]; rfl
  · rw [sign_neg (lt_of_le_of_ne (not_lt.1 h3) h1)]; rfl

/-- not on the negative real axis (nor zero, for nonzero numbers) -/
theorem sgnImag_ne_zero {z : ℂ} : sgnImag exactTests z ≠ 0 ↔ (0 ≤ z.re ∨ z.im ≠ 0) := by
  rw [sgnImag_exact]
  split_ifs with h1 h2 h3 <;> simp_all

theorem sgnImag_arg {z : ℂ} (h : sgnImag exactTests z ≠ 0) :
    z.arg < Real.pi ∧ ((sgnImag exactTests z = 1 ∧ 0 ≤ z.arg) ∨ (sgnImag exactTests z = -1 ∧ z.arg < 0)) := by
  refine ⟨arg_lt_pi_iff.2 (sgnImag_ne_zero.1 h), ?_⟩
  rw [sgnImag_exact] at h ⊢
  split_ifs at h ⊢ with h1 h2 h3
  · exact Or.inl ⟨rfl, arg_nonneg_iff.2 h1.ge⟩
  · exact absurd rfl h
  · exact Or.inl ⟨rfl, arg_nonneg_iff.2 h3.le⟩
  · exact Or.inr ⟨rfl, arg_neg_iff.2 (lt_of_le_of_ne (not_lt.1 h3) h1)⟩

theorem arg_mul_exists {y t : ℂ} (hy : y ≠ 0) (ht : t ≠ 0) :
    ∃ k : Int, y.arg + t.arg = (y * t).arg + 2 * Real.pi * k := by
  have h := arg_mul_coe_angle hy ht
  rw [← Real.Angle.coe_add] at h
  obtain ⟨k, hk⟩ := Real.Angle.angle_eq_iff_two_pi_dvd_sub.1 h.symm
  exact ⟨k, by linarith⟩

/-- one step keeps `sum of arguments = arg(y) + 2 pi q` -/
theorem turnStep_inv {y t : ℂ} (hy : y ≠ 0) (ht : t ≠ 0) {q : Int} {S : ℝ}
    (hsy : sgnImag exactTests y ≠ 0) (hS : S = y.arg + 2 * Real.pi * q) :
    (∃ y1, turnStep exact exactTests y (sgnImag exactTests y) q t = (y1, none)) ∨
    ∃ q1, turnStep exact exactTests y (sgnImag exactTests y) q t =
        (y * t, some (sgnImag exactTests (y * t), q1)) ∧
      (sgnImag exactTests (y * t) ≠ 0 → S + t.arg = (y * t).arg + 2 * Real.pi * q1) := by
  unfold turnStep
  rw [if_neg hsy]
  by_cases hst : sgnImag exactTests t = 0
  · left; exact ⟨_, by simp only; rw [if_pos hst]⟩
  · right
    have hpi := Real.pi_pos
    obtain ⟨k, hk⟩ := arg_mul_exists hy ht
    obtain ⟨a1, a2⟩ := sgnImag_arg hsy
    obtain ⟨b1, b2⟩ := sgnImag_arg hst
    have ay := neg_pi_lt_arg y
    have at' := neg_pi_lt_arg t
    have az := neg_pi_lt_arg (y * t)
    have az2 := arg_le_pi (y * t)
    -- `k` from bounds
    have kval : ∀ c : Int, (c - 1 : ℝ) < k → (k : ℝ) < c + 1 → k = c := by
      intro c h1 h2
      have h1' : c - 1 < k := by exact_mod_cast h1
      have h2' : k < c + 1 := by exact_mod_cast h2
      omega
    have hmul : exact.mul y t = y * t := rfl
    simp only [hmul]
    rw [if_neg hst]
    by_cases heq : sgnImag exactTests y = sgnImag exactTests t
    · rw [if_pos heq]
      by_cases hne : sgnImag exactTests (y * t) ≠ sgnImag exactTests t
      · rw [if_pos hne]
        by_cases hpos : sgnImag exactTests t > 0
        · rw [if_pos hpos]
          refine ⟨q + 1, rfl, fun h => ?_⟩
          obtain ⟨c1, c2⟩ := sgnImag_arg h
          have bt : 0 ≤ t.arg := by rcases b2 with b | b; exact b.2; omega
          have by' : 0 ≤ y.arg := by rcases a2 with a | a; exact a.2; omega
          have cz : (y * t).arg < 0 := by
            rcases c2 with c | c
            · exfalso; rcases b2 with b | b
              · exact hne (by rw [c.1, b.1])
              · omega
            · exact c.2
          have : k = 1 := by
            have := kval 1 (by
              push_cast; by_contra hcon
              have : (k : ℝ) ≤ 0 := by linarith
              nlinarith) (by
              push_cast; by_contra hcon
              have : (2 : ℝ) ≤ k := by linarith
              nlinarith)
            exact this
          subst this
          push_cast at hk ⊢
          linarith
        · rw [if_neg hpos]
          refine ⟨q - 1, rfl, fun h => ?_⟩
          obtain ⟨c1, c2⟩ := sgnImag_arg h
          have bt : t.arg < 0 := by rcases b2 with b | b; omega; exact b.2
          have by' : y.arg < 0 := by rcases a2 with a | a; omega; exact a.2
          have cz : 0 ≤ (y * t).arg := by
            rcases c2 with c | c
            · exact c.2
            · exfalso; rcases b2 with b | b
              · omega
              · exact hne (by rw [c.1, b.1])
          have : k = -1 := by
            have := kval (-1) (by
              push_cast; by_contra hcon
              have : (k : ℝ) ≤ -2 := by linarith
              nlinarith) (by
              push_cast; by_contra hcon
              have : (0 : ℝ) ≤ k := by linarith
              nlinarith)
            exact this
          subst this
          push_cast at hk ⊢
          linarith
      · rw [if_neg hne]
        push Not at hne
        refine ⟨q, rfl, fun h => ?_⟩
        obtain ⟨c1, c2⟩ := sgnImag_arg h
        have : k = 0 := by
          refine kval 0 ?_ ?_ <;> push_cast <;> by_contra hcon
          · have : (k : ℝ) ≤ -1 := by linarith
            rcases a2 with a | a <;> rcases b2 with b | b <;> rcases c2 with c | c <;>
              first | (exfalso; omega) | nlinarith
          · have : (1 : ℝ) ≤ k := by linarith
            rcases a2 with a | a <;> rcases b2 with b | b <;> rcases c2 with c | c <;>
              first | (exfalso; omega) | nlinarith
        subst this
        push_cast at hk
        linarith
    · rw [if_neg heq]
      refine ⟨q, rfl, fun h => ?_⟩
      have : k = 0 := by
        refine kval 0 ?_ ?_ <;> push_cast <;> by_contra hcon
        · have : (k : ℝ) ≤ -1 := by linarith
          rcases a2 with a | a <;> rcases b2 with b | b <;>
            first | (exfalso; omega) | nlinarith
        · have : (1 : ℝ) ≤ k := by linarith
          rcases a2 with a | a <;> rcases b2 with b | b <;>
            first | (exfalso; omega) | nlinarith
      subst this
      push_cast at hk
      linarith

theorem turnLoop_none {A : Type} (X : Arith A) (T : Tests A) (sz : Nat) (u : Nat → A) (d1 : Nat) (x y : A) :
    ∀ cnt k, turnLoop X T sz u d1 x cnt k (y, none) = .ok (y, none)
  | 0, _ => rfl
  | _ + 1, _ => rfl

/-- the loop: failure, or the product together with its winding -/
theorem turnLoop_spec {sz : Nat} (u : Nat → ℂ) (d1 : Nat) (x : ℂ) :
    ∀ (cnt k : Nat) (y : ℂ) (q : Int) (S : ℝ), k + cnt ≤ sz → y ≠ 0 →
      (∀ i, k ≤ i → i < k + cnt → sgnFactor u d1 x i ≠ 0) →
      (sgnImag exactTests y ≠ 0 → S = y.arg + 2 * Real.pi * q) →
      (∃ y1, turnLoop exact exactTests sz u d1 x cnt k (y, some (sgnImag exactTests y, q)) = .ok (y1, none)) ∨
      ∃ z q1, turnLoop exact exactTests sz u d1 x cnt k (y, some (sgnImag exactTests y, q)) =
          .ok (z, some (sgnImag exactTests z, q1)) ∧
        z = y * ∏ i ∈ Finset.Ico k (k + cnt), sgnFactor u d1 x i ∧
        (cnt = 0 → q1 = q) ∧
        (sgnImag exactTests z ≠ 0 →
          S + ∑ i ∈ Finset.Ico k (k + cnt), (sgnFactor u d1 x i).arg = z.arg + 2 * Real.pi * q1)
  | 0, k, y, q, S, _, _, _, hS => Or.inr ⟨y, q, rfl, by simp, fun _ => rfl, by simpa using hS⟩
  | cnt + 1, k, y, q, S, hsz, hy, hne, hS => by
    have hk : k < sz := by omega
    have ht := hne k le_rfl (by omega)
    have hstep : turnLoop exact exactTests sz u d1 x (cnt + 1) k (y, some (sgnImag exactTests y, q))
        = turnLoop exact exactTests sz u d1 x cnt (k + 1)
          (turnStep exact exactTests y (sgnImag exactTests y) q (sgnFactor u d1 x k)) := by
      simp only [turnLoop, factorAt_exact u d1 x hk, Res.ok_bind]
    rw [hstep]
    by_cases hsy : sgnImag exactTests y = 0
    · left
      refine ⟨y, ?_⟩
      rw [turnStep, if_pos hsy, turnLoop_none]
    rcases turnStep_inv hy ht hsy (hS hsy) with ⟨y1, e⟩ | ⟨q1, e, hq⟩
    · left; exact ⟨y1, by rw [e, turnLoop_none]⟩
    · rw [e]
      rcases turnLoop_spec (sz := sz) u d1 x cnt (k + 1) (y * sgnFactor u d1 x k) q1 (S + (sgnFactor u d1 x k).arg)
        (by omega) (mul_ne_zero hy ht) (fun i h1 h2 => hne i (by omega) (by omega)) hq with h | ⟨z, q2, e2, hz, h0, h3⟩
      · left; exact h
      · right
        refine ⟨z, q2, e2, ?_, fun h => absurd h (Nat.succ_ne_zero cnt), fun h => ?_⟩
        · rw [hz, mul_assoc, show k + 1 + cnt = k + (cnt + 1) by omega,
            Finset.prod_eq_prod_Ico_succ_bot (show k < k + (cnt + 1) by omega)]
        · rw [← h3 h, show k + 1 + cnt = k + (cnt + 1) by omega,
            Finset.sum_eq_sum_Ico_succ_bot (show k < k + (cnt + 1) by omega)]
          ring

theorem prodTurn_spec {sz : Nat} (u : Nat → ℂ) {d1 d : Nat} (hd : 1 ≤ d) (hsz : d ≤ sz) (x : ℂ)
    (hne : ∀ i < d, u i ≠ x) :
    (∃ y, prodTurn exact exactTests sz u d1 d x = .ok (y, none)) ∨
    ∃ y q, prodTurn exact exactTests sz u d1 d x = .ok (y, some q) ∧
      y = ∏ i ∈ Finset.range d, sgnFactor u d1 x i ∧
      (d = 1 ∨ sgnImag exactTests y ≠ 0 →
        ∑ i ∈ Finset.range d, (sgnFactor u d1 x i).arg = y.arg + 2 * Real.pi * q) := by
  have hne' : ∀ i < d, sgnFactor u d1 x i ≠ 0 := by
    intro i hi
    unfold sgnFactor
    split
    · exact sub_ne_zero.2 (hne i hi)
    · exact sub_ne_zero.2 (hne i hi).symm
  have h0 : (if d1 = 0 then exact.neg (exact.sub (u 0) x) else exact.sub (u 0) x) = sgnFactor u d1 x 0 := by
    unfold sgnFactor
    by_cases h : d1 = 0
    · rw [if_pos h, if_neg (by omega)]
      show -(u 0 - x) = x - u 0
      ring
    · rw [if_neg h, if_pos (by omega)]; rfl
  unfold prodTurn
  rw [rdV_ok (show 0 < sz by omega), Res.ok_bind]
  simp only [h0]
  rcases turnLoop_spec (sz := sz) u d1 x (d - 1) 1 (sgnFactor u d1 x 0) 0 (sgnFactor u d1 x 0).arg (by omega)
    (hne' 0 (by omega)) (fun i _ h2 => hne' i (by omega)) (by intro _; simp) with ⟨y1, e⟩ | ⟨z, q, e, hz, hq0, hq⟩
  · left; exact ⟨y1, by rw [e]; rfl⟩
  · right
    refine ⟨z, q, by rw [e]; rfl, ?_, ?_⟩
    · rw [hz, show 1 + (d - 1) = d by omega, Finset.range_eq_Ico,
        Finset.prod_eq_prod_Ico_succ_bot (show 0 < d by omega)]
    · intro h
      rcases h with h | h
      · subst h
        have : q = 0 := hq0 rfl
        subst this
        rw [hz]; simp
      · rw [← hq h, show 1 + (d - 1) = d by omega, Finset.range_eq_Ico,
          Finset.sum_eq_sum_Ico_succ_bot (show 0 < d by omega)]

/-- root of a product from the winding of its factors -/
theorem root_prod {m d : Nat} (f : Nat → ℂ) (hne : ∀ i < d, f i ≠ 0) {y : ℂ}
    (hy : y = ∏ i ∈ Finset.range d, f i) {q : Int}
    (hq : ∑ i ∈ Finset.range d, (f i).arg = y.arg + 2 * Real.pi * q) :
    ∏ i ∈ Finset.range d, exact.root m (f i) = exact.root m y * exact.unitRoot m ^ q := by
  have hy0 : y ≠ 0 := by
    rw [hy, Finset.prod_ne_zero_iff]; exact fun i hi => hne i (Finset.mem_range.1 hi)
  have h1 : ∀ i ∈ Finset.range d, exact.root m (f i) = Complex.exp (Complex.log (f i) * (m : ℂ)⁻¹) := by
    intro i hi
    exact Complex.cpow_def_of_ne_zero (hne i (Finset.mem_range.1 hi)) _
  have h2 : exact.root m y = Complex.exp (Complex.log y * (m : ℂ)⁻¹) := Complex.cpow_def_of_ne_zero hy0 _
  have h3 : exact.unitRoot m ^ q = Complex.exp (q * (2 * Real.pi * Complex.I / m)) := by
    rw [Complex.exp_int_mul]; rfl
  rw [Finset.prod_congr rfl h1, ← Complex.exp_sum, h2, h3, ← Complex.exp_add, ← Finset.sum_mul]
  congr 1
  have h4 : ∑ i ∈ Finset.range d, Complex.log (f i) = Complex.log y + 2 * Real.pi * Complex.I * q := by
    apply Complex.ext
    · simp only [Complex.re_sum, Complex.log_re, Complex.add_re]
      rw [hy, norm_prod, Real.log_prod fun i hi => norm_ne_zero_iff.2 (hne i (Finset.mem_range.1 hi))]
      simp
    · simp only [Complex.im_sum, Complex.log_im, Complex.add_im, hq]
      simp
  rw [h4]
  ring

end Hcp
