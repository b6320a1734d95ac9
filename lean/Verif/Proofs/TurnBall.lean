import Verif.Proofs.Turn
import Verif.Spec.TurnBall

/-! # The turning number of `acb_prod_turn` on balls -/

namespace Hcp
open Complex Spec

variable {A : Type} {X : Arith A} {R : A → ℂ → Prop} {T : Tests A}

/-- position of a ball whose sign is not 0 -/
theorem sgnImag_ball (hT : SoundTests T R) (hI : RealPoint T R) {a : A} (h : sgnImag T a ≠ 0) :
    (T.imHasZero a = false ∧ T.imSgn a = 1 ∧ sgnImag T a = 1 ∧ ∀ z, R a z → 0 < z.im ∧ 0 < z.arg ∧ z.arg < Real.pi) ∨
    (T.imHasZero a = false ∧ T.imSgn a = -1 ∧ sgnImag T a = -1 ∧ ∀ z, R a z → z.im < 0 ∧ z.arg < 0) ∨
    (T.imHasZero a = true ∧ T.reNonneg a = true ∧ sgnImag T a = 1 ∧ (∀ z, R a z → 0 ≤ z.re ∧ -(Real.pi / 2) ≤ z.arg ∧ z.arg ≤ Real.pi / 2) ∧
      ∃ w, R a w ∧ w.im = 0 ∧ 0 ≤ w.re) ∨ (∀ z, ¬ R a z) := by
  by_cases hne : ∃ z, R a z
  swap
  · exact Or.inr (Or.inr (Or.inr fun z hz => hne ⟨z, hz⟩))
  obtain ⟨z0, hz0⟩ := hne
  rcases hz : T.imHasZero a with _ | _
  · obtain ⟨h1, h2⟩ := hT.imSgn hz0 hz
    have hs : sgnImag T a = T.imSgn a := by unfold sgnImag; rw [hz]; rfl
    rcases lt_or_gt_of_ne h2 with h3 | h3
    · right; left
      have h4 : T.imSgn a = -1 := by rw [h1, sign_neg h3]; rfl
      refine ⟨rfl, h4, hs.trans h4, fun z hR => ?_⟩
      obtain ⟨k1, k2⟩ := hT.imSgn hR hz
      have : z.im < 0 := by
        rcases lt_or_gt_of_ne k2 with k3 | k3
        · exact k3
        · rw [h4, sign_pos k3] at k1
          exact absurd k1 (by decide)
      exact ⟨this, arg_neg_iff.2 this⟩
    · left
      have h4 : T.imSgn a = 1 := by rw [h1, sign_pos h3]; rfl
      refine ⟨rfl, h4, hs.trans h4, fun z hR => ?_⟩
      obtain ⟨k1, k2⟩ := hT.imSgn hR hz
      have : 0 < z.im := by
        rcases lt_or_gt_of_ne k2 with k3 | k3
        · rw [h4, sign_neg k3] at k1
          exact absurd k1 (by decide)
        · exact k3
      refine ⟨this, ?_, arg_lt_pi_iff.2 (Or.inr this.ne')⟩
      refine lt_of_le_of_ne (arg_nonneg_iff.2 this.le) fun h0 => ?_
      exact this.ne' (arg_eq_zero_iff.1 h0.symm).2
  · right; right; left
    rcases hr : T.reNonneg a with _ | _
    · exfalso
      apply h
      unfold sgnImag
      rw [hz, hr]
      rfl
    · refine ⟨rfl, rfl, by unfold sgnImag; rw [hz, hr]; rfl, fun z hR => ?_, ?_⟩
      · have := hT.reNonneg hR hr
        have h2 := abs_le.1 (abs_arg_le_pi_div_two_iff.2 this)
        exact ⟨this, h2⟩
      · obtain ⟨w, h1, h2⟩ := hI a hz
        exact ⟨w, h1, h2, hT.reNonneg h1 hr⟩

/-- one step keeps `sum of arguments = arg(y) + 2 pi q` for the numbers in the balls -/
theorem turnStep_ball (hT : SoundTests T R) (hI : RealPoint T R) (hmul : ∀ {a b c d}, R a b → R c d → R (X.mul a c) (b * d)) {y t : A} {y' t' : ℂ}
    (hy : R y y') (ht : R t t') (hy0 : y' ≠ 0) (ht0 : t' ≠ 0)
    (hN : T.imHasZero y = false → T.imHasZero t = false → T.imSgn y = T.imSgn t → T.imHasZero (X.mul y t) = true → T.reNonneg (X.mul y t) = false)
    {q : Int} {S : ℝ} (hsy : sgnImag T y ≠ 0) (hS : S = y'.arg + 2 * Real.pi * q) :
    (∃ y1, turnStep X T y (sgnImag T y) q t = (y1, none)) ∨
    ∃ q1, turnStep X T y (sgnImag T y) q t = (X.mul y t, some (sgnImag T (X.mul y t), q1)) ∧
      (sgnImag T (X.mul y t) ≠ 0 → S + t'.arg = (y' * t').arg + 2 * Real.pi * q1) := by
  unfold turnStep
  rw [if_neg hsy]
  by_cases hst : sgnImag T t = 0
  · left; exact ⟨_, by simp only; rw [if_pos hst]⟩
  right
  have hpi := Real.pi_pos
  have hz := hmul hy ht
  obtain ⟨k, hk⟩ := arg_mul_exists hy0 ht0
  have ay := neg_pi_lt_arg y'
  have at' := neg_pi_lt_arg t'
  have az := neg_pi_lt_arg (y' * t')
  have az2 := arg_le_pi (y' * t')
  have kval : ∀ c : Int, (c - 1 : ℝ) < k → (k : ℝ) < c + 1 → k = c := by
    intro c h1 h2
    have h1' : c - 1 < k := by exact_mod_cast h1
    have h2' : k < c + 1 := by exact_mod_cast h2
    omega
  have kc : ∀ c : Int, (2 * Real.pi * (c - 1) < y'.arg + t'.arg - (y' * t').arg) → (y'.arg + t'.arg - (y' * t').arg < 2 * Real.pi * (c + 1)) →
      y'.arg + t'.arg = (y' * t').arg + 2 * Real.pi * c := by
    intro c h1 h2
    have : k = c := by
      refine kval c ?_ ?_
      · rw [hk] at h1
        have : 2 * Real.pi * (c - 1) < 2 * Real.pi * k := by linarith
        exact lt_of_mul_lt_mul_left this (by positivity)
      · rw [hk] at h2
        have : 2 * Real.pi * (k : ℝ) < 2 * Real.pi * (c + 1) := by linarith
        exact lt_of_mul_lt_mul_left this (by positivity)
    rw [← this]
    exact hk
  simp only
  rw [if_neg hst]
  have hre : ∀ w : ℂ, w.re < 0 → R (X.mul y t) w → T.imHasZero (X.mul y t) = true → sgnImag T (X.mul y t) = 0 := by
    intro w h1 h2 h3
    unfold sgnImag
    rw [h3]
    rcases h4 : T.reNonneg (X.mul y t) with _ | _
    · rfl
    · exact absurd (hT.reNonneg h2 h4) (not_le.2 h1)
  rcases sgnImag_ball hT hI hsy with ⟨p1, p2, p3, p4⟩ | ⟨p1, p2, p3, p4⟩ | ⟨p1, p2, p3, p4, w, p5, p6, p7⟩ | p4
  · -- `y` strictly above
    obtain ⟨p5, p6, p7⟩ := p4 _ hy
    rcases sgnImag_ball hT hI hst with ⟨r1, r2, r3, r4⟩ | ⟨r1, r2, r3, r4⟩ | ⟨r1, r2, r3, r4, w, r5, r6, r7⟩ | r4
    · obtain ⟨r5, r6, r7⟩ := r4 _ ht
      rw [p3, r3, if_pos rfl]
      by_cases h1 : sgnImag T (X.mul y t) ≠ 1
      · rw [if_pos h1, if_pos (by norm_num)]
        refine ⟨q + 1, rfl, fun h => ?_⟩
        rcases sgnImag_ball hT hI h with ⟨_, _, s3, _⟩ | ⟨_, _, _, s4⟩ | ⟨_, _, s3, _⟩ | s4
        · exact absurd s3 h1
        · have := (s4 _ hz).2
          have := kc 1 (by push_cast; linarith) (by push_cast; linarith)
          push_cast at this ⊢
          linarith
        · exact absurd s3 h1
        · exact absurd hz (s4 _)
      · rw [if_neg h1]
        refine ⟨q, rfl, fun h => ?_⟩
        rcases sgnImag_ball hT hI h with ⟨_, _, _, s4⟩ | ⟨_, _, s3, _⟩ | ⟨s1, s2, _⟩ | s4
        · have := (s4 _ hz).2
          have := kc 0 (by push_cast; linarith) (by push_cast; linarith)
          push_cast at this
          linarith
        · exact absurd (by rw [s3]; decide) h1
        · rw [hN p1 r1 (p2.trans r2.symm) s1] at s2
          cases s2
        · exact absurd hz (s4 _)
    · obtain ⟨r5, r6⟩ := r4 _ ht
      rw [p3, r3, if_neg (by decide)]
      refine ⟨q, rfl, fun h => ?_⟩
      have := kc 0 (by push_cast; linarith) (by push_cast; linarith)
      push_cast at this
      linarith
    · obtain ⟨c1, c2, c3⟩ := r4 _ ht
      rw [p3, r3, if_pos rfl]
      have hnl : sgnImag T (X.mul y t) ≠ 0 → sgnImag T (X.mul y t) = 1 := by
        intro h
        rcases sgnImag_ball hT hI h with ⟨_, _, s3, _⟩ | ⟨_, _, _, s4⟩ | ⟨_, _, s3, _⟩ | s4
        · exact s3
        · have h2 := (s4 _ (hmul hy r5)).1
          rw [mul_im, r6, mul_zero, zero_add] at h2
          exact absurd h2 (not_lt.2 (mul_nonneg p5.le r7))
        · exact s3
        · exact absurd hz (s4 _)
      by_cases h1 : sgnImag T (X.mul y t) ≠ 1
      · rw [if_pos h1, if_pos (by norm_num)]
        exact ⟨q + 1, rfl, fun h => absurd (hnl h) h1⟩
      · rw [if_neg h1]
        refine ⟨q, rfl, fun h => ?_⟩
        have hlow : -(Real.pi / 2) ≤ (y' * t').arg := by
          rcases sgnImag_ball hT hI h with ⟨_, _, _, s4⟩ | ⟨_, _, s3, _⟩ | ⟨_, _, _, s4, _⟩ | s4
          · have := (s4 _ hz).2.1
            linarith
          · exact absurd (by rw [s3]; decide) h1
          · exact (s4 _ hz).2.1
          · exact absurd hz (s4 _)
        have := kc 0 (by push_cast; linarith) (by push_cast; linarith)
        push_cast at this
        linarith
    · exact absurd ht (r4 _)
  · obtain ⟨p5, p6⟩ := p4 _ hy
    rcases sgnImag_ball hT hI hst with ⟨r1, r2, r3, r4⟩ | ⟨r1, r2, r3, r4⟩ | ⟨r1, r2, r3, r4, w, r5, r6, r7⟩ | r4
    · obtain ⟨r5, r6, r7⟩ := r4 _ ht
      rw [p3, r3, if_neg (by decide)]
      refine ⟨q, rfl, fun h => ?_⟩
      have := kc 0 (by push_cast; linarith) (by push_cast; linarith)
      push_cast at this
      linarith
    · obtain ⟨r5, r6⟩ := r4 _ ht
      rw [p3, r3, if_pos rfl]
      by_cases h1 : sgnImag T (X.mul y t) ≠ -1
      · rw [if_pos h1, if_neg (by norm_num)]
        refine ⟨q - 1, rfl, fun h => ?_⟩
        rcases sgnImag_ball hT hI h with ⟨_, _, _, s4⟩ | ⟨_, _, s3, _⟩ | ⟨s1, s2, _⟩ | s4
        · have := (s4 _ hz).2.1
          have := kc (-1) (by push_cast; linarith) (by push_cast; linarith)
          push_cast at this ⊢
          linarith
        · exact absurd s3 h1
        · rw [hN p1 r1 (p2.trans r2.symm) s1] at s2
          cases s2
        · exact absurd hz (s4 _)
      · rw [if_neg h1]
        refine ⟨q, rfl, fun h => ?_⟩
        rcases sgnImag_ball hT hI h with ⟨_, _, s3, _⟩ | ⟨_, _, _, s4⟩ | ⟨_, _, s3, _⟩ | s4
        · exact absurd (by rw [s3]; decide) h1
        · have := (s4 _ hz).2
          have := kc 0 (by push_cast; linarith) (by push_cast; linarith)
          push_cast at this
          linarith
        · exact absurd (by rw [s3]; decide) h1
        · exact absurd hz (s4 _)
    · obtain ⟨c1, c2, c3⟩ := r4 _ ht
      rw [p3, r3, if_neg (by decide)]
      refine ⟨q, rfl, fun h => ?_⟩
      have hk0 : -Real.pi < y'.arg + t'.arg := by
        by_contra hcon
        push Not at hcon
        have e1 := kc (-1) (by push_cast; linarith) (by push_cast; linarith)
        push_cast at e1
        have h2 : Real.pi / 2 < |(y' * t').arg| := by
          rw [abs_of_pos (by linarith)]
          linarith
        have h3 : (y' * t').re < 0 := by
          by_contra h4
          exact absurd (abs_arg_le_pi_div_two_iff.2 (not_lt.1 h4)) (not_le.2 h2)
        rcases hz1 : T.imHasZero (X.mul y t) with _ | _
        · have g1 := (hT.imSgn hz hz1).1
          have g2 := hT.imSgn (hmul hy r5) hz1
          have g3 : 0 ≤ (y' * t').im := arg_nonneg_iff.1 (by linarith)
          have g4 : (y' * w).im ≤ 0 := by
            rw [mul_im, r6, mul_zero, zero_add]
            exact mul_nonpos_of_nonpos_of_nonneg p5.le r7
          have g5 : 0 < (y' * t').im := lt_of_le_of_ne g3 (hT.imSgn hz hz1).2.symm
          have g6 : (y' * w).im < 0 := lt_of_le_of_ne g4 g2.2
          rw [g2.1, sign_neg g6, sign_pos g5] at g1
          exact absurd g1 (by decide)
        · exact h (hre _ h3 hz hz1)
      have := kc 0 (by push_cast; linarith) (by push_cast; linarith)
      push_cast at this
      linarith
    · exact absurd ht (r4 _)
  · obtain ⟨c1, c2, c3⟩ := p4 _ hy
    rcases sgnImag_ball hT hI hst with ⟨r1, r2, r3, r4⟩ | ⟨r1, r2, r3, r4⟩ | ⟨r1, r2, r3, r4, v, r5, r6, r7⟩ | r4
    · obtain ⟨r5, r6, r7⟩ := r4 _ ht
      rw [p3, r3, if_pos rfl]
      have hnl : sgnImag T (X.mul y t) ≠ 0 → sgnImag T (X.mul y t) = 1 := by
        intro h
        rcases sgnImag_ball hT hI h with ⟨_, _, s3, _⟩ | ⟨_, _, _, s4⟩ | ⟨_, _, s3, _⟩ | s4
        · exact s3
        · have h2 := (s4 _ (hmul p5 ht)).1
          rw [mul_im, p6, zero_mul, add_zero] at h2
          exact absurd h2 (not_lt.2 (mul_nonneg p7 r5.le))
        · exact s3
        · exact absurd hz (s4 _)
      by_cases h1 : sgnImag T (X.mul y t) ≠ 1
      · rw [if_pos h1, if_pos (by norm_num)]
        exact ⟨q + 1, rfl, fun h => absurd (hnl h) h1⟩
      · rw [if_neg h1]
        refine ⟨q, rfl, fun h => ?_⟩
        have hlow : -(Real.pi / 2) ≤ (y' * t').arg := by
          rcases sgnImag_ball hT hI h with ⟨_, _, _, s4⟩ | ⟨_, _, s3, _⟩ | ⟨_, _, _, s4, _⟩ | s4
          · have := (s4 _ hz).2.1
            linarith
          · exact absurd (by rw [s3]; decide) h1
          · exact (s4 _ hz).2.1
          · exact absurd hz (s4 _)
        have := kc 0 (by push_cast; linarith) (by push_cast; linarith)
        push_cast at this
        linarith
    · obtain ⟨r5, r6⟩ := r4 _ ht
      rw [p3, r3, if_neg (by decide)]
      refine ⟨q, rfl, fun h => ?_⟩
      have hk0 : -Real.pi < y'.arg + t'.arg := by
        by_contra hcon
        push Not at hcon
        have e1 := kc (-1) (by push_cast; linarith) (by push_cast; linarith)
        push_cast at e1
        have h2 : Real.pi / 2 < |(y' * t').arg| := by
          rw [abs_of_pos (by linarith)]
          linarith
        have h3 : (y' * t').re < 0 := by
          by_contra h4
          exact absurd (abs_arg_le_pi_div_two_iff.2 (not_lt.1 h4)) (not_le.2 h2)
        rcases hz1 : T.imHasZero (X.mul y t) with _ | _
        · have g1 := (hT.imSgn hz hz1).1
          have g2 := hT.imSgn (hmul p5 ht) hz1
          have g3 : 0 ≤ (y' * t').im := arg_nonneg_iff.1 (by linarith)
          have g4 : (w * t').im ≤ 0 := by
            rw [mul_im, p6, zero_mul, add_zero]
            exact mul_nonpos_of_nonneg_of_nonpos p7 r5.le
          have g5 : 0 < (y' * t').im := lt_of_le_of_ne g3 (hT.imSgn hz hz1).2.symm
          have g6 : (w * t').im < 0 := lt_of_le_of_ne g4 g2.2
          rw [g2.1, sign_neg g6, sign_pos g5] at g1
          exact absurd g1 (by decide)
        · exact h (hre _ h3 hz hz1)
      have := kc 0 (by push_cast; linarith) (by push_cast; linarith)
      push_cast at this
      linarith
    · obtain ⟨d1, d2, d3⟩ := r4 _ ht
      rw [p3, r3, if_pos rfl]
      have hnl : sgnImag T (X.mul y t) ≠ 0 → sgnImag T (X.mul y t) = 1 := by
        intro h
        rcases sgnImag_ball hT hI h with ⟨_, _, s3, _⟩ | ⟨_, _, _, s4⟩ | ⟨_, _, s3, _⟩ | s4
        · exact s3
        · have h2 := (s4 _ (hmul p5 r5)).1
          rw [mul_im, p6, r6, zero_mul, mul_zero, add_zero] at h2
          exact absurd h2 (lt_irrefl _)
        · exact s3
        · exact absurd hz (s4 _)
      by_cases h1 : sgnImag T (X.mul y t) ≠ 1
      · rw [if_pos h1, if_pos (by norm_num)]
        exact ⟨q + 1, rfl, fun h => absurd (hnl h) h1⟩
      · rw [if_neg h1]
        refine ⟨q, rfl, fun h => ?_⟩
        have hup : (y' * t').arg < Real.pi := by
          rcases sgnImag_ball hT hI h with ⟨_, _, _, s4⟩ | ⟨_, _, s3, _⟩ | ⟨_, _, _, s4, _⟩ | s4
          · exact (s4 _ hz).2.2
          · exact absurd (by rw [s3]; decide) h1
          · have := (s4 _ hz).2.2
            linarith
          · exact absurd hz (s4 _)
        have := kc 0 (by push_cast; linarith) (by push_cast; linarith)
        push_cast at this
        linarith
    · exact absurd ht (r4 _)
  · exact absurd hy (p4 _)

theorem factorAt_ball {sz : Nat} (u : Nat → A) (d1 : Nat) (x : A) {k : Nat} (hk : k < sz) :
    factorAt X sz u d1 x k = .ok (ballFactor X u d1 x k) := by
  unfold factorAt ballFactor
  rw [rdV_ok hk, Res.ok_bind]
  by_cases h : k < d1
  · rw [if_pos h, if_neg (by omega)]
  · rw [if_neg h, if_pos (by omega)]

theorem ballFactor_encl (E : Encloses X exact R) {u : Nat → A} {u' : Nat → ℂ} (hu : ∀ k, R (u k) (u' k)) (d1 : Nat) {x : A} {x' : ℂ} (hx : R x x') (k : Nat) :
    R (ballFactor X u d1 x k) (sgnFactor u' d1 x' k) := by
  unfold ballFactor sgnFactor
  split
  · exact E.sub (hu k) hx
  · have h := E.neg (E.sub (hu k) hx)
    have e : exact.neg (exact.sub (u' k) x') = x' - u' k := neg_sub _ _
    rwa [e] at h

theorem ballProd_encl (E : Encloses X exact R) {u : Nat → A} {u' : Nat → ℂ} (hu : ∀ k, R (u k) (u' k)) (d1 : Nat) {x : A} {x' : ℂ} (hx : R x x') :
    ∀ k : Nat, R (ballProd X u d1 x k) (∏ i ∈ Finset.range (k + 1), sgnFactor u' d1 x' i)
  | 0 => by
    rw [Finset.prod_range_one]
    exact ballFactor_encl E hu d1 hx 0
  | k + 1 => by
    rw [Finset.prod_range_succ]
    exact E.mul (ballProd_encl E hu d1 hx k) (ballFactor_encl E hu d1 hx (k + 1))

/-- the loop: failure, or the product together with its winding -/
theorem turnLoop_ball (E : Encloses X exact R) (hT : SoundTests T R) (hI : RealPoint T R) {sz d1 d : Nat} {u : Nat → A} {u' : Nat → ℂ} (hu : ∀ k, R (u k) (u' k))
    {x : A} {x' : ℂ} (hx : R x x') (hd : d ≤ sz) (hne : ∀ i < d, sgnFactor u' d1 x' i ≠ 0)
    (hN : ∀ k, k + 1 < d → T.imHasZero (ballProd X u d1 x k) = false → T.imHasZero (ballFactor X u d1 x (k + 1)) = false →
      T.imSgn (ballProd X u d1 x k) = T.imSgn (ballFactor X u d1 x (k + 1)) →
      T.imHasZero (ballProd X u d1 x (k + 1)) = true → T.reNonneg (ballProd X u d1 x (k + 1)) = false) :
    ∀ (cnt k : Nat) (q : Int), k + cnt + 1 = d →
      (sgnImag T (ballProd X u d1 x k) ≠ 0 → ∑ i ∈ Finset.range (k + 1), (sgnFactor u' d1 x' i).arg = (∏ i ∈ Finset.range (k + 1), sgnFactor u' d1 x' i).arg + 2 * Real.pi * q) →
      (∃ y1, turnLoop X T sz u d1 x cnt (k + 1) (ballProd X u d1 x k, some (sgnImag T (ballProd X u d1 x k), q)) = .ok (y1, none)) ∨
      ∃ q1, turnLoop X T sz u d1 x cnt (k + 1) (ballProd X u d1 x k, some (sgnImag T (ballProd X u d1 x k), q)) =
          .ok (ballProd X u d1 x (d - 1), some (sgnImag T (ballProd X u d1 x (d - 1)), q1)) ∧ (cnt = 0 → q1 = q) ∧
        (sgnImag T (ballProd X u d1 x (d - 1)) ≠ 0 →
          ∑ i ∈ Finset.range d, (sgnFactor u' d1 x' i).arg = (∏ i ∈ Finset.range d, sgnFactor u' d1 x' i).arg + 2 * Real.pi * q1)
  | 0, k, q, hk, hS => by
    right
    refine ⟨q, ?_, fun _ => rfl, ?_⟩
    · rw [show d - 1 = k by omega]
      rfl
    · rw [show d - 1 = k by omega, show d = k + 1 by omega]
      exact hS
  | cnt + 1, k, q, hk, hS => by
    have hstep : turnLoop X T sz u d1 x (cnt + 1) (k + 1) (ballProd X u d1 x k, some (sgnImag T (ballProd X u d1 x k), q))
        = turnLoop X T sz u d1 x cnt (k + 1 + 1)
          (turnStep X T (ballProd X u d1 x k) (sgnImag T (ballProd X u d1 x k)) q (ballFactor X u d1 x (k + 1))) := by
      simp only [turnLoop, factorAt_ball (X := X) u d1 x (show k + 1 < sz by omega), Res.ok_bind]
    rw [hstep]
    by_cases hsy : sgnImag T (ballProd X u d1 x k) = 0
    · left
      refine ⟨ballProd X u d1 x k, ?_⟩
      rw [turnStep, if_pos hsy, turnLoop_none]
    have hy0 : ∏ i ∈ Finset.range (k + 1), sgnFactor u' d1 x' i ≠ 0 :=
      Finset.prod_ne_zero_iff.2 fun i hi => hne i (by have := Finset.mem_range.1 hi; omega)
    rcases turnStep_ball (X := X) hT hI (fun h1 h2 => E.mul h1 h2) (ballProd_encl E hu d1 hx k) (ballFactor_encl E hu d1 hx (k + 1)) hy0 (hne (k + 1) (by omega))
      (hN k (by omega)) hsy (hS hsy) with ⟨y1, e⟩ | ⟨q1, e, hq⟩
    · left; exact ⟨y1, by rw [e, turnLoop_none]⟩
    · rw [e]
      change sgnImag T (ballProd X u d1 x (k + 1)) ≠ 0 → _ at hq
      rw [← Finset.sum_range_succ, ← Finset.prod_range_succ] at hq
      rcases turnLoop_ball E hT hI hu hx hd hne hN cnt (k + 1) q1 (by omega) hq with h | ⟨q2, e2, -, h3⟩
      · left; exact h
      · right
        exact ⟨q2, e2, fun h => absurd h (Nat.succ_ne_zero cnt), h3⟩

theorem prodTurn_ball (E : Encloses X exact R) (hT : SoundTests T R) (hI : RealPoint T R) {sz d1 d : Nat} {u : Nat → A} {u' : Nat → ℂ} (hu : ∀ k, R (u k) (u' k))
    {x : A} {x' : ℂ} (hx : R x x') (hd0 : 1 ≤ d) (hd : d ≤ sz) (hne : ∀ i < d, u' i ≠ x') (hdec : TurnDecided X T u d1 d x) :
    (∃ y, prodTurn X T sz u d1 d x = .ok (y, none)) ∨
    ∃ y q, prodTurn X T sz u d1 d x = .ok (y, some q) ∧ R y (∏ i ∈ Finset.range d, sgnFactor u' d1 x' i) ∧
      ∑ i ∈ Finset.range d, (sgnFactor u' d1 x' i).arg = (∏ i ∈ Finset.range d, sgnFactor u' d1 x' i).arg + 2 * Real.pi * q := by
  have hne' : ∀ i < d, sgnFactor u' d1 x' i ≠ 0 := by
    intro i hi
    unfold sgnFactor
    split
    · exact sub_ne_zero.2 (hne i hi)
    · exact sub_ne_zero.2 (hne i hi).symm
  have h0 : (if d1 = 0 then X.neg (X.sub (u 0) x) else X.sub (u 0) x) = ballProd X u d1 x 0 := by
    show _ = ballFactor X u d1 x 0
    unfold ballFactor
    by_cases h : d1 = 0
    · rw [if_pos h, if_neg (by omega)]
    · rw [if_neg h, if_pos (by omega)]
  unfold prodTurn
  rw [rdV_ok (show 0 < sz by omega), Res.ok_bind]
  simp only [h0]
  rcases turnLoop_ball E hT hI (d1 := d1) hu hx hd hne' hdec.step (d - 1) 0 0 (by omega) (by simp) with ⟨y1, e⟩ | ⟨q, e, hq0, hq⟩
  · left
    refine ⟨y1, ?_⟩
    rw [show (1 : Nat) = 0 + 1 from rfl] at *
    rw [e]; rfl
  · right
    refine ⟨_, q, by rw [show turnLoop X T sz u d1 x (d - 1) 1 _ = _ from e]; rfl, ?_, ?_⟩
    · have := ballProd_encl E hu d1 hx (d - 1)
      rwa [show d - 1 + 1 = d by omega] at this
    · rcases hdec.last with h | h
      · subst h
        have : q = 0 := hq0 rfl
        subst this
        simp
      · apply hq
        unfold sgnImag
        rcases hz : T.imHasZero (ballProd X u d1 x (d - 1)) with _ | _
        · simp only [Bool.false_eq_true, if_false]
          have h2 := hT.imSgn (ballProd_encl E hu d1 hx (d - 1)) hz
          rw [h2.1]
          intro h3
          have h4 : SignType.sign (∏ i ∈ Finset.range (d - 1 + 1), sgnFactor u' d1 x' i).im = 0 := by
            rcases SignType.trichotomy (SignType.sign (∏ i ∈ Finset.range (d - 1 + 1), sgnFactor u' d1 x' i).im) with h5 | h5 | h5
            · rw [h5] at h3; exact absurd h3 (by decide)
            · exact h5
            · rw [h5] at h3; exact absurd h3 (by decide)
          exact h2.2 (sign_eq_zero_iff.1 h4)
        · rcases h with h | h
          · rw [hz] at h; cases h
          · simp [h]

end Hcp
