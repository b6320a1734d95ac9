import Verif.Spec.Bound
import Mathlib.Algebra.Order.Floor.Ring
import Mathlib.Algebra.Order.Archimedean.Basic
import Mathlib.Algebra.Order.Archimedean.Real.Basic
import Mathlib.Tactic.Linarith
import Mathlib.Tactic.Ring
import Mathlib.Tactic.NormNum
import Mathlib.Tactic.Positivity
import Mathlib.Tactic.FieldSimp

/-!
# C38: bounds obtained by subdivision
-/

namespace Hcp

open Spec

variable {M V : Type} {S : BoundOps M} {F : ℝ → V} {RM : M → V → Prop}

theorem ballAt_in (H : BoundSound S F RM) (step : ℝ) : ∀ (k : Nat) {t : RBall} {x : ℝ}, In x t → In (x + k * step) (ballAt S t step k)
  | 0, t, x, h => by simpa [ballAt] using h
  | k + 1, t, x, h => by
    have := ballAt_in H step k (H.addArf (s := step) h)
    simp only [ballAt]
    convert this using 1
    push_cast
    ring

/-- the balls of a subdivision cover the ball -/
theorem subdivide_covers (H : BoundSound S F RM) {b : RBall} {n : Nat} (hn : 0 < n) (hr : RoundOk S b n) {x : ℝ} (hx : In x b) :
    ∃ k < n, In x (ballAt S (arbSubdivide S b n).1 (arbSubdivide S b n).2 k) := by
  obtain ⟨r0, herr⟩ := hr
  generalize hrr : S.rndD (b.rad / n) = r at *
  generalize hmt : S.rndA (S.rndD (r * (-(n : ℝ) + 1)) + b.mid) = mt at *
  have hsub : arbSubdivide S b n = (⟨mt, S.up r⟩, 2 * r) := by
    simp only [arbSubdivide, hrr, hmt]
  rw [hsub]
  unfold In at hx
  have hx1 := (abs_le.1 hx).1
  have hx2 := (abs_le.1 hx).2
  have hm0 : 0 ≤ max 0 (b.rad - n * r) := le_max_left _ _
  have hm1 : b.rad - n * r ≤ max 0 (b.rad - n * r) := le_max_right _ _
  generalize max 0 (b.rad - n * r) = e at *
  have hn1 : (1 : ℝ) ≤ n := by exact_mod_cast hn
  -- the index
  obtain ⟨k, hk, hkx⟩ : ∃ k < n, |x - ((b.mid - (n - 1) * r) + k * (2 * r))| ≤ r + e := by
    let q : ℤ := ⌊(x - (b.mid - n * r)) / (2 * r)⌋
    have hq1 : (q : ℝ) * (2 * r) ≤ x - (b.mid - n * r) := by
      have := Int.floor_le ((x - (b.mid - n * r)) / (2 * r))
      rwa [le_div_iff₀ (by positivity)] at this
    have hq2 : x - (b.mid - n * r) < (q + 1) * (2 * r) := by
      have := Int.lt_floor_add_one ((x - (b.mid - n * r)) / (2 * r))
      rwa [div_lt_iff₀ (by positivity)] at this
    by_cases hneg : q < 0
    · refine ⟨0, hn, ?_⟩
      have : (q : ℝ) + 1 ≤ 0 := by exact_mod_cast (by omega : q + 1 ≤ 0)
      have h3 : x - (b.mid - n * r) < 0 := lt_of_lt_of_le hq2 (by nlinarith)
      rw [abs_le]
      push_cast
      constructor <;> nlinarith
    · by_cases hbig : (n : ℤ) ≤ q
      · refine ⟨n - 1, by omega, ?_⟩
        have : (n : ℝ) ≤ q := by exact_mod_cast hbig
        have h3 : (n : ℝ) * (2 * r) ≤ x - (b.mid - n * r) := le_trans (by nlinarith) hq1
        rw [abs_le, Nat.cast_sub hn]
        push_cast
        constructor <;> nlinarith
      · refine ⟨q.toNat, by omega, ?_⟩
        have : ((q.toNat : ℕ) : ℝ) = q := by
          have : ((q.toNat : ℤ)) = q := Int.toNat_of_nonneg (by omega)
          exact_mod_cast this
        rw [this, abs_le]
        constructor <;> nlinarith
  refine ⟨k, hk, ?_⟩
  have h0 : In (x - k * (2 * r)) ⟨mt, S.up r⟩ := by
    unfold In
    simp only
    have e1 : x - k * (2 * r) - mt = (x - ((b.mid - (n - 1) * r) + k * (2 * r))) - (mt - (b.mid - (n - 1) * r)) := by ring
    rw [e1]
    refine (abs_sub _ _).trans ?_
    linarith
  have := ballAt_in H (2 * r) k h0
  rwa [sub_add_cancel] at this

theorem boundLoop_sound (H : BoundSound S F RM) (rec : RBall → Res M) (step : ℝ) : ∀ (cnt k : Nat) (t : RBall) (m m' : M),
    (∀ j < cnt, S.f (ballAt S t step j) = none → ∀ m, rec (ballAt S t step j) = .ok m → ∀ x, In x (ballAt S t step j) → RM m (F x)) →
    boundLoop S rec step cnt k t m = .ok m' →
    (∀ v, k ≠ 0 → RM m v → RM m' v) ∧ ∀ j < cnt, ∀ x, In x (ballAt S t step j) → RM m' (F x)
  | 0, k, t, m, m', _, h => by
    cases h
    exact ⟨fun v _ h => h, fun j hj => absurd hj (by omega)⟩
  | cnt + 1, k, t, m, m', hrec, h => by
    have hsplit : ∃ a, (match S.f t with | some a => Res.ok a | none => rec t) = .ok a ∧
        boundLoop S rec step cnt (k + 1) (S.addArf t step) (if k = 0 then a else S.union m a) = .ok m' := by
      cases hf : S.f t with
      | some a =>
        simp only [boundLoop, hf, Res.ok_bind] at h
        exact ⟨a, rfl, h⟩
      | none =>
        simp only [boundLoop, hf, Res.bind_eq_ok] at h
        exact h
    obtain ⟨a, ha, h⟩ := hsplit
    have hval : ∀ x, In x t → RM a (F x) := by
      intro x hx
      cases hf : S.f t with
      | some a' =>
        rw [hf] at ha
        cases ha
        exact H.f hf hx
      | none =>
        rw [hf] at ha
        exact hrec 0 (by omega) hf a ha x hx
    obtain ⟨h1, h2⟩ := boundLoop_sound H rec step cnt (k + 1) _ _ _ (fun j hj => hrec (j + 1) (by omega)) h
    refine ⟨?_, ?_⟩
    · intro v hk hv
      refine h1 v (by omega) ?_
      rw [if_neg hk]
      exact H.unionL hv
    · intro j hj x hx
      cases j with
      | zero =>
        refine h1 _ (by omega) ?_
        split
        · exact hval x hx
        · exact H.unionR (hval x hx)
      | succ j => exact h2 j (by omega) x hx

theorem boundFunc_sound (H : BoundSound S F RM) {b0 : RBall} {n0 : Nat}
    (hr : ∀ b n, Reached S 3 b0 n0 b n → S.special b.rad = false → RoundOk S b n) (depth : Nat) :
    ∀ (b : RBall) (n : Nat) (m0 m : M), Reached S 3 b0 n0 b n → 0 < n → boundFunc S depth b n m0 = .ok m → ∀ x, In x b → RM m (F x) := by
  induction depth with
  | zero => intro b n m0 m _ _ h; cases h
  | succ depth ih =>
    intro b n m0 m hb hn h x hx
    simp only [boundFunc] at h
    split at h
    · cases h
    · rename_i hs
      have hs : S.special b.rad = false := by simpa using hs
      obtain ⟨-, h2⟩ := boundLoop_sound H (fun t => boundFunc S depth t 3 m0) _ n 0 _ _ _
        (fun j hj hf m hm x hx => ih _ 3 m0 m (.part hb hs hj hf) (by omega) hm x hx) h
      obtain ⟨k, hk, hxk⟩ := subdivide_covers H hn (hr b n hb hs) hx
      exact h2 k hk x hxk

/-- **C38 (soundness).** For every function, ball, number of parts, depth and pattern of refinement: if the bounding routine returns, its result is valid for
the values of the function on the whole ball.  The roundings of the subdivisions met are assumed covered by the upward rounding of the radius
(`roundOk_float` gives a sufficient condition). -/
theorem C38_sound (H : BoundSound S F RM) (depth : Nat) (b : RBall) (n : Nat) (m0 m : M) (hn : 0 < n)
    (hr : ∀ b' n', Reached S 3 b n b' n' → S.special b'.rad = false → RoundOk S b' n')
    (h : boundFunc S depth b n m0 = .ok m) : ∀ x, In x b → RM m (F x) :=
  boundFunc_sound H hr depth b n m0 m .start hn h

/-- Roundings with relative errors: doubles with `e`, the sum with `e'`, and an upward rounding of the radius that adds at least `d`. -/
theorem roundOk_float {e e' d : ℝ} {b : RBall} {n : Nat} (hn : 0 < n) (he0 : 0 ≤ e) (he1 : e < 1) (he0' : 0 ≤ e') (hb : 0 < b.rad)
    (hD : ∀ x, |S.rndD x - x| ≤ e * |x|) (hA : ∀ x, |S.rndA x - x| ≤ e' * |x|) (hup : ∀ r, 0 ≤ r → (1 + d) * r ≤ S.up r)
    (hd : (e * (n - 1) + e' * ((1 + e) * (n - 1)) + n * (e / (1 - e))) * S.rndD (b.rad / n) + e' * |b.mid| ≤ d * S.rndD (b.rad / n)) :
    RoundOk S b n := by
  have hn1 : (1 : ℝ) ≤ n := by exact_mod_cast hn
  have hq : 0 < b.rad / n := by positivity
  have h1 := abs_le.1 (hD (b.rad / n))
  rw [abs_of_pos hq] at h1
  have h1a := h1.1
  have h1b := h1.2
  generalize hr : S.rndD (b.rad / n) = r at *
  have hr0 : 0 < r := by nlinarith
  have hrad : b.rad = n * (b.rad / n) := by field_simp
  have hq1 : b.rad / n ≤ r + r * (e / (1 - e)) := by
    have h3 : 0 < 1 - e := by linarith
    have h4 : r + r * (e / (1 - e)) = r / (1 - e) := by field_simp; ring
    rw [h4, le_div_iff₀ h3]
    linarith
  have h2 := hD (r * (-(n : ℝ) + 1))
  have e2 : |r * (-(n : ℝ) + 1)| = r * (n - 1) := by
    rw [abs_mul, abs_of_pos hr0, show (-(n : ℝ) + 1) = -(n - 1) by ring, abs_neg, abs_of_nonneg (by linarith)]
  rw [e2] at h2
  have h3 := hA (S.rndD (r * (-(n : ℝ) + 1)) + b.mid)
  have h2a := abs_le.1 h2
  have h5 : |S.rndD (r * (-(n : ℝ) + 1)) + b.mid| ≤ (1 + e) * (r * (n - 1)) + |b.mid| := by
    refine (abs_add_le _ _).trans ?_
    have : |S.rndD (r * (-(n : ℝ) + 1))| ≤ (1 + e) * (r * (n - 1)) := by
      have h6 := abs_sub_abs_le_abs_sub (S.rndD (r * (-(n : ℝ) + 1))) (r * (-(n : ℝ) + 1))
      rw [e2] at h6
      linarith
    linarith
  have h7 := mul_le_mul_of_nonneg_left h5 he0'
  unfold RoundOk
  simp only [hr]
  refine ⟨hr0, ?_⟩
  have hu := hup r hr0.le
  have hm : max 0 (b.rad - n * r) ≤ n * (e / (1 - e)) * r := by
    apply max_le
    · have : 0 ≤ e / (1 - e) := div_nonneg he0 (by linarith)
      positivity
    · have := mul_le_mul_of_nonneg_left hq1 (by linarith : (0 : ℝ) ≤ n)
      rw [← hrad] at this
      linarith
  have hA2 : |S.rndA (S.rndD (r * (-(n : ℝ) + 1)) + b.mid) - (b.mid - (n - 1) * r)| ≤ e * (r * (n - 1)) + e' * ((1 + e) * (r * (n - 1)) + |b.mid|) := by
    have e3 : S.rndA (S.rndD (r * (-(n : ℝ) + 1)) + b.mid) - (b.mid - (n - 1) * r) =
      (S.rndA (S.rndD (r * (-(n : ℝ) + 1)) + b.mid) - (S.rndD (r * (-(n : ℝ) + 1)) + b.mid)) + (S.rndD (r * (-(n : ℝ) + 1)) - r * (-(n : ℝ) + 1)) := by ring
    rw [e3]
    refine (abs_add_le _ _).trans ?_
    linarith
  nlinarith

/-- **C38 (termination).** The routine never diverges and has no undefined behaviour: it returns or aborts with a message. -/
theorem C38_total (S : BoundOps M) (depth : Nat) : ∀ (b : RBall) (n : Nat) (m0 : M), (∃ m, boundFunc S depth b n m0 = .ok m) ∨
    ∃ w, boundFunc S depth b n m0 = .abort w := by
  have loop : ∀ (rec : RBall → Res M) (step : ℝ), (∀ t, (∃ m, rec t = .ok m) ∨ ∃ w, rec t = .abort w) → ∀ (cnt k : Nat) (t : RBall) (m : M),
      (∃ m', boundLoop S rec step cnt k t m = .ok m') ∨ ∃ w, boundLoop S rec step cnt k t m = .abort w := by
    intro rec step hrec cnt
    induction cnt with
    | zero => intro k t m; exact Or.inl ⟨_, rfl⟩
    | succ cnt ih =>
      intro k t m
      cases hf : S.f t with
      | some a =>
        simp only [boundLoop, hf, Res.ok_bind]
        exact ih _ _ _
      | none =>
        rcases hrec t with ⟨a, ha⟩ | ⟨w, hw⟩
        · simp only [boundLoop, hf, ha, Res.ok_bind]
          exact ih _ _ _
        · right
          simp only [boundLoop, hf, hw]
          exact ⟨w, rfl⟩
  induction depth with
  | zero => intro b n m0; exact Or.inr ⟨_, rfl⟩
  | succ depth ih =>
    intro b n m0
    simp only [boundFunc]
    split
    · exact Or.inr ⟨_, rfl⟩
    · exact loop _ _ (fun t => ih t 3 m0) _ _ _ _

theorem magFunc_sound (H : BoundSound S F RM) {b0 : RBall} {n0 : Nat}
    (hr : ∀ b n, Reached S 5 b0 n0 b n → S.special b.rad = false → RoundOk S b n) (tiny : ℝ → Bool) (depth : Nat) :
    ∀ (b : RBall) (n : Nat) (m0 m : M), Reached S 5 b0 n0 b n → 0 < n → magFunc S tiny depth b n m0 = .ok m → ∀ x, In x b → RM m (F x) := by
  induction depth with
  | zero => intro b n m0 m _ _ h; cases h
  | succ depth ih =>
    intro b n m0 m hb hn h x hx
    simp only [magFunc] at h
    split at h
    · cases h
    · rename_i hs
      simp only [Bool.or_eq_true, not_or, Bool.not_eq_true] at hs
      obtain ⟨-, h2⟩ := boundLoop_sound H (fun t => magFunc S tiny depth t 5 m0) _ n 0 _ _ _
        (fun j hj hf m hm x hx => ih _ 5 m0 m (.part hb hs.1 hj hf) (by omega) hm x hx) h
      obtain ⟨k, hk, hxk⟩ := subdivide_covers H hn (hr b n hb hs.1) hx
      exact h2 k hk x hxk

/-- **C38 (soundness of `mag_func_arb`).** -/
theorem C38_mag_sound (H : BoundSound S F RM) (tiny : ℝ → Bool) (depth : Nat) (b : RBall) (n : Nat) (m0 m : M) (hn : 0 < n)
    (hr : ∀ b' n', Reached S 5 b n b' n' → S.special b'.rad = false → RoundOk S b' n')
    (h : magFunc S tiny depth b n m0 = .ok m) : ∀ x, In x b → RM m (F x) :=
  magFunc_sound H hr tiny depth b n m0 m .start hn h

/-- **C38 (termination of `mag_func_arb`).** When the rounded parts of a ball of radius at least the threshold are at most `q < 1` times as large,
the recursion ends: with enough fuel the routine returns or aborts. -/
theorem C38_mag_total (S : BoundOps M) (tiny : ℝ → Bool) {q c : ℝ} (hq0 : 0 ≤ q) (hq1 : q < 1) (hc : 0 < c) (htiny : ∀ r, r < c → tiny r = true)
    (hshrink : ∀ b n k, 2 ≤ n → tiny b.rad = false → k < n → (ballAt S (arbSubdivide S b n).1 (arbSubdivide S b n).2 k).rad ≤ q * b.rad)
    (b : RBall) (n : Nat) (hn : 2 ≤ n) (m0 : M) :
    ∃ depth, (∃ m, magFunc S tiny depth b n m0 = .ok m) ∨ ∃ w, magFunc S tiny depth b n m0 = .abort w := by
  have loop : ∀ (rec : RBall → Res M) (step : ℝ) (cnt k : Nat) (t : RBall) (m : M),
      (∀ j < cnt, (∃ m, rec (ballAt S t step j) = .ok m) ∨ ∃ w, rec (ballAt S t step j) = .abort w) →
      (∃ m', boundLoop S rec step cnt k t m = .ok m') ∨ ∃ w, boundLoop S rec step cnt k t m = .abort w := by
    intro rec step cnt
    induction cnt with
    | zero => intro k t m _; exact Or.inl ⟨_, rfl⟩
    | succ cnt ih =>
      intro k t m hrec
      cases hf : S.f t with
      | some a =>
        simp only [boundLoop, hf, Res.ok_bind]
        exact ih _ _ _ fun j hj => hrec (j + 1) (by omega)
      | none =>
        rcases hrec 0 (by omega) with ⟨a, ha⟩ | ⟨w, hw⟩
        · simp only [ballAt] at ha
          simp only [boundLoop, hf, ha, Res.ok_bind]
          exact ih _ _ _ fun j hj => hrec (j + 1) (by omega)
        · right
          simp only [ballAt] at hw
          simp only [boundLoop, hf, hw]
          exact ⟨w, rfl⟩
  have main : ∀ (d : Nat) (b : RBall) (n : Nat), 2 ≤ n → q ^ d * b.rad < c →
      (∃ m, magFunc S tiny (d + 1) b n m0 = .ok m) ∨ ∃ w, magFunc S tiny (d + 1) b n m0 = .abort w := by
    intro d
    induction d with
    | zero =>
      intro b n _ hb
      right
      simp only [magFunc]
      rw [if_pos (by rw [htiny _ (by simpa using hb)]; simp)]
      exact ⟨_, rfl⟩
    | succ d ih =>
      intro b n hn hb
      rw [magFunc]
      split
      · exact Or.inr ⟨_, rfl⟩
      · rename_i hs
        simp only [Bool.or_eq_true, not_or, Bool.not_eq_true] at hs
        refine loop _ _ _ _ _ _ fun j hj => ih _ 5 (by omega) ?_
        have h1 := hshrink b n j hn hs.2 hj
        have h2 := mul_le_mul_of_nonneg_left h1 (pow_nonneg hq0 d)
        rw [← mul_assoc, ← pow_succ] at h2
        exact lt_of_le_of_lt h2 hb
  obtain ⟨d, hd⟩ : ∃ d : Nat, q ^ d * b.rad < c := by
    by_cases hb : b.rad ≤ 0
    · exact ⟨0, by rw [pow_zero, one_mul]; linarith⟩
    · obtain ⟨d, hd⟩ := exists_pow_lt_of_lt_one (div_pos hc (not_le.1 hb)) hq1
      exact ⟨d, by rwa [lt_div_iff₀ (not_le.1 hb)] at hd⟩
  exact ⟨d + 1, main d b n hn hd⟩

/-! ## Instances -/

/-- exact arithmetic: `f` is the enclosure `[mid - rad, mid + rad]` of the identity on balls of radius at most 1, unions are hulls -/
noncomputable def exactBound : BoundOps (ℝ × ℝ) where
  rndD := id
  rndA := id
  up := id
  special r := decide (r ≤ 0)
  addArf b s := ⟨b.mid + s, b.rad⟩
  f t := if t.rad ≤ 1 then some (t.mid - t.rad, t.mid + t.rad) else none
  union a b := (min a.1 b.1, max a.2 b.2)

theorem exactBound_sound : BoundSound exactBound id fun m v => m.1 ≤ v ∧ v ≤ m.2 where
  f := by
    intro t m x h hx
    simp only [exactBound] at h
    split at h
    · cases h
      have := abs_le.1 hx
      constructor <;> simp only [id] <;> linarith [this.1, this.2]
    · cases h
  unionL := fun h => ⟨(min_le_left _ _).trans h.1, h.2.trans (le_max_left _ _)⟩
  unionR := fun h => ⟨(min_le_right _ _).trans h.1, h.2.trans (le_max_right _ _)⟩
  addArf := by
    intro t s x h
    unfold In at *
    simpa [exactBound] using h

/-- exact arithmetic satisfies the hypotheses of `C38_mag_total` -/
example (b : RBall) (n k : Nat) (hn : 2 ≤ n) (hb : 0 ≤ b.rad) :
    (ballAt exactBound (arbSubdivide exactBound b n).1 (arbSubdivide exactBound b n).2 k).rad ≤ 1 / 2 * b.rad := by
  have h : ∀ (k : Nat) (t : RBall) (s : ℝ), (ballAt exactBound t s k).rad = t.rad := by
    intro k
    induction k with
    | zero => intro t s; rfl
    | succ k ih => intro t s; rw [ballAt, ih]; rfl
  have hn1 : (2 : ℝ) ≤ n := by exact_mod_cast hn
  rw [h]
  simp only [arbSubdivide, exactBound, id]
  rw [div_le_iff₀ (by linarith)]
  nlinarith

theorem exactBound_round (b : RBall) (n : Nat) (hn : 0 < n) (hs : exactBound.special b.rad = false) : RoundOk exactBound b n := by
  simp only [exactBound, decide_eq_false_iff_not, not_le] at hs
  have hn1 : (0 : ℝ) < n := by exact_mod_cast hn
  refine ⟨by simp only [exactBound, id]; positivity, ?_⟩
  simp only [exactBound, id]
  rw [show b.rad / n * (-(n : ℝ) + 1) + b.mid - (b.mid - (n - 1) * (b.rad / n)) = 0 by ring, abs_zero, mul_div_cancel₀ _ hn1.ne', sub_self,
    max_self]
  simp

/-- Instance of C38: the identity on `[-7, 7]`, cut in two parts of radius 3.5, each of them refused and cut again in three, then once more. -/
example : ∃ m, boundFunc exactBound 4 ⟨0, 7⟩ 2 (0, 0) = .ok m := by
  have hdepth : ∀ (d : Nat) (b : RBall) (n : Nat) (m0 : ℝ × ℝ), 0 < n → 0 < b.rad → b.rad ≤ n * 3 ^ d → ∃ m, boundFunc exactBound (d + 1) b n m0 = .ok m := by
    intro d
    induction d with
    | zero =>
      intro b n m0 hn hb hle
      have hn1 : (0 : ℝ) < n := by exact_mod_cast hn
      simp only [boundFunc]
      rw [if_neg (by simpa [exactBound] using hb)]
      have : ∀ (cnt k : Nat) (t : RBall) (m : ℝ × ℝ), t.rad ≤ 1 →
          ∃ m', boundLoop exactBound (fun t => boundFunc exactBound 0 t 3 m0) (arbSubdivide exactBound b n).2 cnt k t m = .ok m' := by
        intro cnt
        induction cnt with
        | zero => intro k t m _; exact ⟨_, rfl⟩
        | succ cnt ih =>
          intro k t m ht
          have hf : exactBound.f t = some (t.mid - t.rad, t.mid + t.rad) := if_pos ht
          simp only [boundLoop, hf, Res.ok_bind]
          exact ih _ _ _ ht
      refine this _ _ _ _ ?_
      simp only [arbSubdivide, exactBound, id]
      rw [div_le_one hn1]
      simpa using hle
    | succ d ih =>
      intro b n m0 hn hb hle
      have hn1 : (0 : ℝ) < n := by exact_mod_cast hn
      simp only [boundFunc]
      rw [if_neg (by simpa [exactBound] using hb)]
      have : ∀ (cnt k : Nat) (t : RBall) (m : ℝ × ℝ), 0 < t.rad → t.rad ≤ 3 ^ (d + 1) →
          ∃ m', boundLoop exactBound (fun t => boundFunc exactBound (d + 1) t 3 m0) (arbSubdivide exactBound b n).2 cnt k t m = .ok m' := by
        intro cnt
        induction cnt with
        | zero => intro k t m _ _; exact ⟨_, rfl⟩
        | succ cnt ih2 =>
          intro k t m ht0 ht
          cases hf : exactBound.f t with
          | some a =>
            simp only [boundLoop, hf, Res.ok_bind]
            exact ih2 _ _ _ ht0 ht
          | none =>
            obtain ⟨a, ha⟩ := ih t 3 m0 (by omega) ht0 (by rw [pow_succ] at ht; push_cast; linarith)
            simp only [boundLoop, hf, ha, Res.ok_bind]
            exact ih2 _ _ _ ht0 ht
      refine this _ _ _ _ ?_ ?_
      · simp only [arbSubdivide, exactBound, id]; positivity
      · simp only [arbSubdivide, exactBound, id]
        rw [div_le_iff₀ hn1]
        linarith
  exact hdepth 3 ⟨0, 7⟩ 2 _ (by omega) (by norm_num) (by norm_num)

end Hcp
