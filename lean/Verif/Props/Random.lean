import Verif.Model.Random
import Mathlib.Analysis.Complex.Basic
import Mathlib.Tactic.Linarith

/-!
# C70: the random vectors of the library
-/

namespace Hcp

variable {Z B G : Type} {R : RandOps Z B G}

/-- what is assumed of Arb: `MZ`, `MB` give the numbers in a ball; a negative answer of `acb_overlaps` means that the balls have no common number, a negative answer of `arb_contains_zero` that zero is not in
the ball, and the ball of `mag_set_d` radii contains the rectangle -/
structure RandSound (R : RandOps Z B G) (MZ : Z → Set ℂ) (MB : B → Set ℝ) : Prop where
  overlaps : ∀ a b, R.overlaps a b = false → ∀ z ∈ MZ a, z ∉ MZ b
  hasZero : ∀ u, R.hasZero u = false → (0 : ℝ) ∉ MB u
  box : ∀ (p q : ℝ) (z : ℂ), |z.re| ≤ p → |z.im| ≤ q → z ∈ MZ (R.box p q)

theorem randExclude_out {b : Z} : ∀ (fuel : Nat) (s : G) {z : Z} {s' : G}, randExclude R b fuel s = .ok (z, s') → R.overlaps z b = false
  | 0, s, z, s', h => by cases h
  | fuel + 1, s, z, s', h => by
    unfold randExclude at h
    split at h
    · exact randExclude_out fuel _ h
    · rename_i hn
      have e := Res.ok.inj h
      rw [e] at hn
      simpa using hn

theorem randVecU_out {b : Z} (fuel : Nat) : ∀ (len : Nat) (s : G) {zs : List Z} {s' : G}, randVecU R b fuel len s = .ok (zs, s') → zs.length = len ∧ ∀ z ∈ zs, R.overlaps z b = false
  | 0, s, zs, s', h => by
    simp only [randVecU, Res.ok.injEq, Prod.mk.injEq] at h
    obtain ⟨rfl, -⟩ := h
    exact ⟨rfl, fun z hz => by simp at hz⟩
  | len + 1, s, zs, s', h => by
    simp only [randVecU] at h
    cases h1 : randExclude R b fuel s with
    | ok p =>
      obtain ⟨z, s1⟩ := p
      simp only [h1, Res.ok_bind] at h
      cases h2 : randVecU R b fuel len s1 with
      | ok q =>
        obtain ⟨zs1, s2⟩ := q
        simp only [h2, Res.ok_bind, Res.ok.injEq, Prod.mk.injEq] at h
        obtain ⟨rfl, -⟩ := h
        obtain ⟨k1, k2⟩ := randVecU_out fuel len s1 h2
        refine ⟨by simp [k1], fun y hy => ?_⟩
        rcases List.mem_cons.1 hy with rfl | hy
        · exact randExclude_out fuel s h1
        · exact k2 y hy
      | abort w => simp [h2] at h
      | ub w => simp [h2] at h
      | diverge => simp [h2] at h
    | abort w => simp [h1] at h
    | ub w => simp [h1] at h
    | diverge => simp [h1] at h

/-- **C70 (points away from the segment).** When `acb_vec_set_random_u` returns, it has set all `len` balls, and no number of any of them lies in the rectangle `|Re z| ≤ 1 + eps`, `|Im z| ≤ eps` around the segment `[-1, 1]`
(`1 + eps` being the sum computed in doubles). -/
theorem C70_outside {MZ : Z → Set ℂ} {MB : B → Set ℝ} (H : RandSound R MZ MB) (eps : ℝ) (fuel len : Nat) (s : G) {zs : List Z} {s' : G} (h : setRandomU R eps fuel len s = .ok (zs, s')) :
    zs.length = len ∧ ∀ b ∈ zs, ∀ z ∈ MZ b, R.addD 1 eps < |z.re| ∨ eps < |z.im| := by
  obtain ⟨h1, h2⟩ := randVecU_out fuel len s h
  refine ⟨h1, fun b hb z hz => ?_⟩
  by_contra hc
  push Not at hc
  exact H.overlaps _ _ (h2 b hb) z hz (H.box _ _ z hc.1 hc.2)

/-- the state after `k` draws -/
def RandOps.after (R : RandOps Z B G) : Nat → G → G
  | 0, s => s
  | k + 1, s => R.after k (R.draw s).2

/-- **C70 (return).** The function returns for enough rounds if the generator, from every state, sooner or later gives a ball which does not overlap the rectangle. -/
theorem C70_returns (eps : ℝ) (hgen : ∀ s, ∃ k, R.overlaps (R.draw (R.after k s)).1 (R.box (R.addD 1 eps) eps) = false) (len : Nat) (s : G) :
    ∃ F, ∀ fuel, F ≤ fuel → ∃ r, setRandomU R eps fuel len s = .ok r := by
  have one : ∀ s, ∃ r, ∃ F, ∀ fuel, F ≤ fuel → randExclude R (R.box (R.addD 1 eps) eps) fuel s = .ok r := by
    intro s
    obtain ⟨k, hk⟩ := hgen s
    induction k generalizing s with
    | zero =>
      refine ⟨R.draw s, 1, fun fuel hf => ?_⟩
      obtain ⟨f, rfl⟩ : ∃ f, fuel = f + 1 := ⟨fuel - 1, by omega⟩
      exact if_neg (by rw [show R.after 0 s = s from rfl] at hk; rw [hk]; simp)
    | succ k ih =>
      by_cases h0 : R.overlaps (R.draw s).1 (R.box (R.addD 1 eps) eps) = true
      · obtain ⟨r, F, hF⟩ := ih (R.draw s).2 hk
        refine ⟨r, F + 1, fun fuel hf => ?_⟩
        obtain ⟨f, rfl⟩ : ∃ f, fuel = f + 1 := ⟨fuel - 1, by omega⟩
        exact (if_pos h0).trans (hF f (by omega))
      · refine ⟨R.draw s, 1, fun fuel hf => ?_⟩
        obtain ⟨f, rfl⟩ : ∃ f, fuel = f + 1 := ⟨fuel - 1, by omega⟩
        exact if_neg h0
  suffices ∃ r, ∃ F, ∀ fuel, F ≤ fuel → randVecU R (R.box (R.addD 1 eps) eps) fuel len s = .ok r by
    obtain ⟨r, F, hF⟩ := this
    exact ⟨F, fun fuel hf => ⟨r, hF fuel hf⟩⟩
  induction len generalizing s with
  | zero => exact ⟨_, 0, fun _ _ => rfl⟩
  | succ len ih =>
    obtain ⟨r, F, hF⟩ := one s
    obtain ⟨q, F', hF'⟩ := ih r.2
    refine ⟨(r.1 :: q.1, q.2), max F F', fun fuel hf => ?_⟩
    simp only [randVecU, hF fuel (by omega), Res.ok_bind, hF' fuel (by omega)]

theorem drawVec_flag : ∀ (len : Nat) (s : G) (z : Bool), (drawVec R len s z).1.1.length = len ∧ ((drawVec R len s z).1.2 = false → z = false ∨ ∃ u ∈ (drawVec R len s z).1.1, R.hasZero u = false)
  | 0, s, z => ⟨rfl, fun h => Or.inl h⟩
  | len + 1, s, z => by
    obtain ⟨h1, h2⟩ := drawVec_flag len (R.drawR s).2 (if R.hasZero (R.drawR s).1 then z else false)
    refine ⟨congrArg (· + 1) h1, fun h => ?_⟩
    by_cases h0 : R.hasZero (R.drawR s).1 = true
    · rw [if_pos h0] at h2
      simp only [drawVec, h0, if_true] at h ⊢
      rcases h2 h with q | ⟨u, q1, q2⟩
      · exact Or.inl q
      · exact Or.inr ⟨u, by simp [q1], q2⟩
    · exact Or.inr ⟨(R.drawR s).1, List.mem_cons_self, by simpa using h0⟩

/-- **C70 (vectors which are not zero).** When `arb_vec_set_random_nonzero` returns, it has set all `len` balls and at least one of them does not contain zero. -/
theorem C70_nonzero {MZ : Z → Set ℂ} {MB : B → Set ℝ} (H : RandSound R MZ MB) (len : Nat) : ∀ (fuel : Nat) (s : G) {us : List B} {s' : G}, setRandomNonzero R len fuel s = .ok (us, s') →
    us.length = len ∧ ∃ u ∈ us, (0 : ℝ) ∉ MB u
  | 0, s, us, s', h => by cases h
  | fuel + 1, s, us, s', h => by
    simp only [setRandomNonzero] at h
    split at h
    · exact C70_nonzero H len fuel _ h
    · rename_i hn
      simp only [Res.ok.injEq, Prod.mk.injEq] at h
      obtain ⟨rfl, -⟩ := h
      obtain ⟨h1, h2⟩ := drawVec_flag (R := R) len s true
      rcases h2 (by simpa using hn) with q | ⟨u, q1, q2⟩
      · cases q
      · exact ⟨h1, u, q1, H.hasZero u q2⟩

/-- **C70 (empty vectors).** `arb_vec_set_random_nonzero` never returns for `len = 0`. -/
theorem C70_empty_diverges (fuel : Nat) (s : G) : setRandomNonzero R 0 fuel s = .diverge := by
  induction fuel generalizing s with
  | zero => rfl
  | succ fuel ih => exact ih s

/-- exact sets, with a generator giving `0, 1, 2, …`, meet the hypotheses: two numbers outside the rectangle with `eps = 1/2` are found -/
example : ∃ R : RandOps (Set ℂ) (Set ℝ) Nat, RandSound R id id ∧ (∀ s, ∃ k, R.overlaps (R.draw (R.after k s)).1 (R.box (R.addD 1 (1 / 2)) (1 / 2)) = false) ∧
    ∃ us s, setRandomNonzero R 2 1 0 = .ok (us, s) := by
  classical
  let R : RandOps (Set ℂ) (Set ℝ) Nat :=
    { draw := fun s => ({(s : ℂ)}, s + 1)
      drawR := fun s => ({(s : ℝ)}, s + 1)
      overlaps := fun a b => decide (a ∩ b).Nonempty
      hasZero := fun u => decide ((0 : ℝ) ∈ u)
      box := fun p q => {z | |z.re| ≤ p ∧ |z.im| ≤ q}
      addD := fun a b => a + b }
  refine ⟨R, ⟨fun a b h z h1 h2 => ?_, fun u h => by simpa [R] using h, fun p q z h1 h2 => ⟨h1, h2⟩⟩, fun s => ⟨2, ?_⟩, ?_⟩
  · have : ¬ (a ∩ b).Nonempty := by simpa [R] using h
    exact this ⟨z, h1, h2⟩
  · have : (R.draw (R.after 2 s)).1 = {((s + 2 : Nat) : ℂ)} := rfl
    rw [this]
    have hn : ¬ (({((s + 2 : Nat) : ℂ)} : Set ℂ) ∩ R.box (R.addD 1 (1 / 2)) (1 / 2)).Nonempty := by
      rintro ⟨z, hz, h1, h2⟩
      rw [Set.mem_singleton_iff] at hz
      subst hz
      have h3 : |(((s + 2 : Nat) : ℂ)).re| ≤ 1 + 1 / 2 := h1
      rw [Complex.natCast_re, abs_of_nonneg (by positivity)] at h3
      push_cast at h3
      have : (0 : ℝ) ≤ s := by positivity
      linarith
    simpa [R] using hn
  · have hz : R.hasZero (R.drawR 1).1 = false := by simp [R]
    have hd : (drawVec R 2 0 true).1.2 = false := by simp [drawVec, R]
    exact ⟨_, _, if_neg (by rw [hd]; simp)⟩

end Hcp
