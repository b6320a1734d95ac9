import Verif.Model.Golden
import Mathlib.Analysis.SpecificLimits.Basic
import Mathlib.Topology.ContinuousOn
import Mathlib.Tactic.Linarith
import Mathlib.Tactic.FieldSimp
import Mathlib.Order.Interval.Set.UnorderedInterval

/-!
# Golden section (C67, C68)
-/

namespace Hcp
open Set

theorem sqrt5_bounds : (2.236 : ℝ) < Real.sqrt 5 ∧ Real.sqrt 5 < 2.237 :=
  ⟨(Real.lt_sqrt (by norm_num)).2 (by norm_num), (Real.sqrt_lt' (by norm_num)).2 (by norm_num)⟩

theorem gsPhi_inv : 1 / gsPhi = (Real.sqrt 5 - 1) / 2 := by
  have h5 : Real.sqrt 5 * Real.sqrt 5 = 5 := Real.mul_self_sqrt (by norm_num)
  have h0 := Real.sqrt_nonneg 5
  unfold gsPhi
  field_simp
  nlinarith

/-- inverse of the golden ratio -/
noncomputable def gsQ : ℝ := (Real.sqrt 5 - 1) / 2

theorem gsQ_bounds : (0.618 : ℝ) < gsQ ∧ gsQ < 0.6185 := by
  have := sqrt5_bounds
  unfold gsQ
  constructor <;> linarith

theorem gsC_eq (a b : ℝ) : gsC a b = b - (b - a) * gsQ := by
  unfold gsC
  rw [div_eq_mul_one_div, gsPhi_inv, gsQ]

theorem gsD_eq (a b : ℝ) : gsD a b = a + (b - a) * gsQ := by
  unfold gsD
  rw [div_eq_mul_one_div, gsPhi_inv, gsQ]

theorem gs_gap (a b : ℝ) : |gsC a b - gsD a b| = |b - a| * (2 * gsQ - 1) := by
  have := gsQ_bounds
  rw [gsC_eq, gsD_eq, show b - (b - a) * gsQ - (a + (b - a) * gsQ) = -((b - a) * (2 * gsQ - 1)) by ring, abs_neg, abs_mul,
    abs_of_pos (show 0 < 2 * gsQ - 1 by linarith)]

theorem gs_mem (a b : ℝ) : gsC a b ∈ uIcc a b ∧ gsD a b ∈ uIcc a b := by
  have := gsQ_bounds
  rw [gsC_eq, gsD_eq, mem_uIcc, mem_uIcc]
  rcases le_total a b with h | h
  · exact ⟨Or.inl ⟨by nlinarith, by nlinarith⟩, Or.inl ⟨by nlinarith, by nlinarith⟩⟩
  · exact ⟨Or.inr ⟨by nlinarith, by nlinarith⟩, Or.inr ⟨by nlinarith, by nlinarith⟩⟩

theorem goldenLoop_some (f : ℝ → ℝ) : ∀ (fuel : Nat) (a b : ℝ) (evals : List ℝ), |b - a| * gsQ ^ fuel * (2 * gsQ - 1) ≤ gsEps →
    ∃ r, goldenLoop f (fuel + 1) a b evals = some r
  | 0, a, b, evals, h => by
    unfold goldenLoop
    rw [if_neg]
    · exact ⟨_, rfl⟩
    · rw [gs_gap]
      simpa using h
  | fuel + 1, a, b, evals, h => by
    have hq := gsQ_bounds
    unfold goldenLoop
    split_ifs
    · refine goldenLoop_some f fuel _ _ _ ?_
      rw [gsD_eq, show a + (b - a) * gsQ - a = (b - a) * gsQ by ring, abs_mul, abs_of_pos (by linarith : 0 < gsQ)]
      rw [pow_succ] at h
      linarith
    · refine goldenLoop_some f fuel _ _ _ ?_
      rw [gsC_eq, show b - (b - (b - a) * gsQ) = (b - a) * gsQ by ring, abs_mul, abs_of_pos (by linarith : 0 < gsQ)]
      rw [pow_succ] at h
      linarith
    · exact ⟨_, rfl⟩

theorem goldenLoop_mem (f : ℝ → ℝ) {A B : ℝ} : ∀ (fuel : Nat) (a b : ℝ) (evals : List ℝ), uIcc a b ⊆ uIcc A B → (∀ x ∈ evals, x ∈ uIcc A B) →
    ∀ r ev, goldenLoop f fuel a b evals = some (r, ev) → r ∈ uIcc A B ∧ ∀ x ∈ ev, x ∈ uIcc A B
  | 0, _, _, _, _, _, _, _, h => by simp [goldenLoop] at h
  | fuel + 1, a, b, evals, hs, he, r, ev, h => by
    have hm := gs_mem a b
    have he' : ∀ x ∈ evals ++ [gsC a b, gsD a b], x ∈ uIcc A B := by
      intro x hx
      simp only [List.mem_append, List.mem_cons, List.not_mem_nil, or_false] at hx
      rcases hx with hx | rfl | rfl
      · exact he x hx
      · exact hs hm.1
      · exact hs hm.2
    unfold goldenLoop at h
    split_ifs at h
    · exact goldenLoop_mem f fuel _ _ _ ((uIcc_subset_uIcc left_mem_uIcc hm.2).trans hs) he' r ev h
    · exact goldenLoop_mem f fuel _ _ _ ((uIcc_subset_uIcc hm.1 right_mem_uIcc).trans hs) he' r ev h
    · simp only [Option.some.injEq, Prod.mk.injEq] at h
      obtain ⟨rfl, rfl⟩ := h
      refine ⟨hs ?_, he⟩
      rw [mem_uIcc]
      rcases le_total a b with g | g
      · exact Or.inl ⟨by linarith, by linarith⟩
      · exact Or.inr ⟨by linarith, by linarith⟩

/-- **C67, all functions.**  Whatever the function, the search ends, after calls at points of the given interval only, and returns a point of this interval. -/
theorem C67_golden_search (f : ℝ → ℝ) (a b : ℝ) :
    ∃ r evals, GoldenSearch f a b r evals ∧ r ∈ uIcc a b ∧ ∀ x ∈ evals, x ∈ uIcc a b := by
  have hq := gsQ_bounds
  obtain ⟨n, hn⟩ := exists_pow_lt_of_lt_one (show 0 < gsEps / (|b - a| + 1) from div_pos (by norm_num [gsEps]) (by positivity)) (by linarith : gsQ < 1)
  have h : |b - a| * gsQ ^ n * (2 * gsQ - 1) ≤ gsEps := by
    rw [lt_div_iff₀ (by positivity)] at hn
    have h0 : 0 ≤ gsQ ^ n := pow_nonneg (by linarith) n
    have h1 : 0 ≤ |b - a| * gsQ ^ n := mul_nonneg (abs_nonneg _) h0
    nlinarith
  obtain ⟨⟨r, ev⟩, hr⟩ := goldenLoop_some f n a b [] h
  exact ⟨r, ev, ⟨_, hr⟩, goldenLoop_mem f _ a b [] subset_rfl (by simp) r ev hr⟩

theorem goldenLoop_min (f : ℝ → ℝ) {x : ℝ} : ∀ (fuel : Nat) (a b : ℝ) (evals : List ℝ), a ≤ x → x ≤ b → StrictAntiOn f (Icc a x) → StrictMonoOn f (Icc x b) →
    ∀ r ev, goldenLoop f fuel a b evals = some (r, ev) → |r - x| * (2 * (2 * gsQ - 1)) ≤ gsEps
  | 0, _, _, _, _, _, _, _, _, _, h => by simp [goldenLoop] at h
  | fuel + 1, a, b, evals, ha, hb, hd, hi, r, ev, h => by
    have hq := gsQ_bounds
    have hab : 0 ≤ b - a := by linarith
    have hcd : gsC a b ≤ gsD a b := by rw [gsC_eq, gsD_eq]; nlinarith
    have hac : a ≤ gsC a b := by rw [gsC_eq]; nlinarith
    have hdb : gsD a b ≤ b := by rw [gsD_eq]; nlinarith
    unfold goldenLoop at h
    split_ifs at h with h1 h2
    · have hx : x ≤ gsD a b := by
        by_contra g
        push Not at g
        have := hd.antitoneOn ⟨hac, by linarith⟩ ⟨by linarith, g.le⟩ hcd
        linarith
      exact goldenLoop_min f fuel _ _ _ ha hx hd (hi.mono (Icc_subset_Icc_right hdb)) r ev h
    · have hx : gsC a b ≤ x := by
        by_contra g
        push Not at g
        have hne : gsC a b < gsD a b := by
          refine lt_of_le_of_ne hcd fun e => ?_
          rw [e, sub_self, abs_zero] at h1
          norm_num [gsEps] at h1
        exact h2 (hi ⟨g.le, by linarith⟩ ⟨by linarith, hdb⟩ hne)
      exact goldenLoop_min f fuel _ _ _ hx hb (hd.mono (Icc_subset_Icc_left hac)) hi r ev h
    · simp only [Option.some.injEq, Prod.mk.injEq] at h
      obtain ⟨rfl, rfl⟩ := h
      rw [gs_gap, not_lt, abs_of_nonneg hab] at h1
      have : |(b + a) / 2 - x| ≤ (b - a) / 2 := by rw [abs_le]; constructor <;> linarith
      nlinarith

/-- **C67, functions with one valley.**  If the function decreases strictly up to a point of the interval and increases strictly after it, the value returned is at distance at most `2.2e-5` of this point: the search finds the minimum. -/
theorem C67_golden_min (f : ℝ → ℝ) (a b x r : ℝ) (evals : List ℝ) (hx : x ∈ Icc a b) (hd : StrictAntiOn f (Icc a x)) (hi : StrictMonoOn f (Icc x b))
    (h : GoldenSearch f a b r evals) : |r - x| ≤ 22 / 1000000 := by
  obtain ⟨fuel, h⟩ := h
  have := goldenLoop_min f fuel a b [] hx.1 hx.2 hd hi r evals h
  have hq := sqrt5_bounds
  have h0 := abs_nonneg (r - x)
  have e : 2 * (2 * gsQ - 1) = 2 * Real.sqrt 5 - 4 := by unfold gsQ; ring
  rw [e] at this
  have e5 : gsEps = 1 / 100000 := rfl
  rw [e5] at this
  nlinarith

/-- a search with a minimum inside the interval -/
example : ∃ r evals, GoldenSearch (fun x => x ^ 2) (-1) 2 r evals ∧ |r - 0| ≤ 22 / 1000000 := by
  obtain ⟨r, ev, h, -⟩ := C67_golden_search (fun x => x ^ 2) (-1) 2
  refine ⟨r, ev, h, C67_golden_min _ _ _ 0 r ev ⟨by norm_num, by norm_num⟩ ?_ ?_ h⟩
  · intro x hx y hy hxy
    have := hx.2; have := hy.2
    show y ^ 2 < x ^ 2
    nlinarith
  · intro x hx y hy hxy
    have := hx.1; have := hy.1
    show x ^ 2 < y ^ 2
    nlinarith

theorem maxLoop_eq (gs : ℝ → ℝ → ℝ) (a h : ℝ) (steps : Nat) : ∀ n k, steps - k = n → 0 < k → maxLoop gs a h steps k (gs a (a + h)) = gs a (a + h)
  | 0, k, hn, _ => by
    unfold maxLoop
    rw [if_neg (by omega)]
  | n + 1, k, hn, hk => by
    unfold maxLoop
    rw [if_pos (by omega)]
    have : (if k = 0 ∨ gs a (a + h) > gs a (a + h) then gs a (a + h) else gs a (a + h)) = gs a (a + h) := by split_ifs <;> rfl
    simp only [this]
    exact maxLoop_eq gs a h steps n (k + 1) (by omega) (Nat.succ_pos k)

/-- what the scan returns: the result of one search on the first of the small intervals -/
theorem maxFuncGs_eq (gs : ℝ → ℝ → ℝ) (a b : ℝ) {steps : Nat} (hs : 0 < steps) : maxFuncGs gs a b steps = gs a (a + (b - a) / steps) := by
  unfold maxFuncGs maxLoop
  rw [if_pos hs]
  simp only [true_or, if_true]
  exact maxLoop_eq gs a _ steps _ 1 rfl Nat.one_pos

/-- **C68 is false, first reading (the maximum of the function).**  For no tolerance is the returned number close to the maximum of all continuous functions. -/
theorem C68_fails_value : ¬ ∃ tol : ℝ, ∀ (f : ℝ → ℝ) (gs : ℝ → ℝ → ℝ) (a b M : ℝ) (steps : Nat), (∀ u v, ∃ ev, GoldenSearch f u v (gs u v) ev) → 0 < steps → a < b → ContinuousOn f (Icc a b) →
    IsGreatest (f '' Icc a b) M → |maxFuncGs gs a b steps - M| ≤ tol := by
  rintro ⟨tol, h⟩
  set f : ℝ → ℝ := fun _ => |tol| + 3 with hf
  have hc : ∀ u v, ∃ r, (∃ ev, GoldenSearch f u v r ev) ∧ r ∈ uIcc u v := by
    intro u v
    obtain ⟨r, ev, h1, h2, -⟩ := C67_golden_search f u v
    exact ⟨r, ⟨ev, h1⟩, h2⟩
  choose gs hgs hmem using hc
  have := h f gs 0 1 (|tol| + 3) 1 hgs Nat.one_pos (by norm_num) continuousOn_const ⟨⟨0, by simp, rfl⟩, by rintro _ ⟨x, -, rfl⟩; exact le_rfl⟩
  rw [maxFuncGs_eq gs 0 1 Nat.one_pos] at this
  have hm := hmem 0 (0 + (1 - 0) / (1 : Nat))
  norm_num [uIcc_of_le] at hm this
  have h1 := le_abs_self tol
  rw [abs_le] at this
  linarith [this.1]

/-- **C68 is false, second reading (the place of the maximum).**  On `[0, 2]` in two steps, for a continuous function with a single maximum at `2`, the returned number is at most `1`. -/
theorem C68_fails_place : ∃ f : ℝ → ℝ, Continuous f ∧ (∀ x ∈ Icc (0 : ℝ) 2, x ≠ 2 → f x < f 2) ∧
    ∀ gs : ℝ → ℝ → ℝ, (∀ u v, ∃ ev, GoldenSearch f u v (gs u v) ev) → maxFuncGs gs 0 2 2 ≤ 22 / 1000000 := by
  refine ⟨fun x => x, continuous_id, fun x hx hne => lt_of_le_of_ne hx.2 hne, fun gs h => ?_⟩
  rw [maxFuncGs_eq gs 0 2 (by norm_num)]
  obtain ⟨ev, hev⟩ := h 0 (0 + (2 - 0) / (2 : Nat))
  have e : (0 : ℝ) + (2 - 0) / (2 : Nat) = 1 := by norm_num
  rw [e] at hev ⊢
  have := C67_golden_min _ 0 1 0 _ ev ⟨le_rfl, by norm_num⟩ (by
    intro x hx y hy hxy
    have h1 := hx.1; have h2 := hy.2
    linarith) (fun x _ y _ hxy => hxy) hev
  rw [sub_zero] at this
  exact (le_abs_self _).trans this

/-- **C68, what remains true.**  For any number of steps the returned number is the result of the search of a minimum on the first of the small intervals; it belongs to this interval, and does not depend on the function elsewhere. -/
theorem C68_max_func_partial (f : ℝ → ℝ) (gs : ℝ → ℝ → ℝ) (a b : ℝ) (steps : Nat) (h : ∀ u v, ∃ ev, GoldenSearch f u v (gs u v) ev) (hs : 0 < steps) :
    maxFuncGs gs a b steps ∈ uIcc a (a + (b - a) / steps) ∧ ∃ evals, GoldenSearch f a (a + (b - a) / steps) (maxFuncGs gs a b steps) evals := by
  rw [maxFuncGs_eq gs a b hs]
  obtain ⟨ev, fuel, hev⟩ := h a (a + (b - a) / steps)
  exact ⟨(goldenLoop_mem f fuel _ _ [] subset_rfl (by simp) _ ev hev).1, ev, fuel, hev⟩

end Hcp
