import Verif.Model.Intersection
import Verif.Spec.Intersection
import Mathlib.Tactic.Ring
import Mathlib.Tactic.Linarith
import Mathlib.Tactic.LinearCombination

/-! # Characterisation of the loops of `intersections_tree.c` -/

namespace Hcp
open Spec

theorem normShift_lt (s : Int) {m : Nat} (hm : 0 < m) : normShift s m < m := by
  unfold normShift
  have h1 : -(m : Int) < s.tmod m := by
    have := Int.lt_tmod_of_pos s (show (0 : Int) < m by omega); omega
  have h2 := Int.tmod_lt_of_pos (s.tmod m + m) (show (0 : Int) < m by omega)
  omega

theorem normShift_dvd (s : Int) {m : Nat} (hm : 0 < m) : (m : Int) ∣ s - normShift s m := by
  unfold normShift
  have h1 : -(m : Int) < s.tmod m := by
    have := Int.lt_tmod_of_pos s (show (0 : Int) < m by omega); omega
  have h2 : 0 ≤ (s.tmod m + m).tmod m := Int.tmod_nonneg _ (by omega)
  rw [Int.toNat_of_nonneg h2, Int.tmod_def, Int.tmod_def]
  refine ⟨s.tdiv m - 1 + (s - m * s.tdiv m + m).tdiv m, by ring⟩

theorem fillPair_eq (size m i j k s : Nat) (v : Int) (c : IMat) (hi : i + (m - 1) ≤ size)
    (hj : j + (m - 1) ≤ size) (hk : k < m - 1) :
    fillPair size m i j k s v c = .ok fun x y =>
      if (k + s) % m < m - 1 ∧ x = j + (k + s) % m ∧ y = i + k then -v
      else if (k + s) % m < m - 1 ∧ x = i + k ∧ y = j + (k + s) % m then v else c x y := by
  unfold fillPair
  simp only
  by_cases h : (k + s) % m < m - 1
  · rw [if_pos h, wr, if_pos ⟨by omega, by omega⟩, Res.ok_bind, wr, if_pos ⟨by omega, by omega⟩]
    simp [h]
  · rw [if_neg h]; simp [h]

/-- result of `fill_block` from iteration `k` on, on a block off the diagonal -/
def fillOff (m i j sp sm k : Nat) (c : IMat) : IMat := fun x y =>
  if (i ≤ x ∧ x < i + (m - 1) ∧ j ≤ y ∧ y < j + (m - 1)) ∧ k ≤ x - i then
    if y - j = (x - i + sm) % m then -1 else if y - j = (x - i + sp) % m then 1 else c x y
  else if (i ≤ y ∧ y < i + (m - 1) ∧ j ≤ x ∧ x < j + (m - 1)) ∧ k ≤ y - i then
    if x - j = (y - i + sm) % m then 1 else if x - j = (y - i + sp) % m then -1 else c x y
  else c x y

theorem fillLoop_off (size m i j sp sm : Nat) (hij : i + (m - 1) ≤ j) (hj : j + (m - 1) ≤ size) :
    ∀ cnt k c, cnt + k = m - 1 → fillLoop size m i j sp sm cnt k c = .ok (fillOff m i j sp sm k c)
  | 0, k, c, h => by
    rw [fillLoop]
    congr 1
    funext x y
    unfold fillOff
    rw [if_neg (by omega), if_neg (by omega)]
  | cnt + 1, k, c, h => by
    rw [fillLoop, fillPair_eq _ _ _ _ _ _ _ _ (by omega) hj (by omega), Res.ok_bind,
      fillPair_eq _ _ _ _ _ _ _ _ (by omega) hj (by omega), Res.ok_bind,
      fillLoop_off size m i j sp sm hij hj cnt (k + 1) _ (by omega)]
    congr 1
    funext x y
    unfold fillOff
    beta_reduce
    by_cases hxk : x = i + k
    · subst hxk
      have e : i + k - i = k := by omega
      rw [e]
      generalize (k + sp) % m = lp
      generalize (k + sm) % m = lm
      rw [if_neg (by omega)]
      by_cases hb : j ≤ y ∧ y < j + (m - 1)
      · obtain ⟨d, rfl⟩ : ∃ d, y = j + d := ⟨y - j, by omega⟩
        have e2 : j + d - j = d := by omega
        rw [e2, if_neg (by omega), if_neg (by omega), if_neg (c := lp < m - 1 ∧ i + k = j + lp ∧ j + d = i + k)
          (by omega)]
        simp only [true_and, Nat.add_left_cancel_iff]
        rw [if_pos (c := (i ≤ i + k ∧ i + k < i + (m - 1) ∧ j ≤ j + d ∧ j + d < j + (m - 1)) ∧ k ≤ k)
          (by omega)]
        split_ifs <;> first | rfl | omega
      · simp only [true_and]
        rw [if_neg (by omega), if_neg (by omega), if_neg (by omega), if_neg (by omega), if_neg (by omega),
          if_neg (by omega), if_neg (by omega)]
    · by_cases hyk : y = i + k
      · subst hyk
        have e : i + k - i = k := by omega
        rw [e]
        generalize (k + sp) % m = lp
        generalize (k + sm) % m = lm
        rw [if_neg (by omega)]
        by_cases hb : j ≤ x ∧ x < j + (m - 1)
        · obtain ⟨d, rfl⟩ : ∃ d, x = j + d := ⟨x - j, by omega⟩
          have e2 : j + d - j = d := by omega
          rw [e2, if_neg (by omega)]
          simp only [and_true, Nat.add_left_cancel_iff]
          rw [if_neg (c := (i ≤ j + d ∧ j + d < i + (m - 1) ∧ j ≤ i + k ∧ i + k < j + (m - 1)) ∧ k ≤ j + d - i)
            (by omega), if_pos (c := (i ≤ i + k ∧ i + k < i + (m - 1) ∧ j ≤ j + d ∧ j + d < j + (m - 1)) ∧ k ≤ k)
            (by omega)]
          split_ifs <;> first | rfl | omega
        · simp only [and_true]
          rw [if_neg (by omega), if_neg (by omega), if_neg (by omega), if_neg (by omega), if_neg (by omega),
            if_neg (by omega), if_neg (by omega)]
      · simp only [hxk, hyk, false_and, and_false, if_false]
        have e1 : ((i ≤ x ∧ x < i + (m - 1) ∧ j ≤ y ∧ y < j + (m - 1)) ∧ k + 1 ≤ x - i) ↔
          ((i ≤ x ∧ x < i + (m - 1) ∧ j ≤ y ∧ y < j + (m - 1)) ∧ k ≤ x - i) := by omega
        have e2 : ((i ≤ y ∧ y < i + (m - 1) ∧ j ≤ x ∧ x < j + (m - 1)) ∧ k + 1 ≤ y - i) ↔
          ((i ≤ y ∧ y < i + (m - 1) ∧ j ≤ x ∧ x < j + (m - 1)) ∧ k ≤ y - i) := by omega
        simp only [e1, e2]

/-- result of `fill_block(c, i, i, 1, -1, m)` from iteration `k` on -/
def fillDiag (m i k : Nat) (c : IMat) : IMat := fun x y =>
  if i ≤ x ∧ y = x + 1 ∧ y < i + (m - 1) ∧ k ≤ y - i then 1
  else if i ≤ y ∧ x = y + 1 ∧ x < i + (m - 1) ∧ k ≤ x - i then -1
  else c x y

theorem fillLoop_diag (size m i : Nat) (hi : i + (m - 1) ≤ size) (hm : 2 ≤ m) :
    ∀ cnt k c, cnt + k = m - 1 → fillLoop size m i i 1 (m - 1) cnt k c = .ok (fillDiag m i k c)
  | 0, k, c, h => by
    rw [fillLoop]
    congr 1
    funext x y
    unfold fillDiag
    rw [if_neg (by omega), if_neg (by omega)]
  | cnt + 1, k, c, h => by
    have hp : (k + 1) % m = k + 1 := Nat.mod_eq_of_lt (by omega)
    have hmm : (k + (m - 1)) % m = if k = 0 then m - 1 else k - 1 := by
      split
      · subst k; rw [Nat.zero_add]; exact Nat.mod_eq_of_lt (by omega)
      · have : k + (m - 1) = (k - 1) + m := by omega
        rw [this, Nat.add_mod_right]; exact Nat.mod_eq_of_lt (by omega)
    rw [fillLoop, fillPair_eq _ _ _ _ _ _ _ _ hi hi (by omega), Res.ok_bind,
      fillPair_eq _ _ _ _ _ _ _ _ hi hi (by omega), Res.ok_bind,
      fillLoop_diag size m i hi hm cnt (k + 1) _ (by omega)]
    congr 1
    funext x y
    unfold fillDiag
    beta_reduce
    rw [hp, hmm]
    by_cases hk : k = 0
    · subst hk
      simp only [if_true]
      split_ifs <;> first | rfl | omega
    · simp only [hk, if_false]
      split_ifs <;> first | rfl | omega

theorem mod_eq_iff_dvd {m a b s : Nat} {sp : Int} (hb : b < m) (hs : (m : Int) ∣ sp - s) :
    b = (a + s) % m ↔ (m : Int) ∣ ((b : Int) - a) - sp := by
  have h1 : (m : Int) ∣ ((a + s : Nat) : Int) - ((a + s) % m : Nat) := by
    refine ⟨((a + s) / m : Nat), ?_⟩
    have := Nat.div_add_mod (a + s) m
    push_cast at this ⊢
    have h := congrArg (Nat.cast : Nat → Int) this
    push_cast at h
    linarith
  have hlt : (a + s) % m < m := Nat.mod_lt _ (by omega)
  constructor
  · intro h
    obtain ⟨u, hu⟩ := h1
    obtain ⟨v, hv⟩ := hs
    refine ⟨-u - v, ?_⟩
    rw [← h] at hu
    push_cast at hu
    linear_combination -hu - hv
  · rintro ⟨w, hw⟩
    obtain ⟨u, hu⟩ := h1
    obtain ⟨v, hv⟩ := hs
    push_cast at hu
    have hd : (m : Int) ∣ (b : Int) - ((a + s) % m : Nat) := by
      refine ⟨w + v + u, ?_⟩
      push_cast
      linear_combination hw + hv + hu
    have := Int.eq_zero_of_abs_lt_dvd hd (by rw [abs_lt]; omega)
    omega

theorem normShift_one {m : Nat} (hm : 2 ≤ m) : normShift 1 m = 1 := by
  have h1 := normShift_lt 1 (show 0 < m by omega)
  obtain ⟨q, hq⟩ := normShift_dvd 1 (show 0 < m by omega)
  have hd : (m : Int) ∣ 1 - normShift 1 m := ⟨q, hq⟩
  have := Int.eq_zero_of_abs_lt_dvd hd (by rw [abs_lt]; omega)
  omega

theorem normShift_neg_one {m : Nat} (hm : 2 ≤ m) : normShift (-1) m = m - 1 := by
  have h1 := normShift_lt (-1) (show 0 < m by omega)
  obtain ⟨q, hq⟩ := normShift_dvd (-1) (show 0 < m by omega)
  have hd : (m : Int) ∣ -1 - normShift (-1) m + m := ⟨q + 1, by rw [hq]; ring⟩
  have := Int.eq_zero_of_abs_lt_dvd hd (by rw [abs_lt]; omega)
  omega

/-- `fill_block` on a block off the diagonal -/
theorem fillBlock_off {size m i j : Nat} {sp sm : Int} (c : IMat) (hm : 2 ≤ m) (hij : i + (m - 1) ≤ j)
    (hj : j + (m - 1) ≤ size) (hne : ¬ (m : Int) ∣ sp - sm) :
    ∃ c', fillBlock size c i j sp sm m = .ok c' ∧
      (∀ a b, a < m - 1 → b < m - 1 → c (i + a) (j + b) = 0 → c (j + b) (i + a) = 0 →
        c' (i + a) (j + b) = pm m ((b : Int) - a) sp sm ∧ c' (j + b) (i + a) = - pm m ((b : Int) - a) sp sm) ∧
      ∀ x y, ¬ (i ≤ x ∧ x < i + (m - 1) ∧ j ≤ y ∧ y < j + (m - 1)) →
        ¬ (i ≤ y ∧ y < i + (m - 1) ∧ j ≤ x ∧ x < j + (m - 1)) → c' x y = c x y := by
  refine ⟨_, fillLoop_off size m i j _ _ hij hj (m - 1) 0 c rfl, ?_, ?_⟩
  · intro a b ha hb h1 h2
    have hp := mod_eq_iff_dvd (a := a) (show b < m by omega) (normShift_dvd sp (show 0 < m by omega))
    have hq := mod_eq_iff_dvd (a := a) (show b < m by omega) (normShift_dvd sm (show 0 < m by omega))
    have ea : i + a - i = a := by omega
    have eb : j + b - j = b := by omega
    have hexcl : ¬ ((m : Int) ∣ ((b : Int) - a) - sp ∧ (m : Int) ∣ ((b : Int) - a) - sm) := by
      rintro ⟨⟨u, hu⟩, ⟨v, hv⟩⟩
      exact hne ⟨v - u, by linear_combination hv - hu⟩
    unfold fillOff pm
    constructor
    · rw [if_pos (by omega), ea, eb, h1]
      simp only [hp, hq]
      split_ifs <;> first | rfl | (exfalso; tauto)
    · rw [if_neg (by omega), if_pos (by omega), ea, eb, h2]
      simp only [hp, hq]
      split_ifs <;> first | rfl | (exfalso; tauto)
  · intro x y h1 h2
    unfold fillOff
    rw [if_neg (fun h => h1 h.1), if_neg (fun h => h2 h.1)]

/-- `fill_block` on a diagonal block -/
theorem fillBlock_diag {size m i : Nat} (c : IMat) (hm : 2 ≤ m) (hi : i + (m - 1) ≤ size) :
    ∃ c', fillBlock size c i i 1 (-1) m = .ok c' ∧
      (∀ a b, a < m - 1 → b < m - 1 → c (i + a) (i + b) = 0 → c' (i + a) (i + b) = selfNumber a b) ∧
      ∀ x y, ¬ (i ≤ x ∧ x < i + (m - 1) ∧ i ≤ y ∧ y < i + (m - 1)) → c' x y = c x y := by
  unfold fillBlock
  rw [normShift_one hm, normShift_neg_one hm]
  refine ⟨_, fillLoop_diag size m i hi hm (m - 1) 0 c rfl, ?_, ?_⟩
  · intro a b ha hb h
    unfold fillDiag selfNumber
    split_ifs <;> first | rfl | omega
  · intro x y h
    unfold fillDiag
    rw [if_neg (by omega), if_neg (by omega)]

end Hcp
