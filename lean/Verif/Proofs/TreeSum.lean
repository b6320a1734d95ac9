import Mathlib.Algebra.Order.BigOperators.Group.Finset
import Mathlib.Data.Finset.Max

/-! # Dominated multisets have smaller sums -/

namespace Hcp


theorem sum_le_of_dominates {α β W : Type} [DecidableEq α] [DecidableEq β] [AddCommGroup W] [LinearOrder W] [IsOrderedAddMonoid W]
   (f : α → W) (g : β → W) : ∀ (n : Nat) (A : Finset α) (B : Finset β), A.card = n → B.card = n →
    (∀ c, (A.filter (fun x => c ≤ f x)).card ≤ (B.filter (fun x => c ≤ g x)).card) →
    ∑ x ∈ A, f x ≤ ∑ x ∈ B, g x := by
  intro n
  induction n with
  | zero => 
    intro A B hA hB _
    rw [Finset.card_eq_zero.1 hA, Finset.card_eq_zero.1 hB]; simp
  | succ n ih =>
    intro A B hA hB h
    obtain ⟨a, ha, hamax⟩ := Finset.exists_max_image A f (Finset.card_pos.1 (by omega))
    obtain ⟨b, hb, hbmax⟩ := Finset.exists_max_image B g (Finset.card_pos.1 (by omega))
    have hab : f a ≤ g b := by
      have h1 : 0 < (A.filter (fun x => f a ≤ f x)).card := Finset.card_pos.2 ⟨a, by simp [ha]⟩
      obtain ⟨y, hy⟩ := Finset.card_pos.1 (lt_of_lt_of_le h1 (h (f a)))
      rw [Finset.mem_filter] at hy
      exact hy.2.trans (hbmax y hy.1)
    rw [← Finset.add_sum_erase A f ha, ← Finset.add_sum_erase B g hb]
    refine add_le_add hab (ih _ _ (by rw [Finset.card_erase_of_mem ha]; omega) (by rw [Finset.card_erase_of_mem hb]; omega) ?_)
    intro c
    rw [Finset.filter_erase, Finset.filter_erase]
    by_cases hc : c ≤ f a
    · rw [Finset.card_erase_of_mem (by simp [ha, hc]), Finset.card_erase_of_mem (by simp [hb, hc.trans hab])]
      exact Nat.sub_le_sub_right (h c) 1
    · have : A.filter (fun x => c ≤ f x) = ∅ := by
        apply Finset.filter_false_of_mem
        intro x hx hcx; exact hc (hcx.trans (hamax x hx))
      rw [this]; simp

end Hcp
