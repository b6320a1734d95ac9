import Verif.Proofs.InterMain
import Verif.Props.Tree
import Mathlib.Tactic.IntervalCases

/-!
# C13: the intersection matrix
-/

namespace Hcp
open Spec

variable {W : Type}

/-- **C13 (table).** For every list of edges, every `m ≥ 2` and every set of shift numbers,
`intersection_tree` returns normally, writes only inside the matrix, and the entry
`(k (m-1) + a, l (m-1) + b)` is the documented intersection number of the lifts. -/
theorem C13_intersection_table (o : ShiftOracle) (e : List (Edge W)) {m : Nat} (hm : 2 ≤ m)
    {sab sbd : Nat → Nat → Int} (hs : Shifts o e sab sbd) :
    ∃ c, intersectionTree o e m = .ok c ∧
      ∀ k l a b, (hk : k < e.length) → (hl : l < e.length) → a < m - 1 → b < m - 1 →
        c (k * (m - 1) + a) (l * (m - 1) + b) =
          if k = l then selfNumber a b
          else if k < l then
            (meetOf (e[k].a, e[k].b) (e[l].a, e[l].b) (sab k l) (sbd k l) (o.neg k l)).number m a b
          else - (meetOf (e[l].a, e[l].b) (e[k].a, e[k].b) (sab l k) (sbd l k) (o.neg l k)).number m b a := by
  obtain ⟨c, h1, h2⟩ := interLoop_spec hs hm e 0 (fun _ _ => 0) rfl (by
    intro k l a b _ _
    exact ⟨fun h => by omega, fun h => by omega, fun _ _ => rfl⟩)
  refine ⟨c, h1, ?_⟩
  intro k l a b hk hl ha hb
  obtain ⟨g1, g2, _⟩ := h2 k l a b ha hb
  have ek : e[k]? = some e[k] := List.getElem?_eq_getElem hk
  have el : e[l]? = some e[l] := List.getElem?_eq_getElem hl
  rcases Nat.lt_trichotomy k l with h | h | h
  · rw [if_neg (by omega), if_pos h, g1 ⟨by omega, hl⟩]
    unfold expect
    rw [if_neg (by omega), ek, el]; rfl
  · subst h
    rw [if_pos rfl, g1 ⟨le_rfl, hl⟩]
    unfold expect
    rw [if_pos rfl]
  · rw [if_neg (by omega), if_neg (by omega), g2 ⟨by omega, hk⟩]
    unfold expect
    rw [if_neg (by omega), ek, el]; rfl

theorem pm_cases (m : Nat) (d sp sm : Int) : pm m d sp sm = 1 ∨ pm m d sp sm = -1 ∨ pm m d sp sm = 0 := by
  unfold pm; split_ifs <;> simp

theorem number_cases (m : Nat) (a b : Int) (t : Meet) :
    t.number m a b = 1 ∨ t.number m a b = -1 ∨ t.number m a b = 0 := by
  cases t <;> simp only [Meet.number] <;> first | exact pm_cases _ _ _ _ | simp

/-- **C13 (shape).** The matrix is antisymmetric with entries `0, 1, -1`. -/
theorem C13_antisymmetric_small (o : ShiftOracle) (e : List (Edge W)) {m : Nat} (hm : 2 ≤ m)
    {sab sbd : Nat → Nat → Int} (hs : Shifts o e sab sbd) :
    ∃ c, intersectionTree o e m = .ok c ∧
      ∀ x y, x < e.length * (m - 1) → y < e.length * (m - 1) →
        c x y = - c y x ∧ (c x y = 1 ∨ c x y = -1 ∨ c x y = 0) := by
  obtain ⟨c, h1, h2⟩ := C13_intersection_table o e hm hs
  refine ⟨c, h1, ?_⟩
  intro x y hx hy
  have hpos : 0 < m - 1 := by omega
  obtain ⟨k, a, hk, ha, rfl⟩ : ∃ k a, k < e.length ∧ a < m - 1 ∧ x = k * (m - 1) + a :=
    ⟨x / (m - 1), x % (m - 1), Nat.div_lt_of_lt_mul (by rwa [Nat.mul_comm] at hx), Nat.mod_lt _ hpos,
      by rw [Nat.mul_comm]; exact (Nat.div_add_mod _ _).symm⟩
  obtain ⟨l, b, hl, hb, rfl⟩ : ∃ l b, l < e.length ∧ b < m - 1 ∧ y = l * (m - 1) + b :=
    ⟨y / (m - 1), y % (m - 1), Nat.div_lt_of_lt_mul (by rwa [Nat.mul_comm] at hy), Nat.mod_lt _ hpos,
      by rw [Nat.mul_comm]; exact (Nat.div_add_mod _ _).symm⟩
  rw [h2 k l a b hk hl ha hb, h2 l k b a hl hk hb ha]
  rcases Nat.lt_trichotomy k l with h | h | h
  · simp only [if_neg (show ¬ k = l by omega), if_neg (show ¬ l = k by omega), if_pos h,
      if_neg (show ¬ l < k by omega), neg_neg, true_and]
    exact number_cases _ _ _ _
  · subst h
    simp only [if_true]
    refine ⟨selfNumber_antisymm a b, ?_⟩
    unfold selfNumber; split_ifs <;> simp
  · simp only [if_neg (show ¬ k = l by omega), if_neg (show ¬ l = k by omega), if_pos h,
      if_neg (show ¬ k < l by omega), true_and]
    rcases number_cases m b a
      (meetOf (e[l].a, e[l].b) (e[k].a, e[k].b) (sab l k) (sbd l k) (o.neg l k)) with g | g | g <;> simp [g]

/-- **C13 (failure).** The only way not to return is a failing shift number: if some needed shift number
aborts, so does `intersection_tree`; the branch "invalid tree" is dead. -/
theorem C13_no_other_failure (o : ShiftOracle) (e : List (Edge W)) {m : Nat} (hm : 2 ≤ m)
    (hfail : ¬ (intersectionTree o e m).isOk) :
    ∃ k l, ∃ (_ : k < l) (_ : l < e.length), ¬ (o.abad k l).isOk ∨ ¬ (o.abbd k l).isOk := by
  by_contra hcon
  push Not at hcon
  have get : ∀ r : Res Int, r.isOk → ∃ v, r = .ok v := by
    intro r hr; cases r <;> first | exact ⟨_, rfl⟩ | exact absurd hr (by simp [Res.isOk])
  have hs : Shifts o e (fun k l => match o.abad k l with | .ok v => v | _ => 0)
      (fun k l => match o.abbd k l with | .ok v => v | _ => 0) := by
    constructor
    · intro k l ek el hkl _ hl _
      have hl' : l < e.length := by
        by_contra h; rw [List.getElem?_eq_none (by omega)] at hl; cases hl
      obtain ⟨v, hv⟩ := get _ (hcon k l hkl hl').1
      simp [hv]
    · intro k l ek el hkl _ hl _ _
      have hl' : l < e.length := by
        by_contra h; rw [List.getElem?_eq_none (by omega)] at hl; cases hl
      obtain ⟨v, hv⟩ := get _ (hcon k l hkl hl').2
      simp [hv]
  obtain ⟨c, h1, _⟩ := C13_intersection_table o e hm hs
  rw [h1] at hfail
  exact hfail trivial

/-- non-trivial instance: the tree `(0,1), (1,2), (1,3)` with `m = 3` -/
example : ∃ (o : ShiftOracle) (sab sbd : Nat → Nat → Int),
    Shifts o ([⟨0, 1, 5⟩, ⟨1, 2, 4⟩, ⟨1, 3, 2⟩] : List (Edge Nat)) sab sbd ∧
    ∃ c, intersectionTree o ([⟨0, 1, 5⟩, ⟨1, 2, 4⟩, ⟨1, 3, 2⟩] : List (Edge Nat)) 3 = .ok c ∧
      c 0 1 = 1 ∧ c 0 2 = -1 ∧ c 2 0 = 1 ∧ c 0 3 = 0 ∧ c 4 2 = 1 ∧ c 2 5 = 1 := by
  refine ⟨⟨fun _ _ => .ok 2, fun _ _ => .ok 1, fun _ _ => true⟩, fun _ _ => 2, fun _ _ => 1,
    ⟨fun _ _ _ _ _ _ _ _ => rfl, fun _ _ _ _ _ _ _ _ _ => rfl⟩, _, rfl, ?_⟩
  decide +kernel

end Hcp
