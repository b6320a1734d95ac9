import Verif.Model.Tree
import Mathlib.Data.List.Range
import Mathlib.Data.List.Nodup
import Mathlib.Algebra.BigOperators.Intervals
import Mathlib.Tactic.Ring

/-! # Facts about `edges_init` -/

namespace Hcp

variable {W : Type}

theorem edgesRow_eq (cap : Nat) (wt : Nat → Nat → W) (i : Nat) :
    ∀ (cnt j : Nat) (l : List (Edge W)), l.length + cnt ≤ cap →
      edgesRow cap wt i cnt j l =
        .ok (l ++ (List.range' j cnt).map fun t => { a := i, b := t, r := wt i t })
  | 0, j, l, _ => by simp [edgesRow]
  | cnt + 1, j, l, h => by
    rw [edgesRow, pushChecked, if_pos (by omega), Res.ok_bind, edgesRow_eq cap wt i cnt (j + 1) _
      (by simp; omega)]
    simp [List.range'_succ]

/-- the list built by `edges_init` from row `i` on -/
def pairsFrom (wt : Nat → Nat → W) (len : Nat) : (cnt i : Nat) → List (Edge W)
  | 0, _ => []
  | cnt + 1, i =>
    ((List.range' (i + 1) (len - (i + 1))).map fun t => { a := i, b := t, r := wt i t }) ++
      pairsFrom wt len cnt (i + 1)

theorem pairsFrom_length (wt : Nat → Nat → W) (len : Nat) : ∀ cnt i, cnt + i = len →
    (pairsFrom wt len cnt i).length = cnt * (cnt - 1) / 2
  | 0, i, _ => rfl
  | cnt + 1, i, h => by
    rw [pairsFrom, List.length_append, pairsFrom_length wt len cnt (i + 1) (by omega), Nat.triangle_succ]
    simp; omega

theorem edgesLoop_eq (cap : Nat) (wt : Nat → Nat → W) (len : Nat) :
    ∀ (cnt i : Nat) (l : List (Edge W)), cnt + i = len → l.length + cnt * (cnt - 1) / 2 ≤ cap →
      edgesLoop cap wt len cnt i l = .ok (l ++ pairsFrom wt len cnt i)
  | 0, i, l, _, _ => by simp [edgesLoop, pairsFrom]
  | cnt + 1, i, l, h, hc => by
    rw [Nat.triangle_succ] at hc
    rw [edgesLoop, edgesRow_eq _ _ _ _ _ _ (by omega), Res.ok_bind,
      edgesLoop_eq cap wt len cnt (i + 1) _ (by omega) (by simp; omega)]
    simp [pairsFrom]

theorem mem_pairsFrom (wt : Nat → Nat → W) (len : Nat) (x : Edge W) : ∀ cnt i, cnt + i = len →
    (x ∈ pairsFrom wt len cnt i ↔ i ≤ x.a ∧ x.a < x.b ∧ x.b < len ∧ x.r = wt x.a x.b)
  | 0, i, h => by simp [pairsFrom]; omega
  | cnt + 1, i, h => by
    rw [pairsFrom, List.mem_append, mem_pairsFrom wt len x cnt (i + 1) (by omega), List.mem_map]
    constructor
    · rintro (⟨t, ht, rfl⟩ | ⟨h1, h2, h3, h4⟩)
      · simp at ht ⊢; omega
      · exact ⟨by omega, h2, h3, h4⟩
    · rintro ⟨h1, h2, h3, h4⟩
      by_cases hi : x.a = i
      · left
        refine ⟨x.b, by simp; omega, ?_⟩
        cases x; simp at hi h4; subst hi; simp [h4]
      · right; exact ⟨by omega, h2, h3, h4⟩

theorem pairsFrom_nodup (wt : Nat → Nat → W) (len : Nat) : ∀ cnt i, cnt + i = len →
    ((pairsFrom wt len cnt i).map fun x => (x.a, x.b)).Nodup
  | 0, i, _ => by simp [pairsFrom]
  | cnt + 1, i, h => by
    rw [pairsFrom, List.map_append, List.nodup_append]
    refine ⟨?_, pairsFrom_nodup wt len cnt (i + 1) (by omega), ?_⟩
    · rw [List.map_map]
      refine List.Nodup.map ?_ List.nodup_range'
      intro x y hxy; simpa using hxy
    · intro p hp q hq hpq
      subst hpq
      simp only [List.map_map, List.mem_map] at hp hq
      obtain ⟨t, _, rfl⟩ := hp
      obtain ⟨x, hx, hxe⟩ := hq
      have := ((mem_pairsFrom wt len x cnt (i + 1) (by omega)).1 hx).1
      simp at hxe
      omega

end Hcp
