import Verif.Proofs.SheetNorm
import Verif.Spec.Tree
import Verif.Model.Homology
import Mathlib.Logic.Equiv.Fin.Basic

/-!
# Rank of the intersection matrix of a tree
-/

namespace Hcp
open Complex PlaneTree

theorem localNumber_eq {m : Nat} (hm : 2 ≤ m) {i S : ℤ} (hi : (m : ℤ) ∣ -S - i) (α β : Nat) :
    Spec.localNumber m α β S = Jf i ((β : ZMod m) - (α : ZMod m)) := by
  have hi' : (i : ZMod m) = -(S : ZMod m) := by
    have := (ZMod.intCast_zmod_eq_zero_iff_dvd (-S - i) m).2 hi
    push_cast at this
    linear_combination -this
  have h1 : ((m : ℤ) ∣ (β : ℤ) - α - (1 - S)) ↔ (β : ZMod m) - (α : ZMod m) = (i : ZMod m) + 1 := by
    rw [← ZMod.intCast_zmod_eq_zero_iff_dvd, hi']
    push_cast
    constructor <;> intro h <;> linear_combination h
  have h2 : ((m : ℤ) ∣ (β : ℤ) - α - (-S)) ↔ (β : ZMod m) - (α : ZMod m) = (i : ZMod m) := by
    rw [← ZMod.intCast_zmod_eq_zero_iff_dvd, hi']
    push_cast
    constructor <;> intro h <;> linear_combination h
  have h01 : (1 : ZMod m) ≠ 0 := by
    have : Fact (1 < m) := ⟨by omega⟩
    exact one_ne_zero
  unfold Spec.localNumber Spec.pm Jf
  simp only [h1, h2]
  split_ifs with g1 g2
  · exact absurd (by linear_combination g2 - g1) h01
  · rfl
  · rfl
  · rfl

theorem selfNumber_eq {m α β : Nat} (hm : 2 ≤ m) (hα : α < m - 1) (hβ : β < m - 1) :
    Spec.selfNumber α β = Jf 0 ((β : ZMod m) - (α : ZMod m)) + Jf (-1) ((β : ZMod m) - (α : ZMod m)) := by
  have cast : ∀ u v : Nat, u < m → v < m → ((u : ZMod m) = (v : ZMod m) ↔ u = v) := by
    intro u v hu hv
    rw [ZMod.natCast_eq_natCast_iff']
    rw [Nat.mod_eq_of_lt hu, Nat.mod_eq_of_lt hv]
  have e1 : (β : ZMod m) - (α : ZMod m) = ((0 : ℤ) : ZMod m) + 1 ↔ β = α + 1 := by
    rw [← cast β (α + 1) (by omega) (by omega)]
    push_cast
    constructor <;> intro h <;> linear_combination h
  have e2 : (β : ZMod m) - (α : ZMod m) = ((-1 : ℤ) : ZMod m) ↔ α = β + 1 := by
    rw [← cast α (β + 1) (by omega) (by omega)]
    push_cast
    constructor <;> intro h <;> linear_combination -h
  have e3 : (β : ZMod m) - (α : ZMod m) = ((-1 : ℤ) : ZMod m) + 1 ↔ (β : ZMod m) - (α : ZMod m) = ((0 : ℤ) : ZMod m) := by
    push_cast
    simp
  unfold Spec.selfNumber Jf
  simp only [e1, e2, e3]
  have f1 : ((β : ℤ) = (α : ℤ) + 1) ↔ β = α + 1 := by omega
  have f2 : ((α : ℤ) = (β : ℤ) + 1) ↔ α = β + 1 := by omega
  simp only [f1, f2]
  split_ifs <;> omega

theorem Jf_neg {m : Nat} (i : ℤ) (d : ZMod m) : Jf i (-d) = - Jf (-i - 1) d := by
  have h1 : -d = (i : ZMod m) + 1 ↔ d = ((-i - 1 : ℤ) : ZMod m) := by
    push_cast
    constructor <;> intro h <;> linear_combination -h
  have h2 : -d = (i : ZMod m) ↔ d = ((-i - 1 : ℤ) : ZMod m) + 1 := by
    push_cast
    constructor <;> intro h <;> linear_combination -h
  unfold Jf
  simp only [h1, h2]
  ring

theorem lt01_swap {p q : ℝ} (h : p ≠ q) : lt01 p q = 1 - lt01 q p := by
  unfold lt01
  rcases lt_or_gt_of_ne h with g | g
  · rw [if_pos g, if_neg (not_lt.2 g.le)]; rfl
  · rw [if_neg (not_lt.2 g.le), if_pos g]; rfl

theorem Ent_antisymm {m N r0 : Nat} {pe : Nat → PEdge} (h : Grows pe r0 N) {k l : Nat} (hk : k < N) (hl : l < N) (hkl : k ≠ l) (d : ZMod m) :
    Ent pe l k (-d) = - Ent pe k l d := by
  unfold Ent
  rw [if_neg hkl, if_neg (Ne.symm hkl)]
  have t1 : (if (pe l).a = (pe k).a then Jf ((pe l).sa - (pe k).sa - lt01 (pe l).pa (pe k).pa) (-d) else 0) =
      -(if (pe k).a = (pe l).a then Jf ((pe k).sa - (pe l).sa - lt01 (pe k).pa (pe l).pa) d else 0) := by
    by_cases g : (pe k).a = (pe l).a
    · rw [if_pos g, if_pos g.symm, Jf_neg, lt01_swap (h.angle_aa k hk l hl hkl g)]
      congr 2; ring
    · rw [if_neg g, if_neg (Ne.symm g)]; rfl
  have t2 : (if (pe l).b = (pe k).a then Jf ((pe l).sb - (pe k).sa - lt01 (pe l).pb (pe k).pa) (-d) else 0) =
      -(if (pe k).a = (pe l).b then Jf ((pe k).sa - (pe l).sb - lt01 (pe k).pa (pe l).pb) d else 0) := by
    by_cases g : (pe k).a = (pe l).b
    · rw [if_pos g, if_pos g.symm, Jf_neg, lt01_swap (h.angle_ab k hk l hl g)]
      congr 2; ring
    · rw [if_neg g, if_neg (Ne.symm g)]; rfl
  have t3 : (if (pe l).a = (pe k).b then Jf ((pe l).sa - (pe k).sb - lt01 (pe l).pa (pe k).pb) (-d) else 0) =
      -(if (pe k).b = (pe l).a then Jf ((pe k).sb - (pe l).sa - lt01 (pe k).pb (pe l).pa) d else 0) := by
    by_cases g : (pe k).b = (pe l).a
    · rw [if_pos g, if_pos g.symm, Jf_neg, lt01_swap (h.angle_ab l hl k hk g.symm).symm]
      congr 2; ring
    · rw [if_neg g, if_neg (Ne.symm g)]; rfl
  rw [t1, t2, t3]; ring

theorem growsAsTree_start {es : List (Nat × Nat)} (h : Spec.GrowsAsTree es) (h0 : 0 < es.length) :
    ∀ k, (hk : k < es.length) → es[k].1 = es[0].1 ∨ ∃ j, ∃ hj : j < k, es[k].1 = (es[j]'(hj.trans hk)).2 := by
  intro k
  induction k using Nat.strong_induction_on with
  | _ k ih =>
    intro hk
    rcases Nat.eq_zero_or_pos k with rfl | hpos
    · exact Or.inl rfl
    · obtain ⟨e, he, h1⟩ := (h k hk).2.2 hpos.ne'
      obtain ⟨j, hj, rfl⟩ := List.getElem_of_mem he
      rw [List.length_take] at hj
      have hjk : j < k := by omega
      rw [List.getElem_take] at h1
      rcases h1 with h1 | h1
      · rcases ih j hjk (by omega) with g | ⟨i, hi, g⟩
        · exact Or.inl (h1.trans g)
        · exact Or.inr ⟨i, by omega, h1.trans g⟩
      · exact Or.inr ⟨j, hjk, h1⟩

theorem growsAsTree_new {es : List (Nat × Nat)} (h : Spec.GrowsAsTree es) (h0 : 0 < es.length) :
    ∀ k, (hk : k < es.length) → es[k].2 ≠ es[0].1 ∧ ∀ j, (hj : j < k) → es[k].2 ≠ (es[j]'(hj.trans hk)).2 := by
  intro k hk
  obtain ⟨h1, h2, -⟩ := h k hk
  have hno : ∀ j, (hj : j < k) → es[k].2 ≠ (es[j]'(hj.trans hk)).1 ∧ es[k].2 ≠ (es[j]'(hj.trans hk)).2 := by
    intro j hj
    have hmem : es[j]'(hj.trans hk) ∈ es.take k := List.mem_take_iff_getElem.2 ⟨j, by simp; omega, rfl⟩
    exact ⟨fun e => h2 ⟨_, hmem, Or.inl e⟩, fun e => h2 ⟨_, hmem, Or.inr e⟩⟩
  refine ⟨?_, fun j hj => (hno j hj).2⟩
  rcases Nat.eq_zero_or_pos k with rfl | hpos
  · exact h1.symm
  · exact (hno 0 hpos).1

/-- the matrix of the tree is the matrix of a plane tree -/
theorem exists_planeTree {m N r0 : Nat} (hm : 2 ≤ m) {a b : Nat → Nat} {d Ya Yb : Nat → ℂ} {c : IMat}
    (hstart : ∀ k < N, a k = r0 ∨ ∃ j < k, a k = b j) (hnew : ∀ k < N, b k ≠ r0 ∧ ∀ j < k, b k ≠ b j)
    (hd : ∀ k < N, d k ≠ 0) (hYa : ∀ k < N, Ya k ≠ 0) (hYb : ∀ k < N, Yb k ≠ 0)
    (hself : ∀ k < N, ∀ α < m - 1, ∀ β < m - 1, c (k * (m - 1) + α) (k * (m - 1) + β) = Spec.selfNumber α β)
    (hanti : ∀ i j, i < N * (m - 1) → j < N * (m - 1) → c i j = - c j i)
    (h1 : ∀ k l, k < l → l < N → a l = a k → ∃ S, Spec.SheetGap m (d k) (d l) (Ya k) (Ya l) S ∧
      ∀ α < m - 1, ∀ β < m - 1, c (k * (m - 1) + α) (l * (m - 1) + β) = Spec.localNumber m α β S)
    (h2 : ∀ k l, k < l → l < N → a l = b k → ∃ S, Spec.SheetGap m (-d k) (d l) (Yb k) (Ya l) S ∧
      ∀ α < m - 1, ∀ β < m - 1, c (k * (m - 1) + α) (l * (m - 1) + β) = - Spec.localNumber m α β S)
    (h3 : ∀ k l, k < l → l < N → a l ≠ a k → a l ≠ b k → ∀ α < m - 1, ∀ β < m - 1, c (k * (m - 1) + α) (l * (m - 1) + β) = 0) :
    ∃ pe : Nat → PEdge, Grows pe r0 N ∧ ∀ k < N, ∀ l < N, ∀ α < m - 1, ∀ β < m - 1,
      c (k * (m - 1) + α) (l * (m - 1) + β) = Ent pe k l ((β : ZMod m) - (α : ZMod m)) := by
  classical
  have hab : ∀ k < N, a k ≠ b k := by
    intro k hk e
    rcases hstart k hk with g | ⟨j, hj, g⟩
    · exact (hnew k hk).1 (e.symm.trans g)
    · exact (hnew k hk).2 j hj (e.symm.trans g)
  have hbl : ∀ k l, k < l → l < N → a k ≠ b l := by
    intro k l hkl hl e
    rcases hstart k (by omega) with g | ⟨j, hj, g⟩
    · exact (hnew l hl).1 (e.symm.trans g)
    · exact (hnew l hl).2 j (by omega) (e.symm.trans g)
  let S : Nat → Nat → ℤ := fun k l =>
    if h : k < l ∧ l < N ∧ a l = a k then (h1 k l h.1 h.2.1 h.2.2).choose
    else if h : k < l ∧ l < N ∧ a l = b k then (h2 k l h.1 h.2.1 h.2.2).choose else 0
  have hS1 : ∀ k l, (hkl : k < l) → (hl : l < N) → (e : a l = a k) → S k l = (h1 k l hkl hl e).choose := fun k l hkl hl e =>
    dif_pos (⟨hkl, hl, e⟩ : k < l ∧ l < N ∧ a l = a k)
  have hS2 : ∀ k l, (hkl : k < l) → (hl : l < N) → (e : a l = b k) → S k l = (h2 k l hkl hl e).choose := by
    intro k l hkl hl e
    have hne : ¬ (k < l ∧ l < N ∧ a l = a k) := fun h => hab k (by omega) (h.2.2.symm.trans e)
    simp only [S]
    rw [dif_neg hne, dif_pos (⟨hkl, hl, e⟩ : k < l ∧ l < N ∧ a l = b k)]
  obtain ⟨pe, hg, hpe, hnum⟩ := exists_numbering (S := S) (by omega : 0 < m) hstart hnew hd hYa hYb
    (fun k l hkl hl e => by rw [hS1 k l hkl hl e]; exact (h1 k l hkl hl e).choose_spec.1)
    (fun k l hkl hl e => by rw [hS2 k l hkl hl e]; exact (h2 k l hkl hl e).choose_spec.1)
  have key : ∀ k l, k < l → l < N → ∀ α < m - 1, ∀ β < m - 1,
      c (k * (m - 1) + α) (l * (m - 1) + β) = Ent pe k l ((β : ZMod m) - (α : ZMod m)) := by
    intro k l hkl hl α hα β hβ
    unfold Ent
    rw [if_neg (by omega), (hpe k).1, (hpe k).2, (hpe l).1, (hpe l).2, if_neg (hbl k l hkl hl), sub_zero]
    by_cases e1 : a l = a k
    · have e2 : ¬ b k = a l := fun e => hab k (by omega) (e1.symm.trans e.symm)
      rw [if_pos e1.symm, if_neg e2, sub_zero, (h1 k l hkl hl e1).choose_spec.2 α hα β hβ]
      have := (hnum k l hkl hl).1 e1
      rw [hS1 k l hkl hl e1] at this
      exact localNumber_eq hm this α β
    · rw [if_neg (Ne.symm e1)]
      by_cases e2 : a l = b k
      · rw [if_pos e2.symm, zero_sub, (h2 k l hkl hl e2).choose_spec.2 α hα β hβ]
        have := (hnum k l hkl hl).2 e2
        rw [hS2 k l hkl hl e2] at this
        rw [localNumber_eq hm this α β]
      · rw [if_neg (Ne.symm e2), sub_zero]
        exact h3 k l hkl hl e1 e2 α hα β hβ
  have hlt : ∀ k < N, ∀ α < m - 1, k * (m - 1) + α < N * (m - 1) := by
    intro k hk α hα
    have : (k + 1) * (m - 1) ≤ N * (m - 1) := Nat.mul_le_mul_right _ hk
    rw [Nat.add_mul, Nat.one_mul] at this
    omega
  refine ⟨pe, hg, fun k hk l hl α hα β hβ => ?_⟩
  rcases Nat.lt_trichotomy k l with g | g | g
  · exact key _ _ g hl _ hα _ hβ
  · subst g
    rw [hself _ hk _ hα _ hβ, selfNumber_eq hm hα hβ]
    unfold Ent
    rw [if_pos rfl]
  · rw [hanti _ _ (hlt _ hk _ hα) (hlt _ hl _ hβ), key _ _ g hk _ hβ _ hα, ← Ent_antisymm hg hl hk (by omega), neg_sub]

/-- rank of the matrix of the tree, in terms of plain functions -/
theorem matrix_rank {m N r0 : Nat} (hm : 2 ≤ m) {a b : Nat → Nat} {d Ya Yb : Nat → ℂ} {c : IMat}
    (hstart : ∀ k < N, a k = r0 ∨ ∃ j < k, a k = b j) (hnew : ∀ k < N, b k ≠ r0 ∧ ∀ j < k, b k ≠ b j)
    (hd : ∀ k < N, d k ≠ 0) (hYa : ∀ k < N, Ya k ≠ 0) (hYb : ∀ k < N, Yb k ≠ 0)
    (hself : ∀ k < N, ∀ α < m - 1, ∀ β < m - 1, c (k * (m - 1) + α) (k * (m - 1) + β) = Spec.selfNumber α β)
    (hanti : ∀ i j, i < N * (m - 1) → j < N * (m - 1) → c i j = - c j i)
    (h1 : ∀ k l, k < l → l < N → a l = a k → ∃ S, Spec.SheetGap m (d k) (d l) (Ya k) (Ya l) S ∧
      ∀ α < m - 1, ∀ β < m - 1, c (k * (m - 1) + α) (l * (m - 1) + β) = Spec.localNumber m α β S)
    (h2 : ∀ k l, k < l → l < N → a l = b k → ∃ S, Spec.SheetGap m (-d k) (d l) (Yb k) (Ya l) S ∧
      ∀ α < m - 1, ∀ β < m - 1, c (k * (m - 1) + α) (l * (m - 1) + β) = - Spec.localNumber m α β S)
    (h3 : ∀ k l, k < l → l < N → a l ≠ a k → a l ≠ b k → ∀ α < m - 1, ∀ β < m - 1, c (k * (m - 1) + α) (l * (m - 1) + β) = 0)
    (F : Type*) [Field F] :
    ((c.toMat (N * (m - 1))).map (Int.cast : ℤ → F)).rank + Nat.gcd m (N + 1) = N * (m - 1) + 1 := by
  classical
  obtain ⟨pe, hg, hE⟩ := exists_planeTree hm hstart hnew hd hYa hYb hself hanti h1 h2 h3
  let M : Matrix (Fin N × Fin (m - 1)) (Fin N × Fin (m - 1)) ℤ := fun p q => c (p.1 * (m - 1) + p.2) (q.1 * (m - 1) + q.2)
  have hM : ∀ p q, M p q = Ent pe p.1 q.1 (((q.2.val : Nat) : ZMod m) - ((p.2.val : Nat) : ZMod m)) := fun p q =>
    hE _ p.1.isLt _ q.1.isLt _ p.2.isLt _ q.2.isLt
  have hr := hg.rank (F := F) hm hM
  have hre : ((c.toMat (N * (m - 1))).map (Int.cast : ℤ → F)).rank = (M.map (Int.cast : ℤ → F)).rank := by
    have : M.map (Int.cast : ℤ → F) = ((c.toMat (N * (m - 1))).map (Int.cast : ℤ → F)).submatrix finProdFinEquiv finProdFinEquiv := by
      ext p q
      have hi : ∀ p : Fin N × Fin (m - 1), (finProdFinEquiv p).val = p.1 * (m - 1) + p.2 := fun p => by
        rw [finProdFinEquiv_apply_val, Nat.mul_comm, Nat.add_comm]
      change ((c (p.1 * (m - 1) + p.2) (q.1 * (m - 1) + q.2) : ℤ) : F) = ((c (finProdFinEquiv p).val (finProdFinEquiv q).val : ℤ) : F)
      rw [hi, hi]
    rw [this, Matrix.rank_submatrix]
  rw [hre]; exact hr

end Hcp
