import Verif.Proofs.SympSweep
import Mathlib.LinearAlgebra.Matrix.Diagonal

/-!
# Pivot search and main loop of the symplectic reduction
-/

namespace Hcp
open Spec

variable {r : Nat}

/-! ### pivot_line -/

theorem pivotGo_spec (M : Mat r) (i : Fin r) (len : Nat) :
    ∀ (js : List (Fin r)) (v : ℤ) (jv : Nat),
      (v = 0 ∧ jv = len) ∨ (∃ j : Fin r, j.val = jv ∧ M i j = v ∧ v ≠ 0) →
      (pivotGo M i js v jv = len ∧ v = 0 ∧ ∀ j ∈ js, M i j = 0) ∨
      (∃ j : Fin r, (j ∈ js ∨ (v ≠ 0 ∧ j.val = jv)) ∧ j.val = pivotGo M i js v jv ∧ M i j ≠ 0 ∧
        (v ≠ 0 → v.natAbs ≠ 1 → (M i j).natAbs ≤ v.natAbs) ∧
        (v.natAbs ≠ 1 → ∀ j' ∈ js, M i j' ≠ 0 → (M i j).natAbs ≤ (M i j').natAbs))
  | [], v, jv, h => by
      unfold pivotGo
      rcases h with ⟨rfl, rfl⟩ | ⟨j, rfl, rfl, hne⟩
      · left; simp
      · right; exact ⟨j, Or.inr ⟨hne, rfl⟩, rfl, hne, fun _ _ => le_refl _, by simp⟩
  | j :: js, v, jv, h => by
      unfold pivotGo
      split
      · rename_i h0
        rcases pivotGo_spec M i len js v jv h with ⟨e, hv, hz⟩ | ⟨j', hm, e, hne, hle, hmin⟩
        · left; refine ⟨e, hv, ?_⟩
          intro j' hj'
          rcases List.mem_cons.1 hj' with rfl | hj'
          · exact h0
          · exact hz j' hj'
        · right; refine ⟨j', ?_, e, hne, hle, ?_⟩
          · rcases hm with hm | hm
            · exact Or.inl (List.mem_cons_of_mem _ hm)
            · exact Or.inr hm
          · intro hv1 j'' hj'' hne''
            rcases List.mem_cons.1 hj'' with rfl | hj''
            · exact absurd h0 hne''
            · exact hmin hv1 j'' hj'' hne''
      · rename_i h0
        split
        · rename_i h1
          right
          refine ⟨j, Or.inl (by simp), rfl, h0, ?_, ?_⟩
          · intro hv _; rw [h1]; exact Int.natAbs_pos.2 hv
          · intro _ j' _ hj'; rw [h1]; exact Int.natAbs_pos.2 hj'
        · rename_i h1
          split
          · rename_i h2
            rcases pivotGo_spec M i len js (M i j) j.val (Or.inr ⟨j, rfl, rfl, h0⟩) with
              ⟨e, hv, hz⟩ | ⟨j', hm, e, hne, hle, hmin⟩
            · exact absurd hv h0
            · right
              refine ⟨j', ?_, e, hne, ?_, ?_⟩
              · rcases hm with hm | hm
                · exact Or.inl (List.mem_cons_of_mem _ hm)
                · left; rw [Fin.ext hm.2]; simp
              · intro hv _
                rcases h2 with h2 | h2
                · exact absurd h2 hv
                · exact (hle h0 h1).trans h2.le
              · intro _ j'' hj'' hne''
                rcases List.mem_cons.1 hj'' with rfl | hj''
                · exact hle h0 h1
                · exact hmin h1 j'' hj'' hne''
          · rename_i h2
            push Not at h2
            rcases pivotGo_spec M i len js v jv h with ⟨e, hv, hz⟩ | ⟨j', hm, e, hne, hle, hmin⟩
            · exact absurd hv h2.1
            · right; refine ⟨j', ?_, e, hne, hle, ?_⟩
              · rcases hm with hm | hm
                · exact Or.inl (List.mem_cons_of_mem _ hm)
                · exact Or.inr hm
              · intro hv1 j'' hj'' hne''
                rcases List.mem_cons.1 hj'' with rfl | hj''
                · exact (hle h2.1 hv1).trans h2.2
                · exact hmin hv1 j'' hj'' hne''

theorem pivotLine_spec (M : Mat r) (i : Fin r) (len : Nat) :
    (pivotLine M i.val len = len ∧ ∀ j : Fin r, i.val < j.val → j.val < len → M i j = 0) ∨
    (∃ j : Fin r, i.val < j.val ∧ j.val < len ∧ pivotLine M i.val len = j.val ∧ M i j ≠ 0 ∧
      ∀ j' : Fin r, i.val < j'.val → j'.val < len → M i j' ≠ 0 → (M i j).natAbs ≤ (M i j').natAbs) := by
  unfold pivotLine
  rw [dif_pos i.isLt]
  rcases pivotGo_spec M i len (idxRange r (i.val + 1) len) 0 len (Or.inl ⟨rfl, rfl⟩) with
    ⟨e, _, hz⟩ | ⟨j, hm, e, hne, _, hmin⟩
  · left; refine ⟨e, fun j h1 h2 => hz j (mem_idxRange.2 ⟨h1, h2⟩)⟩
  · right
    rcases hm with hm | hm
    · have := mem_idxRange.1 hm
      refine ⟨j, by omega, this.2, e.symm, hne, ?_⟩
      intro j' h1 h2 h3
      exact hmin (by simp) j' (mem_idxRange.2 ⟨h1, h2⟩) h3
    · exact absurd rfl hm.1

/-! ### the pivot search loop -/

/-- a whole row vanishes when its part between the diagonal and `len` does -/
theorem Fr.row_zero {M0 : Mat r} {d len : Nat} {st : St r} (h : Fr M0 d len st) {i : Fin r}
    (hi : i.val = 2 * d) (hz : ∀ j : Fin r, i.val < j.val → j.val < len → st.M i j = 0) (b : Fin r) :
    st.M i b = 0 := by
  rcases lt_trichotomy b.val i.val with hb | hb | hb
  · exact h.zero_out' (by omega) (by omega)
  · have : b = i := Fin.ext hb
    rw [this]; exact antisymm_diag h.inv.anti i
  · by_cases hbl : b.val < len
    · exact hz b hb hbl
    · exact h.tail' (by omega)

/-- moving a zero row to the end shortens the active part -/
theorem Fr.move_zero {M0 : Mat r} {d len : Nat} {st : St r} (h : Fr M0 d (len + 1) st) {i : Fin r}
    (hi : i.val = 2 * d) (hil : 2 * d < len + 1) (hz : ∀ b : Fin r, st.M i b = 0) :
    ∃ st', swapStep st (2 * d) len = .ok st' ∧ Fr M0 d len st' ∧ Keep d st st' := by
  have hl := h.hl
  by_cases he : 2 * d = len
  · refine ⟨st, by unfold swapStep; rw [if_pos he], ⟨h.inv, h.blk, ?_, by omega, by omega⟩, Keep.refl _ _⟩
    intro a b ha
    rcases eq_or_lt_of_le ha with h1 | h1
    · have : a = i := Fin.ext (by omega)
      rw [this]; exact hz b
    · exact h.tail a b (by omega)
  · let y : Fin r := ⟨len, by omega⟩
    have hiy : i ≠ y := by
      intro e; have := congrArg Fin.val e; simp only [y] at this; omega
    obtain ⟨f1, k1⟩ := h.cong2 (x := i) (y := y) hiy (by omega) (by omega) (by simp only [y]; omega)
      (by simp only [y]; omega) (α := 0) (β := 1) (γ := 1) (δ := 0) (D := -1) (by ring) (by ring)
    refine ⟨Hcp.cong2 st i y 0 1 1 0, ?_, ⟨f1.inv, f1.blk, ?_, by omega, by omega⟩, k1⟩
    · have := swapStep_eq st hiy
      rw [hi] at this
      exact this
    · intro a b ha
      rcases eq_or_lt_of_le ha with h1 | h1
      · have hay : a = y := Fin.ext h1.symm
        subst hay
        by_cases hbx : b = i
        · rw [hbx, f1.inv.anti, cong2_xy st hiy 0 1 1 0 h.inv.anti, hz]; ring
        · by_cases hby : b = y
          · rw [hby]; exact antisymm_diag f1.inv.anti _
          · rw [cong2_row_y st 0 1 1 0 hbx hby, hz]; ring
      · exact f1.tail a b (by omega)

theorem findPivot_spec {M0 : Mat r} {d : Nat} :
    ∀ (len : Nat) (st : St r), Fr M0 d len st → 2 * d < len →
      (∃ st' len', ∃ j0 : Fin r, findPivot d len st = .ok (st', len', some j0.val) ∧
        Fr M0 d len' st' ∧ Keep d st st' ∧ len' ≤ len ∧ 2 * d < j0.val ∧ j0.val < len' ∧
        ∃ i : Fin r, i.val = 2 * d ∧ st'.M i j0 ≠ 0) ∨
      (∃ st', findPivot d len st = .ok (st', 2 * d, none) ∧ Fr M0 d (2 * d) st' ∧ Keep d st st')
  | 0, _, _, h => absurd h (Nat.not_lt_zero _)
  | len + 1, st, hfr, hlt => by
      have hl := hfr.hl
      let i : Fin r := ⟨2 * d, by omega⟩
      unfold findPivot
      dsimp only
      rcases pivotLine_spec st.M i (len + 1) with ⟨e, hz⟩ | ⟨j, h1, h2, e, hne, _⟩
      · have e' : pivotLine st.M (2 * d) (len + 1) = len + 1 := e
        rw [if_pos e']
        obtain ⟨st', hs, hf, hk⟩ := hfr.move_zero (i := i) rfl hlt (hfr.row_zero rfl hz)
        rw [hs, Res.ok_bind]
        by_cases he : len = 2 * d
        · rw [if_pos he]
          right; subst he
          exact ⟨st', rfl, hf, hk⟩
        · rw [if_neg he]
          rcases findPivot_spec len st' hf (by omega) with
            ⟨s, l, j0, g1, g2, g3, g4, g5, g6, g7⟩ | ⟨s, g1, g2, g3⟩
          · left; exact ⟨s, l, j0, g1, g2, hk.trans g3, by omega, g5, g6, g7⟩
          · right; exact ⟨s, g1, g2, hk.trans g3⟩
      · have e' : pivotLine st.M (2 * d) (len + 1) = j.val := e
        rw [e', if_neg (by omega)]
        left
        exact ⟨st, len + 1, j, rfl, hfr, Keep.refl _ _, le_refl _, h1, h2, i, rfl, hne⟩

/-! ### one block -/

/-- Prefix of `reduceBlock` before the sweep. -/
theorem reduceBlock_prefix' (xg : XGcd) {M0 : Mat r} {d len : Nat} {st : St r} (hfr : Fr M0 d len st)
    {i j j0 : Fin r} (hi : i.val = 2 * d) (hj : j.val = 2 * d + 1) (h1 : 2 * d < j0.val)
    (h2 : j0.val < len) (hne : st.M i j0 ≠ 0) :
    ∃ st2, Fr M0 d len st2 ∧ Keep d st st2 ∧ 0 < st2.M i j ∧ j.val < len ∧
      (∀ fuel, reduceBlock xg fuel d len j0.val st = sweep xg i j (idxRange r (2 * d + 2) len) fuel st2) ∧
      ∃ st1, movePivot d j0.val st = .ok st1 ∧ (if st1.M i j < 0 then negStep st1 j else st1) = st2 := by
  have hl := hfr.hl
  have hij : i ≠ j := by rintro rfl; omega
  have hii : (⟨2 * d, by omega⟩ : Fin r) = i := Fin.ext hi.symm
  have hjj : (⟨2 * d + 1, by omega⟩ : Fin r) = j := Fin.ext hj.symm
  have hjl : j.val < len := by omega
  -- after the swap
  obtain ⟨st1, hs1, hf1, hk1, hne1⟩ : ∃ st1,
      movePivot d j0.val st = .ok st1 ∧
      Fr M0 d len st1 ∧ Keep d st st1 ∧ st1.M i j ≠ 0 := by
    by_cases he : j0.val = 2 * d + 1
    · have : j0 = j := Fin.ext (by omega)
      refine ⟨st, by unfold movePivot; rw [if_neg (by simpa using he)], hfr, Keep.refl _ _, ?_⟩
      rw [← this]; exact hne
    · have hj0j : j0 ≠ j := by rintro rfl; omega
      obtain ⟨f1, k1⟩ := hfr.cong2 (x := j0) (y := j) hj0j (by omega) h2 (by omega) hjl
        (α := 0) (β := 1) (γ := 1) (δ := 0) (D := -1) (by ring) (by ring)
      refine ⟨cong2 st j0 j 0 1 1 0, ?_, f1, k1, ?_⟩
      · unfold movePivot; rw [if_pos he, ← hj]; exact swapStep_eq st hj0j
      · rw [cong2_col_y st 0 1 1 0 (by rintro rfl; omega) hij]
        simpa using hne
  -- after the sign normalisation
  obtain ⟨st2, hs2, hf2, hk2, hpos⟩ : ∃ st2,
      (if st1.M i j < 0 then negStep st1 j else st1) = st2 ∧
      Fr M0 d len st2 ∧ Keep d st1 st2 ∧ 0 < st2.M i j := by
    by_cases hneg : st1.M i j < 0
    · obtain ⟨f1, k1⟩ := hf1.cong2 (x := j) (y := i) (Ne.symm hij) (by omega) hjl (by omega) (by omega)
        (α := -1) (β := 0) (γ := 0) (δ := 1) (D := -1) (by ring) (by ring)
      refine ⟨cong2 st1 j i (-1) 0 0 1, ?_, f1, k1, ?_⟩
      · rw [if_pos hneg]; exact negStep_eq st1 (Ne.symm hij)
      · rw [f1.inv.anti, cong2_xy st1 (Ne.symm hij) (-1) 0 0 1 hf1.inv.anti, hf1.inv.anti j i]
        linarith
    · refine ⟨st1, by rw [if_neg hneg], hf1, Keep.refl _ _, ?_⟩
      omega
  refine ⟨st2, hf2, hk1.trans hk2, hpos, hjl, ?_, st1, hs1, hs2⟩
  intro fuel
  unfold reduceBlock
  rw [hs1, Res.ok_bind, dif_pos (by omega)]
  simp only [hii, hjj]
  rw [hs2]

theorem reduceBlock_prefix (xg : XGcd) {M0 : Mat r} {d len : Nat} {st : St r} (hfr : Fr M0 d len st)
    {i j j0 : Fin r} (hi : i.val = 2 * d) (hj : j.val = 2 * d + 1) (h1 : 2 * d < j0.val)
    (h2 : j0.val < len) (hne : st.M i j0 ≠ 0) :
    ∃ st2, Fr M0 d len st2 ∧ Keep d st st2 ∧ 0 < st2.M i j ∧ j.val < len ∧
      ∀ fuel, reduceBlock xg fuel d len j0.val st = sweep xg i j (idxRange r (2 * d + 2) len) fuel st2 := by
  obtain ⟨st2, f, k, p, l, e, -⟩ := reduceBlock_prefix' xg hfr hi hj h1 h2 hne
  exact ⟨st2, f, k, p, l, e⟩

theorem block_extend {M0 : Mat r} {d len : Nat} {st' : St r} {i j : Fin r} (hi : i.val = 2 * d)
    (hj : j.val = 2 * d + 1) (hjl : j.val < len) (hf : Fr M0 d len st') (hne : st'.M i j ≠ 0)
    (hz : ∀ k : Fin r, 2 * d + 2 ≤ k.val → st'.M i k = 0 ∧ st'.M j k = 0) : Fr M0 (d + 1) len st' := by
  refine ⟨hf.inv, ?_, hf.tail, by omega, hf.hl⟩
  intro a b ha
  by_cases ha' : a.val < 2 * d
  · exact hf.blk a b ha'
  · have hz' : ∀ a b : Fin r, a = i ∨ a = j → b.val < 2 * d → st'.M a b = 0 := by
      rintro a b (rfl | rfl) hb
      · exact hf.zero_out' hb (by omega)
      · exact hf.zero_out' hb (by omega)
    have hji : st'.M j i ≠ 0 := by rw [hf.inv.anti]; exact neg_ne_zero.2 hne
    by_cases hai : a = i
    · subst hai
      have hp : partner a.val = 2 * d + 1 := by unfold partner; rw [if_pos (by omega)]; omega
      rw [hp]
      rcases lt_trichotomy b.val (2 * d + 1) with hb | hb | hb
      · have : st'.M a b = 0 := by
          by_cases hb' : b.val < 2 * d
          · exact hz' a b (Or.inl rfl) hb'
          · have : b = a := Fin.ext (by omega)
            rw [this]; exact antisymm_diag hf.inv.anti _
        simp only [this, ne_eq, not_true_eq_false, false_iff]; omega
      · have : b = j := Fin.ext (by omega)
        subst this
        simp [hne, hj]
      · have := (hz b (by omega)).1
        simp only [this, ne_eq, not_true_eq_false, false_iff]; omega
    · have haj : a = j := Fin.ext (by
        have : a.val ≠ i.val := fun e => hai (Fin.ext e)
        omega)
      subst haj
      have hp : partner a.val = 2 * d := by unfold partner; rw [if_neg (by omega)]; omega
      rw [hp]
      rcases lt_trichotomy b.val (2 * d) with hb | hb | hb
      · have := hz' a b (Or.inr rfl) hb
        simp only [this, ne_eq, not_true_eq_false, false_iff]; omega
      · have : b = i := Fin.ext (by omega)
        subst this
        simp [hji, hi]
      · have : st'.M a b = 0 := by
          by_cases hb' : b.val = 2 * d + 1
          · have : b = a := Fin.ext (by omega)
            rw [this]; exact antisymm_diag hf.inv.anti _
          · exact (hz b (by omega)).2
        simp only [this, ne_eq, not_true_eq_false, false_iff]; omega

theorem reduceBlock_spec (xg : XGcd) {M0 : Mat r} {d len : Nat} {st : St r} (hfr : Fr M0 d len st)
    {i j0 : Fin r} (hi : i.val = 2 * d) (h1 : 2 * d < j0.val)
    (h2 : j0.val < len) (hne : st.M i j0 ≠ 0) :
    ∃ st' N, (∀ fuel, N ≤ fuel → reduceBlock xg fuel d len j0.val st = .ok st') ∧
      Fr M0 (d + 1) len st' ∧ Keep d st st' := by
  have hl := hfr.hl
  let j : Fin r := ⟨2 * d + 1, by omega⟩
  obtain ⟨st2, f2, k2, pos, hjl, e⟩ := reduceBlock_prefix xg hfr (j := j) hi rfl h1 h2 hne
  obtain ⟨st', hs, hf, hk, hne', hz⟩ := sweep_spec xg hi (j := j) rfl hjl _ st2 (le_refl _) f2 pos.ne'
  refine ⟨st', (st2.M i j).natAbs + 1, ?_, block_extend hi rfl hjl hf hne' hz, k2.trans hk⟩
  intro fuel hfu
  rw [e fuel]
  exact hs fuel (by omega)

/-! ### rank -/

theorem rankQ_cong {P M N : Mat r} (hP : Unimodular P) (h : IsCongruence P M N) : rankQ N = rankQ M := by
  obtain ⟨Q, h1, h2⟩ := hP
  unfold rankQ
  have hd : ∀ A B : Mat r, (A * B).map (Int.cast : ℤ → ℚ) = A.map Int.cast * B.map Int.cast :=
    fun A B => by
      have := Matrix.map_mul (L := A) (M := B) (f := Int.castRingHom ℚ)
      simpa using this
  have hu : IsUnit (P.map (Int.cast : ℤ → ℚ)).det := by
    have : P.map (Int.cast : ℤ → ℚ) * Q.map Int.cast = 1 := by
      rw [← hd, h1]; simp
    exact (Matrix.isUnit_iff_isUnit_det _).1 (IsUnit.of_mul_eq_one _ this)
  have hut : IsUnit (P.map (Int.cast : ℤ → ℚ)).transpose.det := by rw [Matrix.det_transpose]; exact hu
  rw [h, hd, hd, Matrix.transpose_map, Matrix.rank_mul_eq_left_of_isUnit_det _ _ hut,
    Matrix.rank_mul_eq_right_of_isUnit_det _ _ hu]

theorem rankQ_le_of_zeroTail {N : Mat r} {h : Nat} (hz : ZeroTail h N) : rankQ N ≤ 2 * h := by
  unfold rankQ
  set w : Fin r → ℚ := fun a => if a.val < 2 * h then 1 else 0 with hw
  have e : N.map (Int.cast : ℤ → ℚ) = Matrix.diagonal w * N.map Int.cast := by
    ext a b
    rw [Matrix.diagonal_mul]
    simp only [Matrix.map_apply, hw]
    split
    · simp
    · rw [hz a b (by omega)]; simp
  rw [e]
  refine (Matrix.rank_mul_le_left _ _).trans ?_
  rw [Matrix.rank_diagonal]
  have : Fintype.card {i // w i ≠ 0} ≤ Fintype.card (Fin (2 * h)) := by
    apply Fintype.card_le_of_injective (fun x : {i // w i ≠ 0} => (⟨x.1.val, by
      have := x.2
      simp only [hw] at this
      by_contra hc
      simp [hc] at this⟩ : Fin (2 * h)))
    intro x y hxy
    simp only [Fin.mk.injEq] at hxy
    exact Subtype.ext (Fin.ext hxy)
  simpa using this

theorem Fr.rank_le {M0 : Mat r} {d : Nat} {st : St r} (h : Fr M0 d (2 * d) st) : rankQ M0 ≤ 2 * d := by
  rw [← rankQ_cong h.inv.uni h.inv.cong]
  exact rankQ_le_of_zeroTail (fun a b ha => h.tail a b ha)

/-! ### main loop -/

theorem reduceLoop_spec (xg : XGcd) {M0 : Mat r} :
    ∀ (todo d len : Nat) (st : St r), Fr M0 d len st → 2 * (d + todo) ≤ rankQ M0 →
      ∃ st' N len', (∀ fuel, N ≤ fuel → reduceLoop xg fuel todo d len st = .ok st') ∧
        Fr M0 (d + todo) len' st' ∧ Keep d st st'
  | 0, d, len, st, hfr, _ => ⟨st, 0, len, fun _ _ => rfl, hfr, Keep.refl _ _⟩
  | todo + 1, d, len, st, hfr, hrk => by
      have hlt : 2 * d < len := by
        rcases lt_or_eq_of_le hfr.hd with h | h
        · exact h
        · have := (h ▸ hfr : Fr M0 d (2 * d) st).rank_le
          omega
      rcases findPivot_spec len st hfr hlt with
        ⟨s, l, j0, g1, g2, g3, g4, g5, g6, i, g7, g8⟩ | ⟨s, g1, g2, g3⟩
      · obtain ⟨st1, N1, h1, h2, h3⟩ := reduceBlock_spec xg g2 g7 g5 g6 g8
        obtain ⟨st', N2, len', k1, k2, k3⟩ := reduceLoop_spec xg todo (d + 1) l st1 h2
          (by have : d + 1 + todo = d + (todo + 1) := by omega
              rw [this]; exact hrk)
        have hkeep : Keep d st1 st' := fun a b ha => k3 a b (by omega)
        refine ⟨st', max N1 N2, len', ?_, by rw [show d + (todo + 1) = d + 1 + todo by omega]; exact k2,
          (g3.trans h3).trans hkeep⟩
        intro fuel hf
        unfold reduceLoop
        rw [g1, Res.ok_bind]
        dsimp only
        rw [h1 fuel (by omega), Res.ok_bind]
        exact k1 fuel (by omega)
      · have := g2.rank_le
        omega

theorem Fr.init (M : Mat r) (ha : Antisymm M) : Fr M 0 r { P := 1, M := M } := by
  refine ⟨⟨⟨1, by simp⟩, by simp [IsCongruence], ha⟩, ?_, ?_, by omega, le_refl _⟩
  · intro a b h; omega
  · intro a b h; have := a.isLt; omega

end Hcp
