import Verif.Proofs.SympRank

/-!
# Outcome of the reduction without rank hypothesis, orientation, checker
-/

namespace Hcp
open Spec

variable {r : Nat}

theorem idxRange_empty {lo hi : Nat} (h : hi ≤ lo) : idxRange r lo hi = [] := by
  rw [List.eq_nil_iff_forall_not_mem]
  intro k hk
  have := mem_idxRange.1 hk
  omega

theorem pivotLine_short {M : Mat r} {i len : Nat} (h : len ≤ i + 1) : pivotLine M i len = len := by
  unfold pivotLine
  split
  · rw [idxRange_empty h]; rfl
  · rfl

theorem findPivot_short {d : Nat} : ∀ (len : Nat) (st : St r), len ≤ 2 * d → (findPivot d len st).isUb
  | 0, _, _ => trivial
  | len + 1, st, h => by
      unfold findPivot
      dsimp only
      rw [if_pos (pivotLine_short (by omega))]
      unfold swapStep
      rw [if_neg (by omega)]
      split
      · rw [Res.ok_bind, if_neg (by omega)]
        exact findPivot_short len _ (by omega)
      · trivial

/-- outcome of the main loop for any rank -/
theorem reduceLoop_outcome (xg : XGcd) {M0 : Mat r} :
    ∀ (todo d len : Nat) (st : St r), Fr M0 d len st →
      ∃ N, ∀ fuel, N ≤ fuel →
        (∃ st' h len', reduceLoop xg fuel todo d len st = .ok st' ∧ Fr M0 h len' st' ∧
          (h = d + todo ∨ (h < d + todo ∧ len' = 2 * h))) ∨
        ((reduceLoop xg fuel todo d len st).isUb ∧ rankQ M0 < 2 * (d + todo))
  | 0, d, len, st, hfr => ⟨0, fun _ _ => Or.inl ⟨st, d, len, rfl, hfr, Or.inl rfl⟩⟩
  | todo + 1, d, len, st, hfr => by
      rcases lt_or_eq_of_le hfr.hd with hlt | heq
      · rcases findPivot_spec len st hfr hlt with
          ⟨s, l, j0, g1, g2, g3, g4, g5, g6, i, g7, g8⟩ | ⟨s, g1, g2, g3⟩
        · obtain ⟨st1, N1, h1, h2, h3⟩ := reduceBlock_spec xg g2 g7 g5 g6 g8
          obtain ⟨N2, k⟩ := reduceLoop_outcome xg todo (d + 1) l st1 h2
          refine ⟨max N1 N2, ?_⟩
          intro fuel hf
          have e : reduceLoop xg fuel (todo + 1) d len st = reduceLoop xg fuel todo (d + 1) l st1 := by
            conv_lhs => unfold reduceLoop
            rw [g1, Res.ok_bind]
            dsimp only
            rw [h1 fuel (by omega), Res.ok_bind]
          have e2 : d + (todo + 1) = d + 1 + todo := by omega
          rw [e, e2]
          exact k fuel (by omega)
        · refine ⟨0, fun fuel _ => Or.inl ⟨s, d, 2 * d, ?_, g2, Or.inr ⟨by omega, rfl⟩⟩⟩
          unfold reduceLoop
          rw [g1, Res.ok_bind]
      · refine ⟨0, fun fuel _ => Or.inr ⟨?_, ?_⟩⟩
        · have := findPivot_short (d := d) len st (by omega)
          unfold reduceLoop
          revert this
          cases findPivot d len st <;> simp [Res.isUb]
        · have := (heq ▸ hfr : Fr M0 d (2 * d) st).rank_le
          omega

/-- all finished blocks are positively oriented -/
def Pos (d : Nat) (st : St r) : Prop :=
  ∀ a b : Fin r, a.val < 2 * d → a.val % 2 = 0 → b.val = a.val + 1 → 0 < st.M a b

theorem reduceLoop_one_pos (xg : XGcd) {M0 : Mat r} :
    ∀ (todo d len : Nat) (st s : St r), Fr M0 d len st → Pos d st → 2 * (d + todo) ≤ rankQ M0 →
      reduceLoop xg 1 todo d len st = .ok s → Pos (d + todo) s
  | 0, d, len, st, s, _, hp, _, h => by
      simp only [reduceLoop, Res.ok.injEq] at h
      subst h; exact hp
  | todo + 1, d, len, st, s, hfr, hp, hrk, h => by
      have hlt : 2 * d < len := by
        rcases lt_or_eq_of_le hfr.hd with h | h
        · exact h
        · have := (h ▸ hfr : Fr M0 d (2 * d) st).rank_le
          omega
      rcases findPivot_spec len st hfr hlt with
        ⟨s1, l, j0, g1, g2, g3, g4, g5, g6, i, g7, g8⟩ | ⟨s1, g1, g2, g3⟩
      · have hl := g2.hl
        let j : Fin r := ⟨2 * d + 1, by omega⟩
        obtain ⟨st2, f2, k2, pos, hjl, e⟩ := reduceBlock_prefix xg g2 (j := j) g7 rfl g5 g6 g8
        obtain ⟨st', hs, hf, hk, hne', hz⟩ :=
          sweep_spec xg g7 (j := j) rfl hjl _ st2 (le_refl _) f2 pos.ne'
        unfold reduceLoop at h
        rw [g1, Res.ok_bind] at h
        dsimp only at h
        rw [Res.bind_eq_ok] at h
        obtain ⟨st'', h1, h2⟩ := h
        rw [e 1] at h1
        have hpos := sweep_one_pos xg g7 (j := j) rfl hjl f2 pos h1
        have h1' := sweep_mono xg h1 (Nat.le_add_left 1 (st2.M i j).natAbs)
        rw [hs _ (by omega)] at h1'
        simp only [Res.ok.injEq] at h1'
        subst h1'
        have hfr' := block_extend g7 (rfl : j.val = 2 * d + 1) hjl hf hne' hz
        have := reduceLoop_one_pos xg todo (d + 1) l st' s hfr' (by
          intro a b ha h0 hb
          by_cases ha' : a.val < 2 * d
          · rw [hk a b ha', k2 a b ha', g3 a b ha']; exact hp a b ha' h0 hb
          · have e1 : a = i := Fin.ext (by omega)
            have e2 : b = j := Fin.ext (by simp only [j]; omega)
            rw [e1, e2]; exact hpos) (by
          have : d + 1 + todo = d + (todo + 1) := by omega
          rw [this]; exact hrk) h2
        rw [show d + (todo + 1) = d + 1 + todo by omega]; exact this
      · have := g2.rank_le
        omega

/-! ### the checker -/

theorem isSympRow_iff (M : Mat r) (i0 i1 : Fin r) : ∀ js : List (Fin r),
    isSympRow M i0 i1 js = true ↔ ∀ j ∈ js, (j ≠ i1 → M i0 j = 0) ∧ (j ≠ i0 → M i1 j = 0)
  | [] => by simp [isSympRow]
  | j :: js => by
      unfold isSympRow
      rw [List.forall_mem_cons, ← isSympRow_iff M i0 i1 js]
      split
      · rename_i h
        simp only [Bool.false_eq_true, false_iff, not_and]
        intro h'; exact absurd (h'.1 h.1) h.2
      · rename_i h
        split
        · rename_i h2
          simp only [Bool.false_eq_true, false_iff, not_and]
          intro h'; exact absurd (h'.2 h2.1) h2.2
        · rename_i h2
          push Not at h h2
          simp only [ne_eq, iff_and_self]
          intro _; exact ⟨h, h2⟩

theorem isSympGo_iff (M : Mat r) {g2 : Nat} (hg2 : g2 ≤ r) :
    ∀ (todo i : Nat), 2 * (i + todo) ≤ r → ∃ v, isSympGo M g2 todo i = .ok v ∧
      (v = true ↔ ∀ a b : Fin r, i ≤ a.val / 2 → a.val / 2 < i + todo →
        ((b.val < g2 → b.val ≠ partner a.val → M a b = 0) ∧
         (b.val = partner a.val → M a b = - M b a)))
  | 0, i, _ => ⟨true, rfl, by
      simp only [true_iff]; intro a b h1 h2; omega⟩
  | todo + 1, i, hle => by
      obtain ⟨v, hv, hiff⟩ := isSympGo_iff M hg2 todo (i + 1) (by omega)
      unfold isSympGo
      rw [dif_pos ⟨by omega, hg2⟩]
      dsimp only
      let i0 : Fin r := ⟨2 * i, by omega⟩
      let i1 : Fin r := ⟨2 * i + 1, by omega⟩
      have h0 : i0.val = 2 * i := rfl
      have h1 : i1.val = 2 * i + 1 := rfl
      have p0 : partner i0.val = 2 * i + 1 := by unfold partner; rw [if_pos (by omega)]
      have p1 : partner i1.val = 2 * i := by unfold partner; rw [if_neg (by omega)]; omega
      -- statement for the pair i
      have hpair : (∀ a b : Fin r, a.val / 2 = i →
          ((b.val < g2 → b.val ≠ partner a.val → M a b = 0) ∧
           (b.val = partner a.val → M a b = - M b a))) ↔
          (isSympRow M i0 i1 (idxRange r 0 g2) = true ∧ - M i0 i1 = M i1 i0) := by
        rw [isSympRow_iff]
        constructor
        · intro h
          refine ⟨?_, ?_⟩
          · intro j hj
            have hjg := (mem_idxRange.1 hj).2
            refine ⟨fun hne => ?_, fun hne => ?_⟩
            · exact (h i0 j (by omega)).1 hjg (by rw [p0]; intro e; exact hne (Fin.ext e))
            · exact (h i1 j (by omega)).1 hjg (by rw [p1]; intro e; exact hne (Fin.ext e))
          · have := (h i0 i1 (by omega)).2 (by rw [p0])
            rw [this]; simp
        · rintro ⟨hrow, hanti⟩ a b ha
          have : a = i0 ∨ a = i1 := by
            rcases Nat.mod_two_eq_zero_or_one a.val with h | h
            · left; exact Fin.ext (by omega)
            · right; exact Fin.ext (by omega)
          rcases this with rfl | rfl
          · refine ⟨fun hb hne => ?_, fun hb => ?_⟩
            · exact (hrow b (mem_idxRange.2 ⟨by omega, hb⟩)).1 (by rintro rfl; exact hne p0.symm)
            · have : b = i1 := Fin.ext (by rw [hb, p0])
              subst this; omega
          · refine ⟨fun hb hne => ?_, fun hb => ?_⟩
            · exact (hrow b (mem_idxRange.2 ⟨by omega, hb⟩)).2 (by rintro rfl; exact hne p1.symm)
            · have : b = i0 := Fin.ext (by rw [hb, p1])
              subst this; omega
      have hsplit : (∀ a b : Fin r, i ≤ a.val / 2 → a.val / 2 < i + (todo + 1) →
          ((b.val < g2 → b.val ≠ partner a.val → M a b = 0) ∧
           (b.val = partner a.val → M a b = - M b a))) ↔
          ((isSympRow M i0 i1 (idxRange r 0 g2) = true ∧ - M i0 i1 = M i1 i0) ∧ v = true) := by
        rw [← hpair, hiff]
        constructor
        · intro h
          exact ⟨fun a b ha => h a b (by omega) (by omega), fun a b h1 h2 => h a b (by omega) (by omega)⟩
        · rintro ⟨h1, h2⟩ a b h3 h4
          by_cases ha : a.val / 2 = i
          · exact h1 a b ha
          · exact h2 a b (by omega) (by omega)
      by_cases hc1 : isSympRow M i0 i1 (idxRange r 0 g2) = true
      · rw [if_pos hc1]
        by_cases hc2 : - M i0 i1 = M i1 i0
        · rw [if_pos hc2]
          refine ⟨v, hv, ?_⟩
          rw [hsplit]
          simp [hc1, hc2]
        · rw [if_neg hc2]
          refine ⟨false, rfl, ?_⟩
          rw [hsplit]
          simp [hc2]
      · rw [if_neg hc1]
        refine ⟨false, rfl, ?_⟩
        rw [hsplit]
        simp [hc1]

end Hcp
