import Verif.Proofs.SympMain

/-!
# Rank and torsion facts about block forms; monotonicity in the fuel
-/

namespace Hcp
open Spec

variable {r : Nat}

/-! ### more fuel does not change a result -/

theorem sweep_mono (xg : XGcd) {i j : Fin r} {ks : List (Fin r)} :
    ∀ {fuel fuel' : Nat} {st s : St r}, sweep xg i j ks fuel st = .ok s → fuel ≤ fuel' →
      sweep xg i j ks fuel' st = .ok s
  | 0, _, st, s, h, _ => by simp [sweep] at h
  | f + 1, fuel', st, s, h, hle => by
      obtain ⟨f', rfl⟩ : ∃ f', fuel' = f' + 1 := ⟨fuel' - 1, by omega⟩
      unfold sweep at h ⊢
      dsimp only at h ⊢
      split
      · rename_i hb; rw [if_pos hb] at h; exact h
      · rename_i hb; rw [if_neg hb] at h; exact sweep_mono xg h (by omega)

theorem reduceBlock_mono (xg : XGcd) {fuel fuel' d len j0 : Nat} {st s : St r}
    (h : reduceBlock xg fuel d len j0 st = .ok s) (hle : fuel ≤ fuel') :
    reduceBlock xg fuel' d len j0 st = .ok s := by
  unfold reduceBlock at h ⊢
  rw [Res.bind_eq_ok] at h ⊢
  obtain ⟨st1, h1, h2⟩ := h
  refine ⟨st1, h1, ?_⟩
  split
  · rename_i hr
    rw [dif_pos hr] at h2
    exact sweep_mono xg h2 hle
  · rename_i hr
    rw [dif_neg hr] at h2
    simp at h2

theorem reduceLoop_mono (xg : XGcd) {fuel fuel' : Nat} (hle : fuel ≤ fuel') :
    ∀ {todo d len : Nat} {st s : St r}, reduceLoop xg fuel todo d len st = .ok s →
      reduceLoop xg fuel' todo d len st = .ok s
  | 0, _, _, _, _, h => h
  | todo + 1, d, len, st, s, h => by
      unfold reduceLoop at h ⊢
      rw [Res.bind_eq_ok] at h ⊢
      obtain ⟨⟨st', l, o⟩, h1, h2⟩ := h
      refine ⟨(st', l, o), h1, ?_⟩
      cases o with
      | none => exact h2
      | some j0 =>
        dsimp only at h2 ⊢
        rw [Res.bind_eq_ok] at h2 ⊢
        obtain ⟨st'', h3, h4⟩ := h2
        exact ⟨st'', reduceBlock_mono xg h3 hle, reduceLoop_mono xg hle h4⟩

/-! ### rank of a block form -/

theorem partner_partner (a : Nat) : partner (partner a) = a := by
  unfold partner; split_ifs <;> omega

theorem blockForm_indep {N : Mat r} {h : Nat} (hN : BlockForm h N) (ha : Antisymm N) {a0 b0 : Fin r}
    (ha0 : 2 * h ≤ a0.val) (hne : N a0 b0 ≠ 0) : 2 * h + 1 ≤ rankQ N := by
  obtain ⟨hr, hblk⟩ := hN
  let f : Option (Fin (2 * h)) → Fin r := fun o => o.elim a0 (fun t => ⟨t.val, by omega⟩)
  have hli : LinearIndependent ℚ ((N.map (Int.cast : ℤ → ℚ)).submatrix f id).row := by
    rw [Fintype.linearIndependent_iff]
    intro c hc
    have hcol : ∀ b : Fin r, ∑ o, c o * (N (f o) b : ℚ) = 0 := by
      intro b
      have := congrFun hc b
      simpa [Finset.sum_apply] using this
    have hsome : ∀ t : Fin (2 * h), c (some t) = 0 := by
      intro t
      have hp : partner t.val < 2 * h := partner_lt t.isLt
      let b : Fin r := ⟨partner t.val, by omega⟩
      have h1 := hcol b
      rw [Fintype.sum_option] at h1
      have h0 : N a0 b = 0 := by
        rw [ha a0 b]
        have : N b a0 = 0 := by
          by_contra hh
          have := (hblk b a0 hp).1 hh
          have e : b.val = partner t.val := rfl
          rw [e, partner_partner] at this
          omega
        rw [this, neg_zero]
      have h2 : ∀ t' : Fin (2 * h), t' ≠ t → N ⟨t'.val, by omega⟩ b = 0 := by
        intro t' htt
        by_contra hh
        have := (hblk ⟨t'.val, by omega⟩ b t'.isLt).1 hh
        have e : b.val = partner t.val := rfl
        rw [e] at this
        have e2 : t.val = t'.val := by
          have := congrArg partner this
          rw [partner_partner, partner_partner] at this
          exact this
        exact htt (Fin.ext e2.symm)
      have h3 : N ⟨t.val, by omega⟩ b ≠ 0 := (hblk ⟨t.val, by omega⟩ b t.isLt).2 rfl
      rw [Finset.sum_eq_single t] at h1
      · simp only [f, Option.elim_none, Option.elim_some, h0, Int.cast_zero, mul_zero, zero_add] at h1
        rcases mul_eq_zero.1 h1 with h | h
        · exact h
        · exact absurd (Int.cast_eq_zero.1 h) h3
      · intro t' _ htt
        simp only [f, Option.elim_some, h2 t' htt, Int.cast_zero, mul_zero]
      · simp
    intro o
    cases o with
    | some t => exact hsome t
    | none =>
      have h1 := hcol b0
      rw [Fintype.sum_option] at h1
      simp only [hsome, zero_mul, Finset.sum_const_zero, add_zero, f, Option.elim_none] at h1
      rcases mul_eq_zero.1 h1 with h | h
      · exact h
      · exact absurd (Int.cast_eq_zero.1 h) hne
  have h1 := hli.rank_matrix
  have h2 := Matrix.rank_submatrix_le (N.map (Int.cast : ℤ → ℚ)) f id
  rw [h1] at h2
  unfold rankQ
  simpa [Fintype.card_option] using h2

theorem blockForm_rank_ge {N : Mat r} {h : Nat} (hN : BlockForm h N) : 2 * h ≤ rankQ N := by
  obtain ⟨hr, hblk⟩ := hN
  let f : Fin (2 * h) → Fin r := fun t => ⟨t.val, by omega⟩
  have hli : LinearIndependent ℚ ((N.map (Int.cast : ℤ → ℚ)).submatrix f id).row := by
    rw [Fintype.linearIndependent_iff]
    intro c hc t
    have hp : partner t.val < 2 * h := partner_lt t.isLt
    let b : Fin r := ⟨partner t.val, by omega⟩
    have h1 : ∑ o, c o * (N (f o) b : ℚ) = 0 := by
      have := congrFun hc b
      simpa [Finset.sum_apply] using this
    have h2 : ∀ t' : Fin (2 * h), t' ≠ t → N (f t') b = 0 := by
      intro t' htt
      by_contra hh
      have := (hblk (f t') b t'.isLt).1 hh
      have e : b.val = partner t.val := rfl
      have e1 : (f t').val = t'.val := rfl
      rw [e, e1] at this
      have e2 : t.val = t'.val := by
        have := congrArg partner this
        rw [partner_partner, partner_partner] at this
        exact this
      exact htt (Fin.ext e2.symm)
    have h3 : N (f t) b ≠ 0 := (hblk (f t) b t.isLt).2 rfl
    rw [Finset.sum_eq_single t] at h1
    · rcases mul_eq_zero.1 h1 with h | h
      · exact h
      · exact absurd (Int.cast_eq_zero.1 h) h3
    · intro t' _ htt
      simp only [h2 t' htt, Int.cast_zero, mul_zero]
    · simp
  have h1 := hli.rank_matrix
  have h2 := Matrix.rank_submatrix_le (N.map (Int.cast : ℤ → ℚ)) f id
  rw [h1] at h2
  unfold rankQ
  simpa using h2

theorem Fr.blockForm {M0 : Mat r} {d len : Nat} {st : St r} (h : Fr M0 d len st) : BlockForm d st.M :=
  ⟨h.hd.trans h.hl, h.blk⟩

/-- with rank exactly `2d` everything outside the `d` blocks vanishes -/
theorem Fr.zeroTail {M0 : Mat r} {d len : Nat} {st : St r} (h : Fr M0 d len st)
    (hrk : rankQ M0 ≤ 2 * d) : ZeroTail d st.M := by
  intro a b ha
  by_contra hne
  have h1 := blockForm_indep h.blockForm h.inv.anti ha hne
  rw [rankQ_cong h.inv.uni h.inv.cong] at h1
  omega

/-! ### torsion -/

/-- the cokernel of `M` has no torsion: `c*y` in the image implies `y` in the image -/
def Saturated (M : Mat r) : Prop :=
  ∀ (c : ℤ) (x y : Fin r → ℤ), c ≠ 0 → M.mulVec x = c • y → ∃ x', M.mulVec x' = y

theorem Saturated.cong {P M N : Mat r} (hP : Unimodular P) (h : IsCongruence P M N)
    (hM : Saturated M) : Saturated N := by
  obtain ⟨Q, h1, h2⟩ := hP
  intro c x y hc hx
  have hQt : P.transpose * Q.transpose = 1 := by
    rw [← Matrix.transpose_mul, h2, Matrix.transpose_one]
  have e1 : M.mulVec (P.transpose.mulVec x) = c • Q.mulVec y := by
    have := congrArg Q.mulVec hx
    rw [h, Matrix.mulVec_smul, Matrix.mulVec_mulVec, Matrix.mul_assoc, ← Matrix.mul_assoc Q, h2,
      Matrix.one_mul] at this
    rw [Matrix.mulVec_mulVec]; exact this
  obtain ⟨x', hx'⟩ := hM c _ _ hc e1
  refine ⟨Q.transpose.mulVec x', ?_⟩
  rw [h, Matrix.mulVec_mulVec, Matrix.mul_assoc, hQt, Matrix.mul_one, ← Matrix.mulVec_mulVec, hx',
    Matrix.mulVec_mulVec, h1, Matrix.one_mulVec]

theorem saturated_unit {N : Mat r} {h : Nat} (hN : BlockForm h N) (hanti : Antisymm N)
    (hs : Saturated N) {a b : Fin r}
    (ha : a.val < 2 * h) (hb : b.val = partner a.val) : (N a b).natAbs = 1 := by
  obtain ⟨hr, hblk⟩ := hN
  have hb' : b.val < 2 * h := by rw [hb]; exact partner_lt ha
  have e1 : N.mulVec (Pi.single b 1) = N a b • (Pi.single a 1 : Fin r → ℤ) := by
    funext a'
    rw [Matrix.mulVec_single_one]
    simp only [Matrix.col_apply, Pi.smul_apply, smul_eq_mul]
    by_cases haa : a' = a
    · subst haa; simp
    · rw [Pi.single_eq_of_ne haa, mul_zero]
      have : N b a' = 0 := by
        by_contra hne
        have := (hblk b a' hb').1 hne
        rw [hb, partner_partner] at this
        exact haa (Fin.ext this)
      rw [hanti a' b, this, neg_zero]
  have hne : N a b ≠ 0 := (hblk a b ha).2 hb
  obtain ⟨x, hx⟩ := hs _ _ _ hne e1
  have h1 := congrFun hx a
  rw [Pi.single_eq_same] at h1
  have h2 : N.mulVec x a = N a b * x b := by
    unfold Matrix.mulVec dotProduct
    rw [Finset.sum_eq_single b]
    · intro b' _ hbb
      have : N a b' = 0 := by
        by_contra hne'
        have := (hblk a b' ha).1 hne'
        exact hbb (Fin.ext (this.trans hb.symm))
      beta_reduce; rw [this, zero_mul]
    · simp
  rw [h2] at h1
  exact Int.natAbs_of_isUnit (IsUnit.of_mul_eq_one _ h1)

/-! ### the standard form `J_h ⊕ 0` -/

theorem stdJ_antisymm (r h : Nat) : Antisymm (stdJ r h) := by
  intro a b
  unfold stdJ
  split_ifs <;> omega

theorem stdJ_apply_partner {h : Nat} {a b : Fin r} (ha : a.val < 2 * h) (hb : b.val = partner a.val) :
    stdJ r h a b = if a.val % 2 = 0 then 1 else -1 := by
  unfold partner at hb
  unfold stdJ
  split_ifs at hb ⊢ <;> omega

theorem stdJ_apply_other {h : Nat} {a b : Fin r} (hb : b.val ≠ partner a.val) :
    stdJ r h a b = 0 := by
  unfold partner at hb
  unfold stdJ
  split_ifs at hb ⊢ <;> omega

theorem stdJ_blockForm {r h : Nat} (hr : 2 * h ≤ r) : BlockForm h (stdJ r h) := by
  refine ⟨hr, fun a b ha => ?_⟩
  constructor
  · intro hne; by_contra hb; exact hne (stdJ_apply_other hb)
  · intro hb; rw [stdJ_apply_partner ha hb]; split <;> decide

theorem stdJ_zeroTail (r h : Nat) : ZeroTail h (stdJ r h) := by
  intro a b ha
  unfold stdJ
  split_ifs <;> omega

theorem stdJ_saturated {r h : Nat} (hr : 2 * h ≤ r) : Saturated (stdJ r h) := by
  intro c x y hc hx
  have hy : ∀ a : Fin r, 2 * h ≤ a.val → y a = 0 := by
    intro a ha
    have h1 := congrFun hx a
    have h2 : (stdJ r h).mulVec x a = 0 := by
      unfold Matrix.mulVec dotProduct
      apply Finset.sum_eq_zero
      intro b _
      beta_reduce; rw [stdJ_zeroTail r h a b ha, zero_mul]
    rw [h2] at h1
    simp only [Pi.smul_apply, smul_eq_mul] at h1
    rcases mul_eq_zero.1 h1.symm with h | h
    · exact absurd h hc
    · exact h
  let x' : Fin r → ℤ := fun b => if hb : b.val < 2 * h then
      (if b.val % 2 = 0 then - y ⟨partner b.val, lt_of_lt_of_le (partner_lt hb) hr⟩
        else y ⟨partner b.val, lt_of_lt_of_le (partner_lt hb) hr⟩) else 0
  refine ⟨x', ?_⟩
  funext a
  by_cases ha : a.val < 2 * h
  · have hp : partner a.val < 2 * h := partner_lt ha
    let b : Fin r := ⟨partner a.val, by omega⟩
    unfold Matrix.mulVec dotProduct
    rw [Finset.sum_eq_single b]
    · beta_reduce; rw [stdJ_apply_partner ha (rfl : b.val = partner a.val)]
      simp only [x', b, dif_pos hp, partner_partner]
      have : (partner a.val) % 2 = 0 ↔ ¬ a.val % 2 = 0 := by unfold partner; split <;> omega
      by_cases h0 : a.val % 2 = 0
      · rw [if_pos h0, if_neg (by rw [this]; simpa using h0)]; simp
      · rw [if_neg h0, if_pos (this.2 h0)]; simp
    · intro b' _ hbb
      beta_reduce; rw [stdJ_apply_other (fun e => hbb (Fin.ext e)), zero_mul]
    · simp
  · rw [hy a (by omega)]
    unfold Matrix.mulVec dotProduct
    apply Finset.sum_eq_zero
    intro b _
    beta_reduce; rw [stdJ_zeroTail r h a b (by omega), zero_mul]

end Hcp
