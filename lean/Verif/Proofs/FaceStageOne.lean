import Verif.Proofs.FaceStage

/-!
# The loops at the junction of two edges
-/

namespace Hcp.PlaneTree

variable {m : Nat} [NeZero m] {pe : Nat → PEdge} {r0 : Nat}

/-- the loops before edge `q`, all the loops of edge `q` but some of the last ones, and some of the first loops of edge `q + 1` -/
def junction {d : Nat} [NeZero d] (hd : d ∣ m) (q : Nat) (Φ : ZMod d → Prop) (U : ZMod m → Prop) (k : Nat) (α : ZMod m) : Prop :=
  if k = q + 1 then U α else if k = q then α.val < m - d ∨ Φ (cl hd α) else α ≠ -1

theorem Grows.stage_one {q d : Nat} [NeZero d] (hd : d ∣ m) (hdq : d = Nat.gcd m (q + 2)) (hg : Grows pe r0 (q + 2)) {Φ : ZMod d → Prop} (hΦ : ¬ Φ (-1)) {U : ZMod m → Prop} (hU : ∀ α, U α → α.val < d - 1)
    {F : Type} [Field F] (h : Has pe (q + 2) (junction hd q Φ U) F) : Has pe (q + 2) (junction hd q Φ U) ℚ := by
  classical
  obtain ⟨Z, z1, z2, k1, α1, z3⟩ := h
  have hk1 : k1 < q + 2 := by
    by_contra hk
    exact z3 (z2 _ _ fun g => hk g.1)
  obtain ⟨j, hj⟩ := hg.new_edge (m := m)
  have hdm := d_le hd
  have hd0 := Nat.pos_of_ne_zero (NeZero.ne d)
  have hm0 := Nat.pos_of_ne_zero (NeZero.ne m)
  have hg1 : Grows pe r0 (q + 1) := hg.mono (by omega)
  -- the set
  have je : ∀ α, junction hd q Φ U (q + 1) α ↔ U α := fun α => by unfold junction; rw [if_pos rfl]
  have jq : ∀ α, junction hd q Φ U q α ↔ (α.val < m - d ∨ Φ (cl hd α)) := fun α => by unfold junction; rw [if_neg (by omega), if_pos rfl]
  have jk : ∀ k < q, ∀ α, junction hd q Φ U k α ↔ α ≠ -1 := fun k hk α => by unfold junction; rw [if_neg (by omega), if_neg (by omega)]
  have hUm : ¬ U (-1) := by
    intro h
    have := hU _ h
    rw [val_neg_one' hd] at this
    omega
  have ze : ∀ α, ¬ U α → Z (q + 1) α = 0 := fun α h => z2 _ _ fun g => h ((je α).1 g.2)
  have zm : ∀ k, Z k (-1) = 0 := by
    intro k
    refine z2 _ _ fun g => ?_
    by_cases h1 : k = q + 1
    · subst h1
      exact hUm ((je _).1 g.2)
    · by_cases h2 : k = q
      · subst h2
        rcases (jq _).1 g.2 with h | h
        · rw [val_neg_one' hd] at h
          omega
        · rw [map_neg, map_one] at h
          exact hΦ h
      · exact (jk k (by omega) _).1 g.2 rfl
  have re : ∀ α, U α → gfun pe (q + 2) Z (q + 1) (α + 1) = gfun pe (q + 2) Z (q + 1) α := by
    intro α hα
    have := z1 (q + 1) α ((je α).2 hα) (by omega)
    rwa [hg.frm_eq Z (by omega), sub_eq_zero] at this
  have re' : ∀ α, U (α - 1) → gfun pe (q + 2) Z (q + 1) (α - 1) = gfun pe (q + 2) Z (q + 1) α := by
    intro α hα
    have := re (α - 1) hα
    rw [sub_add_cancel] at this
    exact this.symm
  have rk : ∀ k < q, ∀ α, frm pe (q + 2) Z k α = 0 := fun k hk => hg.row_all (by omega) fun α hα => z1 k α ((jk k hk α).2 hα) (by omega)
  have rq : ∀ α : ZMod m, α.val < m - d → frm pe (q + 2) Z q α = 0 := fun α hα => z1 q α ((jq α).2 (Or.inl hα)) (by omega)
  have rΦ : ∀ α : ZMod m, Φ (cl hd α) → frm pe (q + 2) Z q α = 0 := fun α hα => z1 q α ((jq α).2 (Or.inr hα)) (by omega)
  have rowR : ∀ {F : Type} [Field F] {R : Nat → ZMod m → F}, IsKer pe (q + 1) R → (∀ α, R (q + 1) α = 0) → ∀ k < q + 1, ∀ α, frm pe (q + 2) R k α = 0 := by
    intro F _ R r1 r2 k hk α
    rw [frm_succ r2]
    exact r1 k hk α
  -- a strip active on the last edge is a first representative
  have hlow : ∀ α, U α ∨ U (α - 1) → lo m (cl hd α) = α := by
    rintro α (h | h)
    · exact lo_of_lt hd (by have := hU _ h; omega)
    · refine lo_of_lt hd ?_
      have := hU _ h
      by_cases h0 : 0 < α.val
      · have := val_pred_of_pos h0
        omega
      · omega
  -- jumps of the last edge in the classes of `Φ`
  have hjumpΦ : ∀ s, Φ s → Z (q + 1) (lo m (s - cl hd j)) - Z (q + 1) (lo m (s - cl hd j) - 1) = 0 := by
    intro s hs
    obtain ⟨R, r1, r2, r3, r4⟩ := hg1.ker_class hd hdq (fun t => if t = s then (1 : F) else 0) (if_neg (by rintro rfl; exact hΦ hs))
    obtain ⟨c0, hc0⟩ := hj F R (r4 _ (by omega)) r1
    have h := hg.jump_sum hd (v := fun t => if t = s then (1 : F) else 0) (Z := Z) r1 (r4 _ (by omega)) (fun α => by rw [hc0, r3])
    rw [sum_class hd (fun α hα => ze α fun g => by have := hU _ g; omega), Finset.sum_eq_zero fun k hk => Finset.sum_eq_zero fun α _ => ?_] at h
    · rwa [eq_comm, neg_eq_zero] at h
    · have hk := Finset.mem_range.1 hk
      by_cases hkq : k = q
      · subst hkq
        rw [r3]
        by_cases e : cl hd α = s
        · rw [rΦ α (by rw [e]; exact hs), mul_zero]
        · rw [if_neg e, zero_mul]
      · rw [rk k (by omega), mul_zero]
  -- the periodic part
  obtain ⟨R, r1, r2, r3, r4⟩ := hg1.ker_class hd hdq (fun s => Z q (hi m s)) (by rw [hi_neg_one hd, zm])
  obtain ⟨c0, hc0⟩ := hj F R (r4 _ (by omega)) r1
  have hv0 : ∀ s, ¬ Φ s → Z q (hi m s) = 0 := by
    intro s hs
    refine z2 _ _ fun g => ?_
    rcases (jq _).1 g.2 with h | h
    · rw [val_hi hd] at h
      omega
    · rw [cl_hi hd] at h
      exact hs h
  by_cases hW : ∃ k0 < q + 2, ∃ α0, Z k0 α0 - R k0 α0 ≠ Z k0 (α0 - 1) - R k0 (α0 - 1)
  · obtain ⟨k0, hk0, α0, hα0⟩ := hW
    set W : Nat → ZMod m → F := fun k α => Z k α - R k α with hWd
    have We : ∀ α, W (q + 1) α = Z (q + 1) α := fun α => by rw [hWd]; simp only; rw [r4 _ (by omega), sub_zero]
    have fW : ∀ k < q + 1, ∀ α, frm pe (q + 2) W k α = frm pe (q + 2) Z k α := by
      intro k hk α
      rw [hWd, frm_sub, rowR r1 (r4 _ (by omega)) k hk, sub_zero]
    have gW : ∀ α, gfun pe (q + 2) W (q + 1) α = gfun pe (q + 2) Z (q + 1) α - (c0 - Z q (hi m (cl hd (α + j)))) := by
      intro α
      rw [hWd, gfun_sub, hc0, r3]
    have Wwin : ∀ α : ZMod m, m - d ≤ α.val → W q α = 0 := by
      intro α hα
      rw [hWd]
      simp only
      rw [r3, hi_of_le hd hα, sub_self]
    set Act : Nat → ZMod m → Prop := fun k α => if k = q + 1 then (U α ∨ U (α - 1)) ∧ ¬ Φ (cl hd (α + j)) else if k = q then α.val ≤ m - d else True with hAct
    have ae : ∀ α, Act (q + 1) α ↔ (U α ∨ U (α - 1)) ∧ ¬ Φ (cl hd (α + j)) := fun α => by simp [hAct]
    have aq : ∀ α, Act q α ↔ α.val ≤ m - d := fun α => by simp [hAct]
    have ak : ∀ k < q, ∀ α, Act k α := fun k hk α => by simp [hAct, show k ≠ q + 1 by omega, show k ≠ q by omega]
    have actq : ∀ {G : Type} [AddCommGroup G] {X : Nat → ZMod m → G}, (∀ α : ZMod m, α.val < m - d → frm pe (q + 2) X q α = 0) → ∀ α : ZMod m, α.val ≤ m - d → gfun pe (q + 2) X q α = gfun pe (q + 2) X q 0 := by
      intro G _ X hX
      have key : ∀ n : Nat, n ≤ m - d → gfun pe (q + 2) X q ((n : Nat) : ZMod m) = gfun pe (q + 2) X q 0 := by
        intro n
        induction n with
        | zero => simp
        | succ n ih =>
          intro hn
          have h1 := hX ((n : Nat) : ZMod m) (by rw [ZMod.val_cast_of_lt (by omega)]; omega)
          rw [hg.frm_eq X (by omega), sub_eq_zero, ← Nat.cast_succ] at h1
          rw [h1, ih (by omega)]
      intro α hα
      have := key α.val hα
      rwa [ZMod.natCast_zmod_val] at this
    obtain ⟨W', ψ, q1, q2, q3, q4, q5, q6⟩ := hg.transfer_leaf (e := q + 1) (show q + 1 < q + 2 by omega) hg.leaf W Act (fun α => gfun pe (q + 2) Z (q + 1) α - c0)
      (fun k hk hke α α' h h' => by
        by_cases hkq : k = q
        · subst hkq
          have hX : ∀ α : ZMod m, α.val < m - d → frm pe (k + 2) W k α = 0 := fun α hα => by rw [fW k (by omega), rq α hα]
          rw [actq hX α ((aq α).1 h), actq hX α' ((aq α').1 h')]
        · exact hg.row_gfun hk (fun α => by rw [fW k (by omega), rk k (by omega)]) α α')
      (fun k hk α hn => by
        by_cases hke : k = q + 1
        · subst hke
          rw [ae, not_and, not_not] at hn
          rw [We, We]
          by_cases hu : U α ∨ U (α - 1)
          · have := hjumpΦ _ (hn hu)
            rw [map_add, add_sub_cancel_right, hlow α hu] at this
            exact sub_eq_zero.1 this
          · push Not at hu
            rw [ze _ hu.1, ze _ hu.2]
        · by_cases hkq : k = q
          · subst hkq
            rw [aq, not_le] at hn
            have := val_pred_of_pos (α := α) (by omega)
            rw [Wwin α (by omega), Wwin (α - 1) (by omega)]
          · exact absurd (ak k (by omega) α) hn)
      (fun α ha => by
        obtain ⟨hu, hp⟩ := (ae α).1 ha
        have hgw : gfun pe (q + 2) W (q + 1) α = gfun pe (q + 2) Z (q + 1) α - c0 := by rw [gW, hv0 _ hp, sub_zero]
        refine ⟨Or.inr hgw.symm, ?_⟩
        by_cases hu1 : U (α - 1)
        · right
          rw [hgw, re' α hu1]
        · left
          rw [We]
          exact ze _ hu1)
      (fun α hn => by
        rw [ae, not_and, not_not] at hn
        rw [We]
        by_cases hu : U α
        · have hjz := hjumpΦ _ (hn (Or.inl hu))
          rw [map_add, add_sub_cancel_right, hlow α (Or.inl hu)] at hjz
          by_cases hu1 : U (α - 1)
          · right
            rw [re' α hu1]
          · left
            rw [ze _ hu1, sub_zero] at hjz
            exact hjz
        · exact Or.inl (ze _ hu)) hk0 hα0
    have W'e : ∀ α, ¬ U α → W' (q + 1) α = 0 := fun α h => q3 α (by rw [We]; exact ze α h)
    have W'k : ∀ k < q, ∀ α, frm pe (q + 2) W' k α = 0 := by
      intro k hk α
      rw [hg.frm_eq W' (by omega), q4 k (by omega) (by omega) (α + 1) α (ak k hk _) (ak k hk _), sub_self]
    have W'q : ∀ α : ZMod m, α.val < m - d → frm pe (q + 2) W' q α = 0 := by
      intro α hα
      rw [hg.frm_eq W' (by omega), q4 q (by omega) (by omega) (α + 1) α ((aq _).2 (by rw [val_succ_of_lt (by omega)]; omega)) ((aq _).2 hα.le), sub_self]
    have W'win : ∀ n : Nat, n < d → W' q (-1 - (n : Nat)) = 0 := by
      intro n
      induction n with
      | zero => intro _; simpa using q2 q (by omega) (by omega)
      | succ n ih =>
        intro hn
        have e : (-1 - ((n + 1 : Nat) : ZMod m)) = (-1 - (n : Nat)) - 1 := by push_cast; ring
        rw [e, ← q1 q (by omega) (-1 - (n : Nat)), ih (by omega)]
        rw [aq, not_le]
        have e2 : (-1 - ((n : Nat) : ZMod m)) = ((m - 1 - n : Nat) : ZMod m) := by
          rw [Nat.cast_sub (by omega), Nat.cast_sub (by omega), ZMod.natCast_self]
          push_cast
          ring
        rw [e2, ZMod.val_cast_of_lt (by omega)]
        omega
    have W'hi : ∀ s : ZMod d, W' q (hi m s) = 0 := by
      intro s
      have hs := ZMod.val_lt s
      have e : hi m s = -1 - ((d - 1 - s.val : Nat) : ZMod m) := by
        unfold hi lo
        rw [Nat.cast_sub (by omega), Nat.cast_sub (by omega)]
        push_cast
        ring
      rw [e]
      exact W'win _ (by omega)
    -- the periodic part over the rationals
    obtain ⟨R', s1, s2, s3, s4⟩ := hg1.ker_class hd hdq (fun s => if Φ s then ((gfun pe (q + 2) W' (q + 1) (lo m (s - cl hd j)) - ψ (gfun pe (q + 2) Z (q + 1) (lo m (s - cl hd j)) - c0) : ℤ) : ℚ) else 0) (if_neg hΦ)
    obtain ⟨c1, hc1⟩ := hj ℚ R' (s4 _ (by omega)) s1
    set WQ : Nat → ZMod m → ℚ := fun k α => (W' k α : ℚ) with hWQ
    have gWQ : ∀ k α, gfun pe (q + 2) WQ k α = ((gfun pe (q + 2) W' k α : ℤ) : ℚ) := fun k α => gfun_map (Int.castRingHom ℚ).toAddMonoidHom W' k α
    have fWQ : ∀ k α, frm pe (q + 2) WQ k α = ((frm pe (q + 2) W' k α : ℤ) : ℚ) := fun k α => frm_cast W' k α
    have W'Φ : ∀ s, Φ s → frm pe (q + 2) WQ q (hi m s) = 0 := by
      intro s hs
      obtain ⟨S, t1, t2, t3, t4⟩ := hg1.ker_class hd hdq (fun t => if t = s then (1 : ℚ) else 0) (if_neg (by rintro rfl; exact hΦ hs))
      obtain ⟨c2, hc2⟩ := hj ℚ S (t4 _ (by omega)) t1
      have h := hg.jump_sum hd (v := fun t => if t = s then (1 : ℚ) else 0) (Z := WQ) t1 (t4 _ (by omega)) (fun α => by rw [hc2, t3])
      have hj0 : W' (q + 1) (lo m (s - cl hd j)) = W' (q + 1) (lo m (s - cl hd j) - 1) := by
        refine q1 (q + 1) (by omega) _ ?_
        rw [ae, not_and, not_not]
        intro _
        rw [map_add, cl_lo hd, sub_add_cancel]
        exact hs
      have hsupp : ∀ α : ZMod m, d - 1 ≤ α.val → WQ (q + 1) α = 0 := by
        intro α hα
        rw [hWQ]
        simp only
        rw [W'e α fun g => by have := hU _ g; omega, Int.cast_zero]
      rw [sum_class hd hsupp] at h
      have h0 : WQ (q + 1) (lo m (s - cl hd j)) - WQ (q + 1) (lo m (s - cl hd j) - 1) = 0 := by
        rw [hWQ]
        simp only
        rw [hj0, sub_self]
      rw [h0, neg_zero, Finset.sum_range_succ, Finset.sum_eq_zero fun k hk => Finset.sum_eq_zero fun α _ => by rw [fWQ, W'k k (Finset.mem_range.1 hk), Int.cast_zero, mul_zero], zero_add, Finset.sum_eq_single (hi m s)] at h
      · rwa [t3, cl_hi hd, if_pos rfl, one_mul] at h
      · intro β _ hβ
        rw [t3]
        by_cases e : cl hd β = s
        · have : β.val < m - d := by
            by_contra hge
            apply hβ
            rw [← e, hi_of_le hd (not_lt.1 hge)]
          rw [fWQ, W'q β this, Int.cast_zero, mul_zero]
        · rw [if_neg e, zero_mul]
      · exact fun h => absurd (Finset.mem_univ _) h
    have main : ∀ α, U α ∨ U (α - 1) → gfun pe (q + 2) (fun k α => WQ k α + R' k α) (q + 1) α = c1 + ((ψ (gfun pe (q + 2) Z (q + 1) α - c0) : ℤ) : ℚ) := by
      intro α hα
      rw [gfun_add, gWQ, hc1, s3]
      by_cases hp : Φ (cl hd (α + j))
      · rw [if_pos hp, map_add, add_sub_cancel_right, hlow α hα, Int.cast_sub]
        ring
      · rw [if_neg hp, q5 α ((ae α).2 ⟨hα, hp⟩), gW, hv0 _ hp, sub_zero]
        ring
    refine ⟨fun k α => if k < q + 2 then WQ k α + R' k α else 0, fun k α hT hk => ?_, fun k α hn => ?_, ?_⟩
    · rw [frm_congr (Z' := fun k α => WQ k α + R' k α) (fun l hl β => if_pos hl)]
      by_cases hke : k = q + 1
      · subst hke
        rw [je] at hT
        rw [hg.frm_eq _ hk, main (α + 1) (Or.inr (by rw [add_sub_cancel_right]; exact hT)), main α (Or.inl hT), re α hT, sub_self]
      · rw [frm_add, rowR s1 (s4 _ (by omega)) k (by omega), add_zero]
        by_cases hkq : k = q
        · subst hkq
          by_cases hlt : α.val < m - d
          · rw [fWQ, W'q α hlt, Int.cast_zero]
          · have := W'Φ _ (((jq α).1 hT).resolve_left hlt)
            rwa [hi_of_le hd (not_lt.1 hlt)] at this
        · rw [fWQ, W'k k (by omega), Int.cast_zero]
    · beta_reduce
      by_cases hk : k < q + 2
      · rw [if_pos hk]
        have hT : ¬ junction hd q Φ U k α := fun g => hn ⟨hk, g⟩
        rw [hWQ]
        simp only
        by_cases hke : k = q + 1
        · subst hke
          rw [je] at hT
          rw [W'e α hT, s4 _ (by omega), Int.cast_zero, add_zero]
        · by_cases hkq : k = q
          · subst hkq
            rw [jq] at hT
            push Not at hT
            rw [s3, if_neg hT.2, ← hi_of_le hd hT.1, W'hi, Int.cast_zero, add_zero]
          · rw [jk k (by omega), not_not] at hT
            rw [hT, q2 k hk hke, s2, Int.cast_zero, add_zero]
      · rw [if_neg hk]
    · by_contra hc
      push Not at hc
      have hR0 : ∀ α, R' q α = 0 := by
        intro α
        have h1 := hc q (hi m (cl hd α))
        rw [if_pos (by omega), hWQ] at h1
        simp only at h1
        rw [W'hi, Int.cast_zero, zero_add, s3, cl_hi hd] at h1
        rw [s3, h1]
      have hR' : ∀ k < q + 2, ∀ α, R' k α = 0 := by
        intro k hk α
        by_cases hk' : k ≤ q
        · exact hg1.ker_zero s1 (fun k _ => s2 k) hR0 hk' α
        · exact s4 k (by omega) α
      have hW0 : ∀ α, W' k0 α = 0 := by
        intro α
        have h1 := hc k0 α
        rw [if_pos hk0, hWQ] at h1
        simp only at h1
        rwa [hR' k0 hk0, add_zero, Int.cast_eq_zero] at h1
      rw [hW0, hW0] at q6
      exact q6 rfl
  · push Not at hW
    have hZR : ∀ k < q + 2, ∀ α, Z k α = R k α := by
      intro k hk α
      have := no_jump (f := fun α => Z k α - R k α) (by rw [zm, r2, sub_self]) (hW k hk) α
      exact sub_eq_zero.1 this
    obtain ⟨s0, hs0⟩ : ∃ s : ZMod d, Z q (hi m s) ≠ 0 := by
      by_contra hc
      push Not at hc
      have hR0 : ∀ α, R q α = 0 := fun α => by rw [r3, hc]
      apply z3
      rw [hZR k1 hk1]
      by_cases hk' : k1 ≤ q
      · exact hg1.ker_zero r1 (fun k _ => r2 k) hR0 hk' α1
      · exact r4 k1 (by omega) α1
    obtain ⟨R', s1, s2, s3, s4⟩ := hg1.ker_class hd hdq (fun s => if Z q (hi m s) = Z q (hi m s0) then (1 : ℚ) else 0) (by rw [hi_neg_one hd, zm, if_neg hs0.symm])
    obtain ⟨c1, hc1⟩ := hj ℚ R' (s4 _ (by omega)) s1
    have hZR' : Z = R := by
      funext k α
      by_cases hk : k < q + 2
      · exact hZR k hk α
      · rw [z2 k α fun g => hk g.1, r4 k (by omega)]
    have hgZ : ∀ α, gfun pe (q + 2) Z (q + 1) α = c0 - Z q (hi m (cl hd (α + j))) := by
      intro α
      rw [← r3, ← hc0, ← hZR']
    refine ⟨R', fun k α hT hk => ?_, fun k α hn => ?_, q, hi m s0, by rw [s3, cl_hi hd, if_pos rfl]; exact one_ne_zero⟩
    · by_cases hke : k = q + 1
      · subst hke
        rw [je] at hT
        have h1 := re α hT
        rw [hgZ, hgZ, sub_right_inj] at h1
        rw [hg.frm_eq _ hk, hc1, hc1, s3, s3, h1, sub_self]
      · exact rowR s1 (s4 _ (by omega)) k (by omega) α
    · by_cases hk : k ≤ q
      · have hT : ¬ junction hd q Φ U k α := fun g => hn ⟨by omega, g⟩
        by_cases hkq : k = q
        · subst hkq
          rw [jq] at hT
          push Not at hT
          rw [s3, hv0 _ hT.2, if_neg hs0.symm]
        · rw [jk k (by omega), not_not] at hT
          rw [hT, s2]
      · exact s4 k (by omega) α

end Hcp.PlaneTree
