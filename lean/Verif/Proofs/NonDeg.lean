import Verif.Proofs.UnitBlocks
import Verif.Proofs.PUReduce

/-!
# A form invertible over every field is reduced in one pass per block
-/

namespace Hcp
open Spec

variable {r : Nat}

/-- after row `i` is cleared the pivot is `1` -/
theorem pivot_one {M0 : Mat r} {g : Nat} (hr : r = 2 * g) (hrk : ∀ p, [Fact p.Prime] → rankF (ZMod p) M0 = 2 * g) {d len : Nat} {st : St r} (hf : Fr M0 d len st) {i j : Fin r} (hi : i.val = 2 * d) (hj : j.val = 2 * d + 1)
    (hpos : 0 < st.M i j) (hz : ∀ k : Fin r, 2 * d + 2 ≤ k.val → st.M i k = 0) : st.M i j = 1 := by
  by_contra hne
  obtain ⟨p, hp, hdvd⟩ := Nat.exists_prime_and_dvd (n := (st.M i j).natAbs) (by omega)
  have : Fact p.Prime := ⟨hp⟩
  have h0 : ∀ b, ((st.M i b : ℤ) : ZMod p) = 0 := by
    intro b
    rcases lt_trichotomy b.val (2 * d + 1) with hb | hb | hb
    · have : st.M i b = 0 := by
        by_cases hb' : b.val < 2 * d
        · exact hf.zero_out' hb' (by omega)
        · have : b = i := Fin.ext (by omega)
          rw [this]; exact antisymm_diag hf.inv.anti _
      rw [this, Int.cast_zero]
    · have : b = j := Fin.ext (by omega)
      rw [this, ZMod.intCast_zmod_eq_zero_iff_dvd]
      exact Int.natCast_dvd.2 hdvd
    · rw [hz b (by omega), Int.cast_zero]
  have h1 := rankF_lt (ZMod p) (N := st.M) (h := g) (fun a b ha => by have := a.isLt; omega) (a0 := i) (by have := i.isLt; omega) h0
  rw [rankF_cong (ZMod p) hf.inv.uni hf.inv.cong, hrk p] at h1
  omega

theorem sweep_one {M0 : Mat r} {g : Nat} (hr : r = 2 * g) (hrk : ∀ p, [Fact p.Prime] → rankF (ZMod p) M0 = 2 * g) (xg : XGcd) {d len : Nat} {i j : Fin r} (hi : i.val = 2 * d)
    (hj : j.val = 2 * d + 1) (hjl : j.val < len) {st : St r} (hfr : Fr M0 d len st) (hpos : 0 < st.M i j) : ∃ st', sweep xg i j (idxRange r (2 * d + 2) len) 1 st = .ok st' := by
  have hks : ∀ k ∈ idxRange r (2 * d + 2) len, 2 * d + 2 ≤ k.val ∧ k.val < len :=
    fun k hk => mem_idxRange.1 hk
  obtain ⟨p1, p2, p3, p4, p5, p6⟩ := clearRowI_spec xg hi hj hjl _ st hks hfr hpos.ne'
  have hz : ∀ k : Fin r, 2 * d + 2 ≤ k.val → (clearRowI xg i j (idxRange r (2 * d + 2) len) st).M i k = 0 := by
    intro k hk
    by_cases hkl : k.val < len
    · exact p6 k hk (Or.inl (mem_idxRange.2 ⟨hk, hkl⟩))
    · exact p1.tail' (by omega)
  have h1 := pivot_one hr hrk p1 hi hj (p5 hpos) hz
  have hij : i ≠ j := by rintro rfl; omega
  obtain ⟨q, -⟩ := clearRowJ_unit xg hij (idxRange r (2 * d + 2) len) _ true ((List.nodup_finRange r).filter _)
    (fun h => by have := (hks i h).1; omega) (fun h => by have := (hks j h).1; omega) h1
  refine ⟨(clearRowJ xg i j (idxRange r (2 * d + 2) len) (clearRowI xg i j (idxRange r (2 * d + 2) len) st) true).1, ?_⟩
  unfold sweep
  dsimp only
  rw [q, if_pos rfl]

theorem reduceLoop_one {M0 : Mat r} {g : Nat} (hr : r = 2 * g) (hrk : ∀ p, [Fact p.Prime] → rankF (ZMod p) M0 = 2 * g) (hq : rankQ M0 = 2 * g) (xg : XGcd) :
    ∀ (todo d len : Nat) (st : St r), Fr M0 d len st → d + todo = g → ∃ s, reduceLoop xg 1 todo d len st = .ok s
  | 0, d, len, st, _, _ => ⟨st, rfl⟩
  | todo + 1, d, len, st, hfr, he => by
      have hlt : 2 * d < len := by
        rcases lt_or_eq_of_le hfr.hd with h | h
        · exact h
        · have := (h ▸ hfr : Fr M0 d (2 * d) st).rank_le
          omega
      rcases findPivot_spec len st hfr hlt with
        ⟨s1, l, j0, g1, g2, g3, g4, g5, g6, i, g7, g8⟩ | ⟨s1, g1, g2, g3⟩
      · have hl := g2.hl
        let j : Fin r := ⟨2 * d + 1, by omega⟩
        obtain ⟨st2, f2, k2, pos, hjl, e⟩ := reduceBlock_prefix xg g2 (j := j) g7 rfl g5 g6 g8
        obtain ⟨st', hs, hf, hk, hne', hz⟩ :=
          sweep_spec xg g7 (j := j) rfl hjl _ st2 (le_refl _) f2 pos.ne'
        obtain ⟨st'', h1⟩ := sweep_one hr hrk xg g7 (j := j) rfl hjl f2 pos
        have h1' := sweep_mono xg h1 (Nat.le_add_left 1 (st2.M i j).natAbs)
        rw [hs _ (by omega)] at h1'
        obtain rfl := Res.ok.inj h1'
        have hfr' := block_extend g7 (rfl : j.val = 2 * d + 1) hjl hf hne' hz
        obtain ⟨s, h2⟩ := reduceLoop_one hr hrk hq xg todo (d + 1) l st' hfr' (by omega)
        refine ⟨s, ?_⟩
        unfold reduceLoop
        rw [g1, Res.ok_bind]
        dsimp only
        rw [e 1, h1, Res.ok_bind]
        exact h2
      · have := g2.rank_le
        omega

end Hcp
