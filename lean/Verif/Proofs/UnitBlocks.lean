import Verif.Props.Symplectic
import Mathlib.Data.ZMod.Basic
import Mathlib.Algebra.Field.ZMod

/-!
# A form of the same rank over every field reduces to unit blocks
-/

namespace Hcp
open Spec

variable {r : Nat}

/-- rank of an integer matrix over a field -/
noncomputable def rankF (F : Type*) [Field F] (M : Mat r) : Nat := (M.map (Int.cast : ℤ → F)).rank

theorem rankF_cong (F : Type*) [Field F] {P M N : Mat r} (hP : Unimodular P) (h : IsCongruence P M N) : rankF F N = rankF F M := by
  obtain ⟨Q, h1, h2⟩ := hP
  unfold rankF
  have hd : ∀ A B : Mat r, (A * B).map (Int.cast : ℤ → F) = A.map Int.cast * B.map Int.cast :=
    fun A B => by
      have := Matrix.map_mul (L := A) (M := B) (f := Int.castRingHom F)
      simpa using this
  have hu : IsUnit (P.map (Int.cast : ℤ → F)).det := by
    have : P.map (Int.cast : ℤ → F) * Q.map Int.cast = 1 := by
      rw [← hd, h1]; simp
    exact (Matrix.isUnit_iff_isUnit_det _).1 (IsUnit.of_mul_eq_one _ this)
  have hut : IsUnit (P.map (Int.cast : ℤ → F)).transpose.det := by rw [Matrix.det_transpose]; exact hu
  rw [h, hd, hd, Matrix.transpose_map, Matrix.rank_mul_eq_left_of_isUnit_det _ _ hut,
    Matrix.rank_mul_eq_right_of_isUnit_det _ _ hu]

/-- a matrix with a vanishing row among the first `2h` and beyond has rank less than `2h` -/
theorem rankF_lt (F : Type*) [Field F] {N : Mat r} {h : Nat} (hz : ZeroTail h N) {a0 : Fin r} (ha0 : a0.val < 2 * h)
    (h0 : ∀ b, (N a0 b : F) = 0) : rankF F N < 2 * h := by
  unfold rankF
  set w : Fin r → F := fun a => if a.val < 2 * h ∧ a ≠ a0 then 1 else 0 with hw
  have e : N.map (Int.cast : ℤ → F) = Matrix.diagonal w * N.map Int.cast := by
    ext a b
    rw [Matrix.diagonal_mul]
    simp only [Matrix.map_apply, hw]
    split
    · simp
    · rename_i hc
      rw [zero_mul]
      by_cases g : a = a0
      · rw [g]; exact h0 b
      · rw [hz a b (by by_contra hlt; exact hc ⟨by omega, g⟩), Int.cast_zero]
  rw [e]
  refine (Matrix.rank_mul_le_left _ _).trans_lt ?_
  classical
  rw [Matrix.rank_diagonal]
  have : Fintype.card {i // w i ≠ 0} < Fintype.card (Fin (2 * h)) := by
    have hlt : ∀ x : {i // w i ≠ 0}, x.1.val < 2 * h ∧ x.1 ≠ a0 := by
      intro x
      have := x.2
      simp only [hw] at this
      by_contra hc
      rw [if_neg hc] at this
      exact this rfl
    refine Fintype.card_lt_of_injective_of_notMem (fun x : {i // w i ≠ 0} => (⟨x.1.val, (hlt x).1⟩ : Fin (2 * h))) ?_ (b := ⟨a0.val, ha0⟩) ?_
    · intro x y hxy
      simp only [Fin.mk.injEq] at hxy
      exact Subtype.ext (Fin.ext hxy)
    · rintro ⟨x, hx⟩
      simp only [Fin.mk.injEq] at hx
      exact (hlt x).2 (Fin.ext hx)
  simpa using this

/-- **unit blocks.** An antisymmetric matrix of rank `2g` over the rationals and over all prime fields reduces to `g` blocks with entries `±1`, all other entries being zero. -/
theorem reduces_units (xg : XGcd) {M : Mat r} {g : Nat} (ha : Antisymm M) (hQ : rankQ M = 2 * g)
    (hp : ∀ p : Nat, ∀ _ : Fact p.Prime, rankF (ZMod p) M = 2 * g) :
    ∃ st, Reduces xg M g st ∧ Unimodular st.P ∧ IsCongruence st.P M st.M ∧
      ∀ a b : Fin r, (a.val < 2 * g ∧ b.val = partner a.val → (st.M a b).natAbs = 1) ∧
        (¬ (a.val < 2 * g ∧ b.val = partner a.val) → st.M a b = 0) := by
  obtain ⟨st, N, len, h, hf, _⟩ := reduceLoop_spec xg g 0 r _ (Fr.init M ha) (by omega)
  rw [Nat.zero_add] at hf
  have hz := hf.zeroTail hQ.le
  refine ⟨st, ⟨N, h⟩, hf.inv.uni, hf.inv.cong, fun a b => ⟨?_, ?_⟩⟩
  · rintro ⟨h1, h2⟩
    by_contra hne
    obtain ⟨p, hpp, hdvd⟩ := Nat.exists_prime_and_dvd hne
    have hfact : Fact p.Prime := ⟨hpp⟩
    have hlt : rankF (ZMod p) st.M < 2 * g := by
      refine rankF_lt (ZMod p) hz h1 fun b' => ?_
      rw [ZMod.intCast_zmod_eq_zero_iff_dvd]
      by_cases hb : b' = b
      · rw [hb]; exact Int.natCast_dvd.2 hdvd
      · have : st.M a b' = 0 := by
          by_contra hc
          exact hb (Fin.ext (((hf.blk a b' h1).1 hc).trans h2.symm))
        rw [this]; exact dvd_zero _
    rw [rankF_cong (ZMod p) hf.inv.uni hf.inv.cong, hp p hfact] at hlt
    omega
  · intro hn
    by_cases ha' : a.val < 2 * g
    · by_contra hne
      exact hn ⟨ha', (hf.blk a b ha').1 hne⟩
    · exact hz a b (by omega)

end Hcp
