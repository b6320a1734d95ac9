import Verif.Spec.Riemann
import Verif.Spec.Symplectic
import Mathlib.Data.Complex.Basic
import Mathlib.Data.Complex.BigOperators
import Mathlib.LinearAlgebra.Matrix.NonsingularInverse
import Mathlib.LinearAlgebra.Matrix.ToLinearEquiv
import Mathlib.Tactic.LinearCombination

/-!
# Bilinear relations and Riemann matrices
-/

namespace Hcp
open Spec

theorem sum_pairs {M : Type} [AddCommMonoid M] (f : Nat → M) : ∀ g : Nat, ∑ b ∈ Finset.range (2 * g), f b = ∑ i ∈ Finset.range g, (f (2 * i) + f (2 * i + 1))
  | 0 => by simp
  | g + 1 => by
    rw [show 2 * (g + 1) = 2 * g + 1 + 1 by ring, Finset.sum_range_succ, Finset.sum_range_succ, sum_pairs f g, Finset.sum_range_succ, add_assoc]

/-- sums over `Fin N` of functions vanishing from `2g` on -/
theorem sum_fin_pairs {M : Type} [AddCommMonoid M] {N g : Nat} (hg : 2 * g ≤ N) (f : Fin N → M) (hz : ∀ b, 2 * g ≤ b.val → f b = 0) :
    ∑ b, f b = ∑ i : Fin g, (f ⟨2 * i, by omega⟩ + f ⟨2 * i + 1, by omega⟩) := by
  have e : ∑ b, f b = ∑ b ∈ Finset.range N, if h : b < N then f ⟨b, h⟩ else 0 := by
    rw [Finset.sum_range]
    exact Finset.sum_congr rfl fun b _ => by rw [dif_pos b.isLt]
  rw [e, ← Finset.sum_range_add_sum_Ico _ hg, sum_pairs]
  have e2 : ∑ b ∈ Finset.Ico (2 * g) N, (if h : b < N then f ⟨b, h⟩ else 0) = 0 := by
    refine Finset.sum_eq_zero fun b hb => ?_
    rw [Finset.mem_Ico] at hb
    rw [dif_pos hb.2]
    exact hz _ hb.1
  rw [e2, add_zero, Finset.sum_range]
  refine Finset.sum_congr rfl fun i _ => ?_
  rw [dif_pos (by omega), dif_pos (by omega)]

/-- If the linear forms `W K`, `W' K` are given by the intersection form `K`, then the values of these forms on the symplectic basis made of the first rows of `Q` satisfy the bilinear relation. -/
theorem bilinear {N g k : Nat} (hg : 2 * g ≤ N) {K Q : Matrix (Fin N) (Fin N) ℤ} (hQ : Unimodular Q) (hJ : Q * K * Q.transpose = stdJ N g) (W W' : Matrix (Fin k) (Fin N) ℂ) (r s : Fin k) :
    ∑ i : Fin g, (((W * K.map (Int.cast : ℤ → ℂ)) * (Q.map (Int.cast : ℤ → ℂ)).transpose) r ⟨2 * i, by omega⟩ * ((W' * K.map (Int.cast : ℤ → ℂ)) * (Q.map (Int.cast : ℤ → ℂ)).transpose) s ⟨2 * i + 1, by omega⟩ -
      ((W * K.map (Int.cast : ℤ → ℂ)) * (Q.map (Int.cast : ℤ → ℂ)).transpose) r ⟨2 * i + 1, by omega⟩ * ((W' * K.map (Int.cast : ℤ → ℂ)) * (Q.map (Int.cast : ℤ → ℂ)).transpose) s ⟨2 * i, by omega⟩) =
    (W * K.map (Int.cast : ℤ → ℂ) * W'.transpose) r s := by
  obtain ⟨P, h1, h2⟩ := hQ
  set Kc := K.map (Int.cast : ℤ → ℂ) with hKc
  set Qc := Q.map (Int.cast : ℤ → ℂ) with hQc
  set Pc := P.map (Int.cast : ℤ → ℂ) with hPc
  set J := (stdJ N g).map (Int.cast : ℤ → ℂ) with hJc
  have cm : ∀ A B : Matrix (Fin N) (Fin N) ℤ, (A * B).map (Int.cast : ℤ → ℂ) = A.map (Int.cast : ℤ → ℂ) * B.map (Int.cast : ℤ → ℂ) := fun A B => Matrix.map_mul (f := Int.castRingHom ℂ)
  have hPQ : Pc * Qc = 1 := by
    rw [hPc, hQc, ← cm, h2]
    exact Matrix.map_one _ (by simp) (by simp)
  have hJ' : Qc * Kc * Qc.transpose = J := by
    rw [hJc, ← hJ, cm, cm, Matrix.transpose_map]
  -- coordinates in the basis
  have hU : ∀ V : Matrix (Fin k) (Fin N) ℂ, V * Kc * Qc.transpose = (V * Pc) * J := by
    intro V
    rw [← hJ']
    simp only [Matrix.mul_assoc]
    rw [← Matrix.mul_assoc Pc, hPQ, Matrix.one_mul]
  have hent : ∀ (U : Matrix (Fin k) (Fin N) ℂ) (q : Fin k) (i : Fin g), (U * J) q ⟨2 * i, by omega⟩ = -U q ⟨2 * i + 1, by omega⟩ ∧ (U * J) q ⟨2 * i + 1, by omega⟩ = U q ⟨2 * i, by omega⟩ := by
    intro U q i
    have hi := i.isLt
    constructor
    · rw [Matrix.mul_apply, Finset.sum_eq_single (⟨2 * i + 1, by omega⟩ : Fin N)]
      · rw [hJc, Matrix.map_apply, stdJ, if_neg (by dsimp only; omega), if_pos ⟨by dsimp only; omega, by dsimp only; omega, rfl⟩]
        push_cast; ring
      · intro b _ hb
        have hb' : b.val ≠ 2 * i + 1 := fun h => hb (Fin.ext h)
        rw [hJc, Matrix.map_apply, stdJ, if_neg (by dsimp only; omega), if_neg (by dsimp only; omega)]
        simp
      · intro h; exact absurd (Finset.mem_univ _) h
    · rw [Matrix.mul_apply, Finset.sum_eq_single (⟨2 * i, by omega⟩ : Fin N)]
      · rw [hJc, Matrix.map_apply, stdJ, if_pos ⟨by dsimp only; omega, by dsimp only; omega, rfl⟩]
        push_cast; ring
      · intro b _ hb
        have hb' : b.val ≠ 2 * i := fun h => hb (Fin.ext h)
        rw [hJc, Matrix.map_apply, stdJ, if_neg (by dsimp only; omega), if_neg (by dsimp only; omega)]
        simp
      · intro h; exact absurd (Finset.mem_univ _) h
  have htail : ∀ (U : Matrix (Fin k) (Fin N) ℂ) (q : Fin k) (b : Fin N), 2 * g ≤ b.val → (U * J) q b = 0 := by
    intro U q b hb
    rw [Matrix.mul_apply]
    refine Finset.sum_eq_zero fun a _ => ?_
    rw [hJc, Matrix.map_apply, stdJ, if_neg (by omega), if_neg (by omega)]
    simp
  have hrhs : (W * Kc * W'.transpose) r s = ∑ b, ((W * Pc) * J) r b * (W' * Pc) s b := by
    have e : W * Kc * W'.transpose = ((W * Pc) * J) * (W' * Pc).transpose := by
      rw [← hU, Matrix.transpose_mul]
      simp only [Matrix.mul_assoc]
      rw [← Matrix.mul_assoc Qc.transpose, ← Matrix.transpose_mul, hPQ, Matrix.transpose_one, Matrix.one_mul]
    rw [e, Matrix.mul_apply]
    rfl
  rw [hrhs, sum_fin_pairs hg _ (fun b hb => by rw [htail _ _ _ hb, zero_mul]), hU, hU]
  refine Finset.sum_congr rfl fun i _ => ?_
  obtain ⟨a1, a2⟩ := hent (W * Pc) r i
  obtain ⟨b1, b2⟩ := hent (W' * Pc) s i
  rw [a1, a2, b1, b2]
  ring

/-- From the relations to Riemann matrices: `A B^T` is symmetric and the Hermitian form of the relations is positive. -/
theorem riemann_of_form {g : Nat} {A B : Matrix (Fin g) (Fin g) ℂ} {F : (Fin g → ℂ) → ℝ} (hF0 : ∀ v, v ≠ 0 → 0 < F v) (hs : A * B.transpose - B * A.transpose = 0)
    (hform : ∀ v : Fin g → ℂ, ∑ i, ((∑ r, v r * A r i) * (starRingEnd ℂ) (∑ r, v r * B r i) - (∑ r, v r * B r i) * (starRingEnd ℂ) (∑ r, v r * A r i)) = -Complex.I * (F v : ℂ)) :
    A.det ≠ 0 ∧ ∀ tau, A * tau = B → IsRiemannMatrix tau := by
  have hdet : A.det ≠ 0 := by
    intro h0
    obtain ⟨v, hv, hvA⟩ := Matrix.exists_vecMul_eq_zero_iff.2 h0
    have hz : ∀ i, ∑ r, v r * A r i = 0 := fun i => congrFun hvA i
    have := hform v
    simp only [hz, map_zero, mul_zero, zero_mul, sub_zero, Finset.sum_const_zero] at this
    have h1 : F v = 0 := by
      have h2 := mul_eq_zero.1 this.symm
      rcases h2 with h2 | h2
      · exact absurd (neg_eq_zero.1 h2) Complex.I_ne_zero
      · exact_mod_cast h2
    exact absurd h1 (hF0 v hv).ne'
  refine ⟨hdet, fun tau htau => ?_⟩
  have hu : IsUnit A.det := isUnit_iff_ne_zero.2 hdet
  have hsymm : tau.transpose = tau := by
    rw [← htau, Matrix.transpose_mul] at hs
    have h1 : A * (tau.transpose - tau) * A.transpose = 0 := by
      rw [Matrix.mul_sub, Matrix.sub_mul, Matrix.mul_assoc A tau.transpose, hs]
    have h2 : tau.transpose - tau = 0 := by
      have hu' : IsUnit A.transpose.det := by rwa [Matrix.det_transpose]
      have := congrArg (fun M => A⁻¹ * M * (A.transpose)⁻¹) h1
      simpa [Matrix.mul_assoc, Matrix.mul_nonsing_inv _ hu', Matrix.nonsing_inv_mul_cancel_left _ _ hu] using this
    exact sub_eq_zero.1 h2
  refine ⟨fun i j => (congrFun (congrFun hsymm i) j).symm, fun x hx => ?_⟩
  -- a row vector `v` with `v A = x`
  let w : Fin g → ℂ := fun i => (x i : ℂ)
  let v : Fin g → ℂ := Matrix.vecMul w A⁻¹
  have hvA : ∀ i, ∑ r, v r * A r i = x i := by
    intro i
    have : Matrix.vecMul v A = w := by
      rw [Matrix.vecMul_vecMul, Matrix.nonsing_inv_mul _ hu, Matrix.vecMul_one]
    exact congrFun this i
  have hvB : ∀ i, ∑ r, v r * B r i = ∑ k, (x k : ℂ) * tau k i := by
    intro i
    have : Matrix.vecMul v B = Matrix.vecMul w tau := by
      rw [← htau, ← Matrix.vecMul_vecMul]
      congr 1
      exact funext hvA
    exact congrFun this i
  have hv0 : v ≠ 0 := by
    intro h0
    apply hx
    funext i
    have := hvA i
    simp only [h0, Pi.zero_apply, zero_mul, Finset.sum_const_zero] at this
    exact_mod_cast this.symm
  have hpos := hF0 v hv0
  have hF := congrArg Complex.im (hform v)
  simp only [hvA, hvB] at hF
  have hL : (∑ i, ((x i : ℂ) * (starRingEnd ℂ) (∑ k, (x k : ℂ) * tau k i) - (∑ k, (x k : ℂ) * tau k i) * (starRingEnd ℂ) (x i : ℂ))).im = -2 * ∑ i, ∑ j, x i * (tau i j).im * x j := by
    rw [Complex.im_sum, Finset.sum_comm (f := fun i j => x i * (tau i j).im * x j), Finset.mul_sum]
    refine Finset.sum_congr rfl fun i _ => ?_
    have e3 : (∑ k, (x k : ℂ) * tau k i).im = ∑ k, x k * (tau k i).im := by
      rw [Complex.im_sum]
      exact Finset.sum_congr rfl fun k _ => by simp
    simp only [Complex.conj_ofReal, Complex.sub_im, Complex.mul_im, Complex.ofReal_re, Complex.ofReal_im, Complex.conj_im, e3, zero_mul, mul_zero, add_zero]
    rw [← Finset.sum_mul]
    ring
  rw [hL] at hF
  have hR : (-Complex.I * (F v : ℂ)).im = -F v := by
    simp only [Complex.mul_im, Complex.neg_re, Complex.neg_im, Complex.I_re, Complex.I_im, Complex.ofReal_re, Complex.ofReal_im]
    ring
  rw [hR] at hF
  linarith

/-- From the bilinear relations to Riemann matrices. -/
theorem riemann_of_bilinear {g : Nat} {A B : Matrix (Fin g) (Fin g) ℂ} {e : Fin g → ℝ} (he : ∀ r, 0 < e r) (hs : A * B.transpose - B * A.transpose = 0)
    (hp : ∀ r s, ∑ i, (A r i * (starRingEnd ℂ) (B s i) - B r i * (starRingEnd ℂ) (A s i)) = if r = s then -Complex.I * e r else 0) :
    A.det ≠ 0 ∧ ∀ tau, A * tau = B → IsRiemannMatrix tau := by
  -- the form of a row vector
  have hform : ∀ v : Fin g → ℂ, ∑ i, ((∑ r, v r * A r i) * (starRingEnd ℂ) (∑ r, v r * B r i) - (∑ r, v r * B r i) * (starRingEnd ℂ) (∑ r, v r * A r i)) = -Complex.I * ((∑ r, e r * Complex.normSq (v r) : ℝ) : ℂ) := by
    intro v
    have e1 : ∀ i, (∑ r, v r * A r i) * (starRingEnd ℂ) (∑ r, v r * B r i) - (∑ r, v r * B r i) * (starRingEnd ℂ) (∑ r, v r * A r i) =
        ∑ r, ∑ s, v r * (starRingEnd ℂ) (v s) * (A r i * (starRingEnd ℂ) (B s i) - B r i * (starRingEnd ℂ) (A s i)) := by
      intro i
      rw [map_sum, map_sum, Finset.sum_mul_sum, Finset.sum_mul_sum, ← Finset.sum_sub_distrib]
      refine Finset.sum_congr rfl fun r _ => ?_
      rw [← Finset.sum_sub_distrib]
      refine Finset.sum_congr rfl fun s _ => ?_
      simp only [map_mul]
      ring
    simp only [e1]
    rw [Finset.sum_comm]
    have e2 : ∀ r, ∑ i, ∑ s, v r * (starRingEnd ℂ) (v s) * (A r i * (starRingEnd ℂ) (B s i) - B r i * (starRingEnd ℂ) (A s i)) = -Complex.I * (e r * Complex.normSq (v r) : ℝ) := by
      intro r
      rw [Finset.sum_comm]
      simp only [← Finset.mul_sum, hp]
      rw [Finset.sum_eq_single r]
      · rw [if_pos rfl, Complex.mul_conj]
        push_cast; ring
      · intro s _ hs
        rw [if_neg (Ne.symm hs), mul_zero]
      · simp
    simp only [e2]
    rw [← Finset.mul_sum, Complex.ofReal_sum]
  refine riemann_of_form (F := fun v => ∑ r, e r * Complex.normSq (v r)) (fun v hv => ?_) hs hform
  obtain ⟨r, hr⟩ : ∃ r, v r ≠ 0 := by
    by_contra h
    push Not at h
    exact hv (funext h)
  exact Finset.sum_pos' (fun r _ => mul_nonneg (he r).le (Complex.normSq_nonneg _)) ⟨r, Finset.mem_univ _, mul_pos (he r) (Complex.normSq_pos.2 hr)⟩


end Hcp
