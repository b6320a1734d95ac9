import Verif.Props.Riemann
import Verif.Props.Orient

/-!
# C61: `tau` is a Riemann matrix exactly when the periods and the intersection numbers satisfy the relations of Riemann
-/

namespace Hcp
open Spec

variable {A B C W : Type} {O : MatOps} {R : A → ℂ → Prop}

/-- the form of the relations in the basis of the loops -/
theorem relations_form {N g : Nat} (hg : 2 * g ≤ N) {K Q : Matrix (Fin N) (Fin N) ℤ} (hU : Unimodular Q) (hJ : Q * K * Q.transpose = stdJ N g) {P V : Matrix (Fin g) (Fin N) ℂ}
    (hV : V * K.map (Int.cast : ℤ → ℂ) = P) {a b : Matrix (Fin g) (Fin g) ℂ} (ha : ∀ r i, a r i = (P * (Q.map (Int.cast : ℤ → ℂ)).transpose) r ⟨2 * i, by omega⟩)
    (hb : ∀ r i, b r i = (P * (Q.map (Int.cast : ℤ → ℂ)).transpose) r ⟨2 * i + 1, by omega⟩) :
    (∀ r s, (a * b.transpose - b * a.transpose) r s = ∑ c, ∑ d, V r c * K c d * V s d) ∧
      ∀ v : Fin g → ℂ, ∑ i, ((∑ r, v r * a r i) * (starRingEnd ℂ) (∑ r, v r * b r i) - (∑ r, v r * b r i) * (starRingEnd ℂ) (∑ r, v r * a r i)) =
        ∑ c, ∑ d, (∑ r, v r * V r c) * K c d * (starRingEnd ℂ) (∑ r, v r * V r d) := by
  have expand : ∀ {k : Nat} (U U' : Matrix (Fin k) (Fin N) ℂ) (r s : Fin k), (U * K.map (Int.cast : ℤ → ℂ) * U'.transpose) r s = ∑ c, ∑ d, U r c * K c d * U' s d := by
    intro k U U' r s
    rw [Finset.sum_comm]
    simp only [Matrix.mul_apply, Matrix.transpose_apply, Matrix.map_apply, Finset.sum_mul]
  constructor
  · intro r s
    rw [← expand, ← bilinear hg hU hJ V V r s, hV, Matrix.sub_apply, Matrix.mul_apply, Matrix.mul_apply, ← Finset.sum_sub_distrib]
    refine Finset.sum_congr rfl fun i _ => ?_
    simp only [Matrix.transpose_apply, ha, hb]
  · intro v
    let U : Matrix (Fin 1) (Fin N) ℂ := Matrix.of fun _ c => ∑ r, v r * V r c
    let U' : Matrix (Fin 1) (Fin N) ℂ := U.map (starRingEnd ℂ)
    have hb1 := bilinear hg hU hJ U U' 0 0
    rw [expand] at hb1
    refine Eq.trans ?_ hb1
    have e : ∀ q : Fin N, (U * K.map (Int.cast : ℤ → ℂ) * (Q.map (Int.cast : ℤ → ℂ)).transpose) 0 q = ∑ r, v r * (P * (Q.map (Int.cast : ℤ → ℂ)).transpose) r q := by
      intro q
      rw [← hV]
      have : U = Matrix.of (fun (_ : Fin 1) r => v r) * V := by
        funext i c
        simp [U, Matrix.mul_apply]
      rw [this, Matrix.mul_assoc, Matrix.mul_assoc, ← Matrix.mul_assoc V, Matrix.mul_apply]
      rfl
    have e' : ∀ q : Fin N, (U' * K.map (Int.cast : ℤ → ℂ) * (Q.map (Int.cast : ℤ → ℂ)).transpose) 0 q = (starRingEnd ℂ) (∑ r, v r * (P * (Q.map (Int.cast : ℤ → ℂ)).transpose) r q) := by
      intro q
      rw [← e]
      simp only [Matrix.mul_apply, Matrix.map_apply, Matrix.transpose_apply, map_sum, map_mul, map_intCast, U']
    simp only [e, e', ha, hb]

/-- multiplication by the standard form -/
theorem mul_stdJ {k N g : Nat} (hg : 2 * g ≤ N) (U : Matrix (Fin k) (Fin N) ℂ) (q : Fin k) (i : Fin g) :
    (U * (stdJ N g).map (Int.cast : ℤ → ℂ)) q ⟨2 * i, by omega⟩ = -U q ⟨2 * i + 1, by omega⟩ ∧ (U * (stdJ N g).map (Int.cast : ℤ → ℂ)) q ⟨2 * i + 1, by omega⟩ = U q ⟨2 * i, by omega⟩ := by
  have hi := i.isLt
  constructor
  · rw [Matrix.mul_apply, Finset.sum_eq_single (⟨2 * i + 1, by omega⟩ : Fin N)]
    · rw [Matrix.map_apply, stdJ, if_neg (by dsimp only; omega), if_pos ⟨by dsimp only; omega, by dsimp only; omega, rfl⟩]
      push_cast; ring
    · intro b _ hb
      have hb' : b.val ≠ 2 * i + 1 := fun h => hb (Fin.ext h)
      rw [Matrix.map_apply, stdJ, if_neg (by dsimp only; omega), if_neg (by dsimp only; omega)]
      simp
    · intro h; exact absurd (Finset.mem_univ _) h
  · rw [Matrix.mul_apply, Finset.sum_eq_single (⟨2 * i, by omega⟩ : Fin N)]
    · rw [Matrix.map_apply, stdJ, if_pos ⟨by dsimp only; omega, by dsimp only; omega, rfl⟩]
      push_cast; ring
    · intro b _ hb
      have hb' : b.val ≠ 2 * i := fun h => hb (Fin.ext h)
      rw [Matrix.map_apply, stdJ, if_neg (by dsimp only; omega), if_neg (by dsimp only; omega)]
      simp
    · intro h; exact absurd (Finset.mem_univ _) h

/-- when the form is non degenerate, every row of periods is given by a combination of the paths -/
theorem dual_exists {N g : Nat} (hg : N = 2 * g) {K Q : Matrix (Fin N) (Fin N) ℤ} (hU : Unimodular Q) (hJ : Q * K * Q.transpose = stdJ N g) (P : Matrix (Fin g) (Fin N) ℂ) :
    ∃ V : Matrix (Fin g) (Fin N) ℂ, V * K.map (Int.cast : ℤ → ℂ) = P := by
  obtain ⟨S, h1, h2⟩ := hU
  have cm : ∀ A B : Matrix (Fin N) (Fin N) ℤ, (A * B).map (Int.cast : ℤ → ℂ) = A.map (Int.cast : ℤ → ℂ) * B.map (Int.cast : ℤ → ℂ) := fun A B => Matrix.map_mul (f := Int.castRingHom ℂ)
  have hSQ : S.map (Int.cast : ℤ → ℂ) * Q.map (Int.cast : ℤ → ℂ) = 1 := by
    rw [← cm, h2]
    exact Matrix.map_one _ (by simp) (by simp)
  have hJ' : Q.map (Int.cast : ℤ → ℂ) * K.map (Int.cast : ℤ → ℂ) * (Q.map (Int.cast : ℤ → ℂ)).transpose = (stdJ N g).map (Int.cast : ℤ → ℂ) := by
    rw [← hJ, cm, cm, Matrix.transpose_map]
  have hQS : (Q.map (Int.cast : ℤ → ℂ)).transpose * (S.map (Int.cast : ℤ → ℂ)).transpose = 1 := by
    rw [← Matrix.transpose_mul, hSQ, Matrix.transpose_one]
  let T := P * (Q.map (Int.cast : ℤ → ℂ)).transpose
  let U : Matrix (Fin g) (Fin N) ℂ := Matrix.of fun r a => if a.val % 2 = 0 then T r ⟨(a.val + 1) % N, Nat.mod_lt _ (by have := a.isLt; omega)⟩ else -T r ⟨a.val - 1, by have := a.isLt; omega⟩
  have hUJ : U * (stdJ N g).map (Int.cast : ℤ → ℂ) = T := by
    funext r b
    have hb := b.isLt
    obtain ⟨q1, q2⟩ := mul_stdJ (N := N) (g := g) (by omega) U r ⟨b.val / 2, by omega⟩
    dsimp only at q1 q2
    rcases Nat.mod_two_eq_zero_or_one b.val with h0 | h0
    · have e : b = ⟨2 * (b.val / 2), by omega⟩ := Fin.ext (by dsimp only; omega)
      rw [e, q1]
      simp only [U, Matrix.of_apply]
      rw [if_neg (by omega), neg_neg]
      rfl
    · have e : b = ⟨2 * (b.val / 2) + 1, by omega⟩ := Fin.ext (by dsimp only; omega)
      rw [e, q2]
      simp only [U, Matrix.of_apply]
      rw [if_pos (by omega)]
      congr 1
      exact Fin.ext (Nat.mod_eq_of_lt (by omega))
  refine ⟨U * Q.map (Int.cast : ℤ → ℂ), ?_⟩
  have h3 : U * Q.map (Int.cast : ℤ → ℂ) * K.map (Int.cast : ℤ → ℂ) * (Q.map (Int.cast : ℤ → ℂ)).transpose = P * (Q.map (Int.cast : ℤ → ℂ)).transpose := by
    rw [Matrix.mul_assoc, Matrix.mul_assoc, ← Matrix.mul_assoc (Q.map _), hJ', hUJ]
  have h4 := congrArg (fun M => M * (S.map (Int.cast : ℤ → ℂ)).transpose) h3
  simpa only [Matrix.mul_assoc, hQS, Matrix.mul_one] using h4

/-- the Hermitian form of a Riemann matrix -/
theorem hermitian_pos {g : Nat} {tau : Matrix (Fin g) (Fin g) ℂ} (h : IsRiemannMatrix tau) {y : Fin g → ℂ} (hy : y ≠ 0) :
    0 < (Complex.I * ∑ i, (y i * (starRingEnd ℂ) (∑ k, y k * tau k i) - (∑ k, y k * tau k i) * (starRingEnd ℂ) (y i))).re := by
  have e : (Complex.I * ∑ i, (y i * (starRingEnd ℂ) (∑ k, y k * tau k i) - (∑ k, y k * tau k i) * (starRingEnd ℂ) (y i))).re =
      2 * (∑ i, ∑ j, (y i).re * (tau i j).im * (y j).re) + 2 * ∑ i, ∑ j, (y i).im * (tau i j).im * (y j).im := by
    have e0 : ∀ z w : ℂ, (Complex.I * (z * (starRingEnd ℂ) w - w * (starRingEnd ℂ) z)).re = 2 * (z.re * w.im - z.im * w.re) := by
      intro z w
      simp only [Complex.mul_re, Complex.I_re, Complex.I_im, Complex.sub_im, Complex.mul_im, Complex.conj_re, Complex.conj_im]
      ring
    rw [Finset.mul_sum, Complex.re_sum]
    simp only [e0]
    have e1 : ∀ i, (∑ k, y k * tau k i).im = ∑ k, ((y k).re * (tau k i).im + (y k).im * (tau k i).re) := fun i => by rw [Complex.im_sum]; rfl
    have e2 : ∀ i, (∑ k, y k * tau k i).re = ∑ k, ((y k).re * (tau k i).re - (y k).im * (tau k i).im) := fun i => by rw [Complex.re_sum]; rfl
    simp only [e1, e2]
    have hsw : ∑ i, ∑ k, (y i).re * ((y k).im * (tau k i).re) = ∑ i, ∑ k, (y i).im * ((y k).re * (tau k i).re) := by
      rw [Finset.sum_comm]
      refine Finset.sum_congr rfl fun i _ => Finset.sum_congr rfl fun k _ => ?_
      rw [h.symm i k]
      ring
    have h1 : ∑ i, ∑ k, (y i).re * (tau i k).im * (y k).re = ∑ i, ∑ k, (y i).re * ((y k).re * (tau k i).im) :=
      Finset.sum_congr rfl fun i _ => Finset.sum_congr rfl fun k _ => by rw [h.symm i k]; ring
    have h2 : ∑ i, ∑ k, (y i).im * (tau i k).im * (y k).im = ∑ i, ∑ k, (y i).im * ((y k).im * (tau k i).im) :=
      Finset.sum_congr rfl fun i _ => Finset.sum_congr rfl fun k _ => by rw [h.symm i k]; ring
    rw [h1, h2, ← Finset.mul_sum]
    have h3 : ∀ i, (y i).re * ∑ k, ((y k).re * (tau k i).im + (y k).im * (tau k i).re) - (y i).im * ∑ k, ((y k).re * (tau k i).re - (y k).im * (tau k i).im) =
        (∑ k, (y i).re * ((y k).re * (tau k i).im) + ∑ k, (y i).re * ((y k).im * (tau k i).re)) - (∑ k, (y i).im * ((y k).re * (tau k i).re) - ∑ k, (y i).im * ((y k).im * (tau k i).im)) := by
      intro i
      simp only [Finset.mul_sum, mul_add, mul_sub, Finset.sum_add_distrib, Finset.sum_sub_distrib]
    rw [Finset.sum_congr rfl fun i _ => h3 i, Finset.sum_sub_distrib, Finset.sum_add_distrib, Finset.sum_sub_distrib, hsw]
    ring
  have nn : ∀ v : Fin g → ℝ, 0 ≤ ∑ i, ∑ j, v i * (tau i j).im * v j := by
    intro v
    by_cases hv : v = 0
    · simp [hv]
    · exact (h.pos v hv).le
  rw [e]
  by_cases h0 : (fun i => (y i).re) = 0
  · have h1 : (fun i => (y i).im) ≠ 0 := fun h1 => hy (funext fun i => Complex.ext (congrFun h0 i) (congrFun h1 i))
    have := h.pos _ h1
    have := nn fun i => (y i).re
    linarith
  · have := h.pos _ h0
    have := nn fun i => (y i).im
    linarith

section
variable {m n : Nat} {x : Nat → ℂ} {V : AjEnv A B C W O} {RC : {n m : Nat} → O.C n m → Matrix (Fin n) (Fin m) ℂ → Prop} {c : Sec} {out : AjOut A W O c.shape.g}
  {Y : Nat → ℝ → ℂ} {ca cb : Nat → ℂ} {cc : IMat} {Q : Mat (out.tree.e.length * (m - 1))}

/-- **C61 (from the relations of Riemann).** All curves `y^m = f(x)`.  If the output is right in the sense of C56, and the
integrals of the differentials over the elementary closed paths and the intersection numbers of these paths satisfy the bilinear relations of Riemann, then the exact matrix of the periods over the loops `alpha` is invertible
and the matrix `tau` with `omega0 tau = omega1` is a Riemann matrix. -/
theorem C61_relations (hm : 2 ≤ m) (hr : AjRight V R RC m n x c out Y ca cb cc Q)
    (hrel : RiemannRelations (cyclePeriods m x out.tree.e Y c.shape) (cc.toMat (out.tree.e.length * (m - 1)))) :
    (periodsOf m x out.tree.e Y c.shape out.loopA).det ≠ 0 ∧
      ∀ tau, periodsOf m x out.tree.e Y c.shape out.loopA * tau = periodsOf m x out.tree.e Y c.shape out.loopB → IsRiemannMatrix tau := by
  obtain ⟨U, h1, h2, h3⟩ := hrel
  have hJ := form_std hr hm hr.positive
  obtain ⟨-, hU, hg2, -⟩ := hr.whole
  have hV : U * (cc.toMat (out.tree.e.length * (m - 1))).map (Int.cast : ℤ → ℂ) = cyclePeriods m x out.tree.e Y c.shape := by
    funext r b
    rw [Matrix.mul_apply]
    exact h1 r b
  obtain ⟨k1, k2⟩ := relations_form hg2 hU hJ hV (fun r i => (periodsOf_rows hr hm r i).1) (fun r i => (periodsOf_rows hr hm r i).2)
  refine riemann_of_form (F := fun v => (Complex.I * ∑ a, ∑ b, (∑ r, v r * U r a) * (cc.toMat (out.tree.e.length * (m - 1)) a b : ℂ) * (starRingEnd ℂ) (∑ r, v r * U r b)).re) h3 ?_ fun v => ?_
  · funext r s
    rw [k1, h2, Matrix.zero_apply]
  · have hre : ∀ z : ℂ, (starRingEnd ℂ) z = -z → z = -Complex.I * ((Complex.I * z).re : ℂ) := by
      intro z hz
      have h0 : z.re = 0 := by
        have := congrArg Complex.re hz
        simp at this
        linarith
      apply Complex.ext
      · simp [h0]
      · simp
    rw [← k2]
    apply hre
    rw [map_sum, ← Finset.sum_neg_distrib]
    refine Finset.sum_congr rfl fun i _ => ?_
    rw [map_sub, map_mul, map_mul, Complex.conj_conj, Complex.conj_conj]
    ring

/-- **C61 (equivalence).** When `m` and the degree are coprime or `m` divides the degree, the relations of Riemann are also necessary. -/
theorem C61_relations_iff (hm : 2 ≤ m) (hn : 2 ≤ n) (hc : secInit m n = .ok c) (hmn : Nat.Coprime m n ∨ m ∣ n) (hr : AjRight V R RC m n x c out Y ca cb cc Q) :
    RiemannRelations (cyclePeriods m x out.tree.e Y c.shape) (cc.toMat (out.tree.e.length * (m - 1))) ↔
      (periodsOf m x out.tree.e Y c.shape out.loopA).det ≠ 0 ∧
        ∀ tau, periodsOf m x out.tree.e Y c.shape out.loopA * tau = periodsOf m x out.tree.e Y c.shape out.loopB → IsRiemannMatrix tau := by
  refine ⟨C61_relations hm hr, fun ⟨hdet, htau⟩ => ?_⟩
  have hJ := form_std hr hm hr.positive
  obtain ⟨-, hU, hg2, -⟩ := hr.whole
  have hN : out.tree.e.length * (m - 1) = 2 * c.shape.g := edges_genus hm hr.tree.2.1 (isGenus_shape (by exact_mod_cast hn) hc) hmn
  obtain ⟨U, hV⟩ := dual_exists hN hU hJ (cyclePeriods m x out.tree.e Y c.shape)
  obtain ⟨k1, k2⟩ := relations_form hg2 hU hJ hV (fun r i => (periodsOf_rows hr hm r i).1) (fun r i => (periodsOf_rows hr hm r i).2)
  generalize periodsOf m x out.tree.e Y c.shape out.loopA = a at *
  generalize periodsOf m x out.tree.e Y c.shape out.loopB = b at *
  have hu : IsUnit a.det := isUnit_iff_ne_zero.2 hdet
  have hab : a * (a⁻¹ * b) = b := Matrix.mul_nonsing_inv_cancel_left _ _ hu
  have hR := htau _ hab
  generalize a⁻¹ * b = tau at hab hR
  have htt : tau.transpose = tau := by
    funext i j
    exact (hR.symm i j).symm
  refine ⟨U, fun r q => ?_, fun r s => ?_, fun v hv => ?_⟩
  · rw [← hV, Matrix.mul_apply]
    rfl
  · rw [← k1, ← hab, Matrix.transpose_mul, htt, Matrix.mul_assoc, sub_self, Matrix.zero_apply]
  · rw [← k2]
    have hb : ∀ i, ∑ r, v r * b r i = ∑ k, (∑ r, v r * a r k) * tau k i := by
      intro i
      have : Matrix.vecMul v b = Matrix.vecMul (Matrix.vecMul v a) tau := by rw [Matrix.vecMul_vecMul, hab]
      exact congrFun this i
    simp only [hb]
    refine hermitian_pos hR (y := fun i => ∑ r, v r * a r i) fun h0 => hv ?_
    have h1 : Matrix.vecMul v a = 0 := h0
    have h2 := congrArg (fun w => Matrix.vecMul w a⁻¹) h1
    simpa [Matrix.vecMul_vecMul, Matrix.mul_nonsing_inv _ hu] using h2

end

end Hcp
