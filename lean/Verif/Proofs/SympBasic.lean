import Verif.Model.Symplectic
import Verif.Spec.Symplectic
import Mathlib.LinearAlgebra.Matrix.ToLin
import Mathlib.Tactic.Ring
import Mathlib.Tactic.LinearCombination
import Mathlib.Tactic.Linarith

/-!
# Elementary congruences: every step is a two-row operation
-/

namespace Hcp
open Spec

variable {r : Nat}

/-- rows `x,y` replaced by combinations, applied to both `P` and `M` -/
def cong2 (st : St r) (x y : Fin r) (α β γ δ : ℤ) : St r where
  P := rowBezout st.P x y α β γ δ
  M := colBezout (rowBezout st.M x y α β γ δ) x y α β γ δ

theorem bezoutStep_eq (xg : XGcd) (st : St r) (i k : Fin r) (a b : ℤ) :
    bezoutStep xg st i k a b =
      cong2 st i k (xg.run a b).2.1 (xg.run a b).2.2 (-(b / (xg.run a b).1)) (a / (xg.run a b).1) := rfl

theorem transvectStep_eq (st : St r) {x y : Fin r} (h : x ≠ y) (q : ℤ) :
    transvectStep st x y q = cong2 st x y 1 q 0 1 := by
  unfold transvectStep cong2
  congr 1
  · funext a b
    unfold rowAddmul rowBezout
    by_cases h1 : a = x
    · subst h1; simp [h]
    · by_cases h2 : a = y
      · subst h2; simp [h1]
      · simp [h1, h2]
  · funext a b
    unfold colAddmul rowAddmul colBezout rowBezout
    by_cases h1 : a = x <;> by_cases h2 : a = y <;> by_cases h3 : b = x <;> by_cases h4 : b = y <;>
      simp_all

theorem negStep_eq (st : St r) {x y : Fin r} (h : x ≠ y) :
    negStep st x = cong2 st x y (-1) 0 0 1 := by
  unfold negStep cong2
  congr 1
  · funext a b
    unfold rowNeg rowBezout
    by_cases h1 : a = x
    · subst h1; simp [h]
    · by_cases h2 : a = y
      · subst h2; simp [h1]
      · simp [h1, h2]
  · funext a b
    unfold colNeg rowNeg colBezout rowBezout
    by_cases h1 : a = x <;> by_cases h2 : a = y <;> by_cases h3 : b = x <;> by_cases h4 : b = y <;>
      simp_all

theorem swapStep_eq (st : St r) {x y : Fin r} (h : x ≠ y) :
    swapStep st x.val y.val = .ok (cong2 st x y 0 1 1 0) := by
  have h' : x.val ≠ y.val := fun e => h (Fin.ext e)
  unfold swapStep
  rw [if_neg h', dif_pos ⟨x.isLt, y.isLt⟩]
  unfold cong2
  congr 2
  · funext a b
    unfold rowSwap rowBezout
    by_cases h1 : a = x <;> by_cases h2 : a = y <;> simp_all
  · funext a b
    unfold colSwap rowSwap colBezout rowBezout
    by_cases h1 : a = x <;> by_cases h2 : a = y <;> by_cases h3 : b = x <;> by_cases h4 : b = y <;>
      simp_all

theorem rowBezout_mul (N : Mat r) {x y : Fin r} (h : x ≠ y) (α β γ δ : ℤ) :
    rowBezout N x y α β γ δ = rowBezout 1 x y α β γ δ * N := by
  ext a b
  rw [Matrix.mul_apply]
  unfold rowBezout
  by_cases h2 : a = y
  · subst h2
    simp [Matrix.one_apply, add_mul, Finset.sum_add_distrib]
  · by_cases h1 : a = x
    · subst h1
      simp [Matrix.one_apply, h2, add_mul, Finset.sum_add_distrib]
    · simp [h1, h2, Matrix.one_apply]

theorem colBezout_eq (N : Mat r) (x y : Fin r) (α β γ δ : ℤ) :
    colBezout N x y α β γ δ = (rowBezout N.transpose x y α β γ δ).transpose := by
  ext a b
  simp only [colBezout, rowBezout, Matrix.transpose_apply]

theorem colBezout_mul (N : Mat r) {x y : Fin r} (h : x ≠ y) (α β γ δ : ℤ) :
    colBezout N x y α β γ δ = N * (rowBezout 1 x y α β γ δ).transpose := by
  rw [colBezout_eq, rowBezout_mul _ h, Matrix.transpose_mul, Matrix.transpose_transpose]

theorem rowBezout_inv {x y : Fin r} (h : x ≠ y) {α β γ δ : ℤ} {D : ℤ} (hD : α * δ - β * γ = D)
    (hDD : D * D = 1) :
    rowBezout (1 : Mat r) x y (D * δ) (-(D * β)) (-(D * γ)) (D * α) * rowBezout 1 x y α β γ δ = 1 := by
  rw [← rowBezout_mul _ h]
  ext a b
  unfold rowBezout
  by_cases h2 : a = y
  · subst h2
    simp only [if_true, h, if_false]
    linear_combination (1 : Mat r) a b * hDD + (1 : Mat r) a b * D * hD
  · by_cases h1 : a = x
    · subst h1
      simp only [if_true, h, if_false]
      linear_combination (1 : Mat r) a b * hDD + (1 : Mat r) a b * D * hD
    · simp [h1, h2]

/-- the running invariant: `M` is the congruence of the input by the unimodular `P` -/
structure Inv (M0 : Mat r) (st : St r) : Prop where
  uni : Unimodular st.P
  cong : IsCongruence st.P M0 st.M
  anti : Antisymm st.M

theorem unimodular_mul {P Q : Mat r} (hP : Unimodular P) (hQ : Unimodular Q) : Unimodular (P * Q) := by
  obtain ⟨P', h1, h2⟩ := hP
  obtain ⟨Q', h3, h4⟩ := hQ
  refine ⟨Q' * P', ?_, ?_⟩
  · rw [Matrix.mul_assoc, ← Matrix.mul_assoc Q, h3, Matrix.one_mul, h1]
  · rw [Matrix.mul_assoc, ← Matrix.mul_assoc P', h2, Matrix.one_mul, h4]

theorem unimodular_rowBezout {x y : Fin r} (h : x ≠ y) {α β γ δ D : ℤ} (hD : α * δ - β * γ = D)
    (hDD : D * D = 1) : Unimodular (rowBezout (1 : Mat r) x y α β γ δ) := by
  have h1 := rowBezout_inv (r := r) h hD hDD
  exact ⟨_, mul_eq_one_comm.1 h1, h1⟩

theorem antisymm_iff {M : Mat r} : Antisymm M ↔ M.transpose = -M := by
  constructor
  · intro h; ext a b
    simp only [Matrix.transpose_apply, Matrix.neg_apply]
    exact h b a
  · intro h a b
    have := congrFun (congrFun h b) a
    simpa using this

theorem antisymm_diag {M : Mat r} (h : Antisymm M) (a : Fin r) : M a a = 0 := by
  have := h a a; omega

theorem Inv.cong2 {M0 : Mat r} {st : St r} (h : Inv M0 st) {x y : Fin r} (hxy : x ≠ y) {α β γ δ D : ℤ}
    (hD : α * δ - β * γ = D) (hDD : D * D = 1) : Inv M0 (cong2 st x y α β γ δ) := by
  set E := rowBezout (1 : Mat r) x y α β γ δ with hE
  have eP : (Hcp.cong2 st x y α β γ δ).P = E * st.P := rowBezout_mul _ hxy _ _ _ _
  have eM : (Hcp.cong2 st x y α β γ δ).M = E * st.M * E.transpose := by
    unfold Hcp.cong2
    dsimp only
    rw [colBezout_mul _ hxy, rowBezout_mul _ hxy]
  refine ⟨?_, ?_, ?_⟩
  · rw [eP]; exact unimodular_mul (unimodular_rowBezout hxy hD hDD) h.uni
  · unfold IsCongruence
    rw [eM, eP, h.cong, Matrix.transpose_mul]
    simp only [Matrix.mul_assoc]
  · rw [antisymm_iff, eM, Matrix.transpose_mul, Matrix.transpose_mul, Matrix.transpose_transpose,
      antisymm_iff.1 h.anti]
    simp [Matrix.mul_assoc]

/-! ### entries after a step -/

section entries
variable (st : St r) {x y : Fin r} (hxy : x ≠ y) (α β γ δ : ℤ)

theorem cong2_other {a b : Fin r} (hax : a ≠ x) (hay : a ≠ y) (hbx : b ≠ x) (hby : b ≠ y) :
    (cong2 st x y α β γ δ).M a b = st.M a b := by
  simp [cong2, colBezout, rowBezout, hax, hay, hbx, hby]

include hxy in
theorem cong2_col_x {a : Fin r} (hax : a ≠ x) (hay : a ≠ y) :
    (cong2 st x y α β γ δ).M a x = α * st.M a x + β * st.M a y := by
  simp [cong2, colBezout, rowBezout, hax, hay, hxy]

theorem cong2_col_y {a : Fin r} (hax : a ≠ x) (hay : a ≠ y) :
    (cong2 st x y α β γ δ).M a y = γ * st.M a x + δ * st.M a y := by
  simp [cong2, colBezout, rowBezout, hax, hay]

include hxy in
theorem cong2_row_x {b : Fin r} (hbx : b ≠ x) (hby : b ≠ y) :
    (cong2 st x y α β γ δ).M x b = α * st.M x b + β * st.M y b := by
  simp [cong2, colBezout, rowBezout, hbx, hby, hxy]

theorem cong2_row_y {b : Fin r} (hbx : b ≠ x) (hby : b ≠ y) :
    (cong2 st x y α β γ δ).M y b = γ * st.M x b + δ * st.M y b := by
  simp [cong2, colBezout, rowBezout, hbx, hby]

include hxy in
theorem cong2_xy (ha : Antisymm st.M) :
    (cong2 st x y α β γ δ).M x y = (α * δ - β * γ) * st.M x y := by
  have h1 := antisymm_diag ha x
  have h2 := antisymm_diag ha y
  have h3 := ha y x
  simp [cong2, colBezout, rowBezout, hxy, h1, h2]
  rw [h3]; ring

/-- a zero row stays zero outside the two rows -/
theorem cong2_zero_row {a : Fin r} (hax : a ≠ x) (hay : a ≠ y) (h : ∀ b, st.M a b = 0) (b : Fin r) :
    (cong2 st x y α β γ δ).M a b = 0 := by
  simp [cong2, colBezout, rowBezout, hax, hay, h]

end entries

end Hcp
