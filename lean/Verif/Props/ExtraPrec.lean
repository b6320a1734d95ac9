import Verif.Proofs.ExtraPrec
import Verif.Props.Edge

/-!
# C58: the extra precision covers the size of the coefficients
-/

namespace Hcp
open Spec

variable {A B W : Type} {X : Arith A} {M : MagOps A B} {R : A → ℂ → Prop} {RB : B → ℝ → Prop}

/-- **C58 (size of the coefficients).** The number of bits returned by `extraprec_tree` covers, for every edge of the tree and every differential, the coefficients with which the integrals of `t^l y^-j` over `[-1,1]` enter the
integral of `x^i dx / y^j` over the edge. -/
theorem C58_coefficients (E : Encloses X exact R) (S : MagSound M R RB) {m n : Nat} (hn : 2 ≤ n) {c : Sec} (h : secInit m n = .ok c) {x : Nat → A} {x' : Nat → ℂ} (hR : ∀ k, R (x k) (x' k)) {es : List (Edge W)}
    {p : Int} (hp : extraprecTree X M es x c.shape = .ok p) (hlt : p ≤ 2 ^ 61) {e : Edge W} (he : e ∈ es) (ha : e.a < n) (hb : e.b < n) (hab : x' e.a ≠ x' e.b) {n1 : Nat} {u : Nat → ℂ}
    (hE : EdgeData m n x' e.a e.b n1 u) {r i j l : Nat} (hr : r < c.shape.g) (hij : diffOf c.shape.ni c.shape.j1 r = (i, j)) (hl : l ≤ i) : ‖rowCoeff n u i j l‖ ≤ 2 ^ p := by
  have hn2 : (2 : Int) ≤ n := by omega
  obtain ⟨_, e1, e2, _⟩ := secInit_fields h hn2
  have hcn : c.shape.n = n := by unfold Sec.shape; simp [e2]
  have hcm : c.shape.m = m := by unfold Sec.shape; simp [e1]
  have hge := magTree_ge (W := W) (X := X) (M := M) (c := c.shape) (x := x) (magEdge_ge E S (shape_good hn2 h) hR (by omega) (by omega) hab (by rw [hcm, hcn]; exact hE) hr hij hl) es (s := some 0) he
  rw [hcn] at hge
  unfold extraprecTree chk at hp
  split at hp
  swap
  · cases hp
  obtain rfl := Res.ok.inj hp
  obtain ⟨t, h1, h2⟩ := S.log2 (magTree X M x c.shape es (some 0)) (by omega)
  exact (hge t h1).trans h2

/-- **C58 (error of the integrals).** Let the row of an edge be computed from two rows of elementary integrals which differ by at most `2^-(prec + p)`, `p` the number of bits returned by `extraprec_tree`.  Then the integrals of
`x^i dx / y^j` differ by at most `2 (i+1) 2^-prec`.  Missing for the full property: the working precision `prec + p` need not be a precision Arb accepts (`C58_fails`). -/
theorem C58_error_partial (E : Encloses X exact R) (S : MagSound M R RB) {m n : Nat} (hn : 2 ≤ n) {c : Sec} (h : secInit m n = .ok c) {x : Nat → A} {x' : Nat → ℂ} (hR : ∀ k, R (x k) (x' k)) {es : List (Edge W)}
    {p : Int} (hp : extraprecTree X M es x c.shape = .ok p) (hlt : p ≤ 2 ^ 61) {e : Edge W} (he : e ∈ es) (ha : e.a < n) (hb : e.b < n) (hab : x' e.a ≠ x' e.b) {n1 : Nat} {u : Nat → ℂ}
    (hE : EdgeData m n x' e.a e.b n1 u) {prec : Int} {v w : Nat → ℂ} (hvw : ∀ r < c.shape.g, ‖v r - w r‖ ≤ 2 ^ (-(prec + p))) :
    ∃ y z, edgeFactors exact c.shape (u (n - 2)) (u (n - 1)) (u n) v = .ok y ∧ edgeFactors exact c.shape (u (n - 2)) (u (n - 1)) (u n) w = .ok z ∧
      ∀ r i j, r < c.shape.g → diffOf c.shape.ni c.shape.j1 r = (i, j) → ‖y r - z r‖ ≤ 2 * (i + 1) * 2 ^ (-prec) := by
  have hn2 : (2 : Int) ≤ n := by omega
  obtain ⟨y, hy, hy'⟩ := C19_edge_factors hn2 h (u (n - 2)) (u (n - 1)) (u n) v
  obtain ⟨z, hz, hz'⟩ := C19_edge_factors hn2 h (u (n - 2)) (u (n - 1)) (u n) w
  refine ⟨y, z, hy, hz, fun r i j hr hij => ?_⟩
  have e1 : y r - z r = (1 - (zeta c.shape.m ^ j)⁻¹) * ∑ l ∈ Finset.range (i + 1), rowCoeff n u i j l * (v (r - i + l) - w (r - i + l)) := by
    rw [hy' r i j hr hij, hz' r i j hr hij]
    unfold rowCoeff
    rw [← mul_sub, ← Finset.sum_sub_distrib, Finset.mul_sum, Finset.mul_sum]
    refine Finset.sum_congr rfl fun l _ => ?_
    ring
  have hz1 : ‖1 - (zeta c.shape.m ^ j)⁻¹‖ ≤ 2 := by
    refine (norm_sub_le _ _).trans ?_
    rw [norm_inv, norm_pow, norm_one]
    have : ‖zeta c.shape.m‖ = 1 := by
      unfold zeta
      have : (2 * (Real.pi : ℂ) * Complex.I / c.shape.m : ℂ) = ((2 * Real.pi / c.shape.m : ℝ) : ℂ) * Complex.I := by push_cast; ring
      rw [this, Complex.norm_exp_ofReal_mul_I]
    rw [this]
    norm_num
  have hterm : ∀ l ∈ Finset.range (i + 1), ‖rowCoeff n u i j l * (v (r - i + l) - w (r - i + l))‖ ≤ 2 ^ (-prec) := by
    intro l hl
    have hl' : l ≤ i := Nat.lt_succ_iff.1 (Finset.mem_range.1 hl)
    have h1 := C58_coefficients E S hn h hR hp hlt he ha hb hab hE hr hij hl'
    obtain ⟨k, nij, i', g1, g2, g3, g4⟩ := diffOf_spec c.shape.ni c.shape.j1 r (by rw [(shape_good hn2 h).sum]; exact hr)
    rw [g4] at hij
    obtain ⟨rfl, -⟩ := Prod.mk.inj hij
    have h2 := hvw (r - i' + l) (by omega)
    rw [norm_mul]
    refine (mul_le_mul h1 h2 (norm_nonneg _) (by positivity)).trans ?_
    rw [← zpow_add₀ two_ne_zero]
    exact le_of_eq (by congr 1; ring)
  rw [e1, norm_mul]
  have hsum := (norm_sum_le _ _).trans (Finset.sum_le_sum hterm)
  rw [Finset.sum_const, Finset.card_range, nsmul_eq_mul] at hsum
  push_cast at hsum
  calc _ ≤ 2 * ((i + 1 : ℝ) * 2 ^ (-prec)) := mul_le_mul hz1 hsum (norm_nonneg _) (by norm_num)
    _ = _ := by ring

end Hcp
