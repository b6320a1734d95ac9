import Verif.Props.RiemannComplex
import Verif.Props.ComputeInst

/-!
# C61: the matrices returned by a run
-/

namespace Hcp
open Spec Set

variable {A B C W : Type} {O : MatOps} {R : A → ℂ → Prop} {RB : B → ℝ → Prop}

/-- a right output encloses a Riemann matrix -/
theorem riemann_of_right {m n : Nat} {x : Nat → ℂ} {V : AjEnv A B C W O} {RC : {n m : Nat} → O.C n m → Matrix (Fin n) (Fin m) ℂ → Prop} {c : Sec} {out : AjOut A W O c.shape.g}
    {Y : Nat → ℝ → ℂ} {ca cb : Nat → ℂ} {cc : IMat} {Q : Mat (out.tree.e.length * (m - 1))} (hm : 2 ≤ m) (hn : 2 ≤ n) (h : secInit m n = .ok c) (hx : InjOn x (Iio n))
    (hr : AjRight V R RC m n x c out Y ca cb cc Q) (hfree : FreeEdges x n out.tree.e) (hplain : PlainEdges x out.tree.e) {om0 om1 : Nat → Nat → A} (ho : out.omega = some (om0, om1)) :
    ∃ P0 P1 tau : Matrix (Fin c.shape.g) (Fin c.shape.g) ℂ, (∀ r k : Fin c.shape.g, R (om0 r k) (P0 r k) ∧ R (om1 r k) (P1 r k)) ∧ P0.det ≠ 0 ∧ P0 * tau = P1 ∧ IsRiemannMatrix tau ∧
      ∀ t, out.tau = some t → RC t tau ∨
        (O.solve (V.mat om0) (V.mat (g := c.shape.g) om1) = none ∧ solveReal O (V.mat om0) (V.mat (g := c.shape.g) om1) = none ∧ solveReal O (O.mulI (V.mat om0)) (O.mulI (V.mat (g := c.shape.g) om1)) = none) ∧ RC t (-tau) := by
  obtain ⟨hdet, hall⟩ := C61_complex hm hn h hx hr hfree hplain
  have hu : IsUnit (periodsOf m x out.tree.e Y c.shape out.loopA).det := isUnit_iff_ne_zero.2 hdet
  have htau : periodsOf m x out.tree.e Y c.shape out.loopA * ((periodsOf m x out.tree.e Y c.shape out.loopA)⁻¹ * periodsOf m x out.tree.e Y c.shape out.loopB) = periodsOf m x out.tree.e Y c.shape out.loopB :=
    Matrix.mul_nonsing_inv_cancel_left _ _ hu
  refine ⟨_, _, _, fun r k => hr.omega om0 om1 ho r k, hdet, htau, hall _ htau, fun t ht => ?_⟩
  obtain ⟨tau, t1, t2⟩ := hr.tau om0 om1 t ho ht
  rcases t2 with t2 | ⟨s1, s2, s3, s4⟩
  · exact Or.inl ((t2 _).1 htau ▸ t1)
  · refine Or.inr ⟨⟨s1, s2, s3⟩, ?_⟩
    have : tau = -((periodsOf m x out.tree.e Y c.shape out.loopA)⁻¹ * periodsOf m x out.tree.e Y c.shape out.loopB) := by
      have h1 : -periodsOf m x out.tree.e Y c.shape out.loopA * tau = periodsOf m x out.tree.e Y c.shape out.loopB := by rw [Matrix.neg_mul, s4, neg_neg]
      rw [← h1, Matrix.neg_mul, Matrix.mul_neg, neg_neg, Matrix.nonsing_inv_mul_cancel_left _ _ hu]
    exact this ▸ t1

/-- **C61 (runs).** In the situation of `C56_compute_partial`, when no edge of the tree passes through a third branch point and different edges
only meet at common ends: if a run returns with the matrices of periods, then `omega0` contains an invertible matrix and `omega1` a matrix such that the exact solution of `omega0 tau = omega1` is a Riemann matrix; the matrix `tau` of the output contains
this Riemann matrix, or, when all solvers but the last fail, its opposite (C30). -/
theorem C61_run {RM : {n m : Nat} → O.M n m → Matrix (Fin n) (Fin m) ℝ → Prop} {RC : {n m : Nat} → O.C n m → Matrix (Fin n) (Fin m) ℂ → Prop} {RK : O.K → ℂ → Prop} (M : MatEncl O RM RC RK)
    {V : AjEnv A B C W O} (S : V.Sound R RB RC) {m n : Nat} (hn : 2 ≤ n) {c : Sec} (h : secInit m n = .ok c) (hg : 1 ≤ c.shape.g) {tr0 : Tree W} (ht : (tr0.n : Int) = treeEdges c)
    {fuel flag : Nat} {prec : Int} {out : AjOut A W O c.shape.g} (hrun : ajRun V fuel c flag prec tr0 = .ok out)
    {x' : Nat → ℂ} (hx : Set.InjOn x' (Set.Iio n)) (hR : ∀ k, R (V.roots (out.intprec + 10) k) (x' k))
    (hres : out.type ≠ .d2 → Resolved (V.ar 64) (V.tests 64) x' out.tree.e out.data) (hfree : FreeEdges x' n out.tree.e) (hplain : PlainEdges x' out.tree.e)
    (hgc : out.type = .gc → flag &&& ajNoInt = 0 → GcGood V R fuel c.shape flag out.intprec out.tree.e out.data)
    (hde : out.type = .de → flag &&& ajNoInt = 0 → DeGood V R c.shape flag out.intprec x' out.tree.e out.data) {om0 om1 : Nat → Nat → A} (ho : out.omega = some (om0, om1)) :
    ∃ P0 P1 tau : Matrix (Fin c.shape.g) (Fin c.shape.g) ℂ, (∀ r k : Fin c.shape.g, R (om0 r k) (P0 r k) ∧ R (om1 r k) (P1 r k)) ∧ P0.det ≠ 0 ∧ P0 * tau = P1 ∧ IsRiemannMatrix tau ∧
      ∀ t, out.tau = some t → RC t tau ∨
        (O.solve (V.mat om0) (V.mat (g := c.shape.g) om1) = none ∧ solveReal O (V.mat om0) (V.mat (g := c.shape.g) om1) = none ∧ solveReal O (O.mulI (V.mat om0)) (O.mulI (V.mat (g := c.shape.g) om1)) = none) ∧ RC t (-tau) := by
  obtain ⟨Y, ca, cb, cc, Q, hr⟩ := C56_compute_partial M S hn h hg ht hrun hx hR hres (fun _ => hfree) hgc hde
  obtain ⟨hm1, -⟩ := secInit_fields h (by exact_mod_cast hn)
  exact riemann_of_right (by omega) hn h hx hr hfree hplain ho

theorem triEdges_plain : PlainEdges tri triEdges := by
  have key : MeetAtEnds (tri 0) (tri 1) (tri 1) (tri 2) := by
    intro s t h1 h2 h3 h4 e
    have hre := congrArg Complex.re e
    have him := congrArg Complex.im e
    have h0 : (0 : ℝ) < √3 := by positivity
    simp [edgePt, tri] at hre him
    have ht : t = -1 := by nlinarith
    subst ht
    refine ⟨Or.inr ?_, Or.inl rfl⟩
    linarith
  intro k l f g hkl hk hl
  have hk2 : k < 2 := (List.getElem?_eq_some_iff.1 hk).1
  have hl2 : l < 2 := (List.getElem?_eq_some_iff.1 hl).1
  rcases (by omega : k = 0 ∧ l = 1 ∨ k = 1 ∧ l = 0) with ⟨rfl, rfl⟩ | ⟨rfl, rfl⟩
  · obtain rfl := Option.some.inj hk
    obtain rfl := Option.some.inj hl
    exact key
  · obtain rfl := Option.some.inj hk
    obtain rfl := Option.some.inj hl
    exact meetAtEnds_symm key

/-- an instance of `C61_run`, with all conditions met: a run for the curve `y^2 = (x^2 - 1) (x - i √3)` -/
example : ∃ (p : DePar (Set ℂ)) (c : Sec) (out : AjOut (Set ℂ) Unit setMat c.shape.g) (om0 om1 : Nat → Nat → Set ℂ), secInit 2 3 = .ok c ∧ c.shape.g = 1 ∧
    ajRun (setEnv tri p) 2 c (2 ^ 5 + 2) 63 (treeInit (setEnv tri p).wops 2) = .ok out ∧ out.omega = some (om0, om1) ∧
    ∃ P0 P1 tau : Matrix (Fin c.shape.g) (Fin c.shape.g) ℂ, (∀ r k : Fin c.shape.g, P0 r k ∈ om0 r k ∧ P1 r k ∈ om1 r k) ∧ P0.det ≠ 0 ∧ P0 * tau = P1 ∧ IsRiemannMatrix tau := by
  obtain ⟨p, c, out, h1, h2, h3, -, h4, h5, Y, ca, cb, cc, Q, hr⟩ := tri_gc
  obtain ⟨⟨om0, om1⟩, ho⟩ := Option.ne_none_iff_exists'.1 h4
  obtain ⟨P0, P1, tau, q1, q2, q3, q4, -⟩ := riemann_of_right (by norm_num) (by norm_num) h1 tri_inj hr (by rw [h5]; exact triEdges_free) (by rw [h5]; exact triEdges_plain) ho
  exact ⟨p, c, out, om0, om1, h1, h2, h3, ho, P0, P1, tau, q1, q2, q3, q4⟩

end Hcp
