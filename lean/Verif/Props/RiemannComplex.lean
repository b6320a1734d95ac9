import Verif.Props.RiemannSuper
import Verif.Props.Meet
import Verif.Proofs.CutRotate

/-!
# C61: superelliptic curves with complex branch points
-/

namespace Hcp
open Spec Set HalfPlane Cut

variable {A B C W : Type} {O : MatOps} {R : A → ℂ → Prop}

section
variable {m n : Nat} {x : Nat → ℂ} {V : AjEnv A B C W O} {RC : {n m : Nat} → O.C n m → Matrix (Fin n) (Fin m) ℂ → Prop} {c : Sec} {out : AjOut A W O c.shape.g}
  {Y : Nat → ℝ → ℂ} {ca cb : Nat → ℂ} {cc : IMat} {Q : Mat (out.tree.e.length * (m - 1))}

/-- **The bilinear relations of Riemann** for `y^m = ∏ (x - x_k)` with distinct complex `x_k`, the differentials `x^i dx / y^j` and the closed paths over the edges of the tree, if no edge passes through a third branch point
and different edges have no common point besides common ends. -/
theorem relations_complex (hm : 2 ≤ m) (hn : 2 ≤ n) (h : secInit m n = .ok c) (hx : InjOn x (Iio n)) (hr : AjRight V R RC m n x c out Y ca cb cc Q) (hfree : FreeEdges x n out.tree.e) (hplain : PlainEdges x out.tree.e) :
    RiemannRelations (cyclePeriods m x out.tree.e Y c.shape) (cc.toMat (out.tree.e.length * (m - 1))) := by
  obtain ⟨htree, hsize, hin⟩ := hr.tree
  set es := out.tree.e with hes
  have hm1 : 0 < m - 1 := by omega
  let a : Nat → Nat := fun k => if hk : k < es.length then es[k].a else 0
  let b : Nat → Nat := fun k => if hk : k < es.length then es[k].b else 0
  have ea : ∀ k (hk : k < es.length), a k = es[k].a := fun k hk => dif_pos hk
  have eb : ∀ k (hk : k < es.length), b k = es[k].b := fun k hk => dif_pos hk
  have hT : Segs n es.length x a b := by
    refine ⟨fun k hk => ?_, fun k hk => ?_, fun k hk => ?_, fun k hk h0 => ?_, fun k hk j hj => ?_, fun k hk => ?_, fun k hk l hl hkl => ?_⟩
    · rw [ea k hk]
      exact (hin _ (List.getElem_mem hk)).1
    · rw [eb k hk]
      exact (hin _ (List.getElem_mem hk)).2
    · rw [ea k hk, eb k hk]
      have := (htree k (by simpa using hk)).1
      simpa using this
    · obtain ⟨e, he, q⟩ := (htree k (by simpa using hk)).2.2 h0
      obtain ⟨j, hj, rfl⟩ := List.getElem_of_mem he
      rw [List.length_take, List.length_map] at hj
      refine ⟨j, by omega, ?_⟩
      rw [ea k hk, ea j (by omega), eb j (by omega)]
      simpa using q
    · have h2 := (htree k (by simpa using hk)).2.1
      have hmem : ((es[j]'(hj.trans hk)).a, (es[j]'(hj.trans hk)).b) ∈ (es.map fun f => (f.a, f.b)).take k := List.mem_take_iff_getElem.2 ⟨j, by simp; omega, by simp⟩
      have e2 : ((es.map fun f => (f.a, f.b))[k]'(by simpa using hk)).2 = es[k].b := by simp
      rw [e2] at h2
      rw [eb k hk, ea j (hj.trans hk), eb j (hj.trans hk)]
      exact ⟨fun e => h2 ⟨_, hmem, Or.inl e⟩, fun e => h2 ⟨_, hmem, Or.inr e⟩⟩
    · rw [ea k hk, eb k hk]
      exact hfree _ (List.getElem_mem hk)
    · rw [ea k hk, eb k hk, ea l hl, eb l hl]
      exact hplain k l _ _ hkl (List.getElem?_eq_getElem hk) (List.getElem?_eq_getElem hl)
  have hdiv : ∀ i : Fin (es.length * (m - 1)), i.val / (m - 1) < es.length := fun i => Nat.div_lt_of_lt_mul (i.isLt.trans_eq (Nat.mul_comm _ _))
  have hmod : ∀ i : Fin (es.length * (m - 1)), i.val % (m - 1) < m - 1 := fun i => Nat.mod_lt _ hm1
  refine relations_tree (I0 := fun r : Fin c.shape.g => (diffOf c.shape.ni c.shape.j1 r).1) (J := fun r : Fin c.shape.g => (diffOf c.shape.ni c.shape.j1 r).2) hm (by omega) hx hT hsize (fun k hk => ?_) (ca := ca) (cb := cb) (fun i j => ?_) (fun r => diffOf_bounds hn h r.isLt) (fun r s e1 e2 => ?_) (Y := Y) (fun r i => ?_)
  · rw [ea k hk, eb k hk]
    exact hr.branches k es[k] (List.getElem?_eq_getElem hk)
  · have hi' := hdiv i
    have hj' := hdiv j
    have := hr.numbers (i / (m - 1)) (j / (m - 1)) es[i.val / (m - 1)] es[j.val / (m - 1)] (i % (m - 1)) (j % (m - 1)) (List.getElem?_eq_getElem (hdiv i)) (List.getElem?_eq_getElem (hdiv j)) (hmod i) (hmod j)
    rw [Nat.div_add_mod', Nat.div_add_mod'] at this
    rw [ea _ (hdiv i), eb _ (hdiv i), ea _ (hdiv j), eb _ (hdiv j)]
    exact this
  · exact Fin.ext (diffOf_inj (shape_good (by exact_mod_cast hn) h) r.isLt s.isLt (Prod.ext e1 e2))
  · simp only [cyclePeriods, Matrix.of_apply, List.getElem?_eq_getElem (hdiv i)]
    rw [ea _ (hdiv i), eb _ (hdiv i)]

/-- **C61 (complex branch points).** Curve `y^m = ∏ (x - x_k)` with at least two distinct complex branch points, any exponent and any genus.  If the output is right in the sense of C56, no edge of
the tree passes through a third branch point, and different edges have no common point besides common ends (C64), then the exact matrix of the periods over the loops `alpha` is invertible
and the matrix `tau` with `omega0 tau = omega1` is symmetric with a positive definite imaginary part. -/
theorem C61_complex (hm : 2 ≤ m) (hn : 2 ≤ n) (h : secInit m n = .ok c) (hx : InjOn x (Iio n)) (hr : AjRight V R RC m n x c out Y ca cb cc Q)
    (hfree : FreeEdges x n out.tree.e) (hplain : PlainEdges x out.tree.e) :
    (periodsOf m x out.tree.e Y c.shape out.loopA).det ≠ 0 ∧
      ∀ tau, periodsOf m x out.tree.e Y c.shape out.loopA * tau = periodsOf m x out.tree.e Y c.shape out.loopB → IsRiemannMatrix tau :=
  C61_relations hm hr (relations_complex hm hn h hx hr hfree hplain)

end

/-- **C61 (from complex points).** Distinct complex branch points, exact arithmetic, with either method of integration, for every `m` below `2^62`, when the parameter `tree->r` of the
tree is above the bound of C64: the tree, the data of its edges and the loops are computed and the matrix `tau` defined by the exact integrals of the differentials over these loops exists, is unique and is a Riemann matrix; the only
other outcome is the abort for a coefficient which does not fit a machine integer, and it does not occur for `m = 2` and `m = 3`. -/
theorem C61_complex_points {B C : Type} {O : MatOps} (V : AjEnv ℂ B C ℝ O) (type : IntType)
    {m n : Nat} (hm : 2 ≤ m) (hm' : m < 2 ^ 62) (hn : 2 ≤ n) {c : Sec} (h : secInit m n = .ok c) {x : Nat → ℂ} (hx : InjOn x (Iio n)) {N : Nat} (hN : TreeSize m n N) :
    ∃ (tr : Tree ℝ) (data : List (YData ℂ)), spanningTreeOf (exactCOps (Real.pi / 2)) (WOps.ofOrder (-1)) sortByR x (treeInit (WOps.ofOrder (-1)) N) n type = .ok tr ∧ treeYdataInit exact exactTests x n m tr.e = .ok data ∧
      (crossBound type < tr.r ∨ PlainEdges x tr.e → ∃ F, ∀ fuel, F ≤ fuel →
        ((∃ al be, symplecticBasis XGcd.std fuel (shiftOracle exact exactTests data m) tr.e m c.shape.g = .ok (al, be) ∧
          ∃ (Y : Nat → ℝ → ℂ) (ca cb : Nat → ℂ), Branches m n x tr.e Y ca cb ∧ ∃ tau, IsRiemannMatrix tau ∧
            ∀ tau', periodsOf m x tr.e Y c.shape al * tau' = periodsOf m x tr.e Y c.shape be ↔ tau' = tau) ∨
          m ≠ 2 ∧ m ≠ 3 ∧ N ≠ 1 ∧ symplecticBasis XGcd.std fuel (shiftOracle exact exactTests data m) tr.e m c.shape.g = .abort "coefficient too large in basis")) := by
  have hl : Real.pi / 2 ≠ 0 := by positivity
  obtain ⟨tr, data, h1, h2, hfree, F, hF⟩ := ajRight_exactM V (RC := fun _ _ => True) hl type hm hm' hn h hx hN
  obtain ⟨tr', h1', -, hp⟩ := C64_no_crossing_partial sortByR_sorts type (edgeCount_lt (edgeCount_of_size hN)) hx
  obtain rfl := Res.ok.inj (h1.symm.trans h1')
  refine ⟨tr, data, h1, h2, fun hc => ⟨F, fun fuel hf => ?_⟩⟩
  have hplain : PlainEdges x tr.e := by
    rcases hc with q | q
    · exact hp (Or.inl q)
    · exact q
  rcases hF fuel hf with ⟨al, be, hb, Y, ca, cb, cc, Q, hr⟩ | hF
  · obtain ⟨hdet, hall⟩ := C61_complex hm hn h hx hr hfree hplain
    have hu : IsUnit (periodsOf m x tr.e Y c.shape al).det := isUnit_iff_ne_zero.2 hdet
    refine Or.inl ⟨al, be, hb, Y, ca, cb, hr.branches, (periodsOf m x tr.e Y c.shape al)⁻¹ * periodsOf m x tr.e Y c.shape be, hall _ ?_, fun tau' => ⟨fun e => ?_, fun e => ?_⟩⟩
    · exact Matrix.mul_nonsing_inv_cancel_left _ _ hu
    · rw [← e, Matrix.nonsing_inv_mul_cancel_left _ _ hu]
    · rw [e, Matrix.mul_nonsing_inv_cancel_left _ _ hu]
  · exact Or.inr hF

/-- **C61 (curves `y^3 = f(x)` with complex points).** All sets of `n ≥ 2` distinct complex branch points, exact arithmetic, either method of integration, when the parameter of the tree is above the bound of C64: the tree, the data and
the loops are computed and the matrix `tau` of the exact integrals over these loops exists, is unique and is a Riemann matrix.  There is no other outcome. -/
theorem C61_complex_cubic {B C : Type} {O : MatOps} (V : AjEnv ℂ B C ℝ O) (type : IntType)
    {n : Nat} (hn : 2 ≤ n) {c : Sec} (h : secInit 3 n = .ok c) {x : Nat → ℂ} (hx : InjOn x (Iio n)) {N : Nat} (hN : TreeSize 3 n N) :
    ∃ (tr : Tree ℝ) (data : List (YData ℂ)), spanningTreeOf (exactCOps (Real.pi / 2)) (WOps.ofOrder (-1)) sortByR x (treeInit (WOps.ofOrder (-1)) N) n type = .ok tr ∧ treeYdataInit exact exactTests x n 3 tr.e = .ok data ∧
      (crossBound type < tr.r ∨ PlainEdges x tr.e → ∃ F, ∀ fuel, F ≤ fuel → ∃ al be, symplecticBasis XGcd.std fuel (shiftOracle exact exactTests data 3) tr.e 3 c.shape.g = .ok (al, be) ∧
          ∃ (Y : Nat → ℝ → ℂ) (ca cb : Nat → ℂ), Branches 3 n x tr.e Y ca cb ∧ ∃ tau, IsRiemannMatrix tau ∧
            ∀ tau', periodsOf 3 x tr.e Y c.shape al * tau' = periodsOf 3 x tr.e Y c.shape be ↔ tau' = tau) := by
  obtain ⟨tr, data, h1, h2, hF⟩ := C61_complex_points V type (m := 3) (by norm_num) (by norm_num) hn h hx hN
  refine ⟨tr, data, h1, h2, fun hc => ?_⟩
  obtain ⟨F, hF⟩ := hF hc
  refine ⟨F, fun fuel hf => ?_⟩
  rcases hF fuel hf with q | ⟨-, q, -⟩
  · exact q
  · exact absurd rfl q

/-- the hypotheses of `C61_complex_points` and `C61_complex_cubic` are met by a Picard curve, of genus 3, with branch points which are not on a line -/
example : ∃ c : Sec, secInit 3 (4 : Nat) = .ok c ∧ c.shape.g = 3 ∧ InjOn x4 (Iio 4) ∧ ¬ (∀ v < 4, (x4 v).im = 0) ∧ TreeSize 3 4 3 ∧
    ∃ tr, spanningTreeOf (exactCOps (Real.pi / 2)) (WOps.ofOrder (-1)) sortByR x4 (treeInit (WOps.ofOrder (-1)) 3) 4 .gc = .ok tr ∧ crossBound .gc < tr.r := by
  obtain ⟨h1, h2, tr, h3, h4, -⟩ := x4_plain sortByR_sorts
  exact ⟨⟨3, 4, 1, 3, 1, 2, [1, 2]⟩, by decide, rfl, h1, h2, ⟨fun q => by norm_num at q, fun _ => rfl⟩, tr, h3, h4⟩

/-- the hypotheses of `relations_complex` and `C61_complex` are met by this curve -/
example {B C : Type} {O : MatOps} (V : AjEnv ℂ B C ℝ O) : ∃ (c : Sec) (out : AjOut ℂ ℝ O c.shape.g) (Y : Nat → ℝ → ℂ) (ca cb : Nat → ℂ) (cc : IMat) (Q : Mat (out.tree.e.length * (3 - 1))), secInit 3 (4 : Nat) = .ok c ∧ c.shape.g = 3 ∧
    InjOn x4 (Iio 4) ∧ AjRight V (fun a z => a = z) (fun _ _ => True) 3 4 x4 c out Y ca cb cc Q ∧ FreeEdges x4 4 out.tree.e ∧ PlainEdges x4 out.tree.e := by
  have hc : secInit 3 (4 : Nat) = .ok ⟨3, 4, 1, 3, 1, 2, [1, 2]⟩ := by decide
  obtain ⟨hx, -, tr', h1', -, hp⟩ := x4_plain sortByR_sorts
  obtain ⟨tr, data, h1, -, hf, F, hF⟩ := ajRight_exactM V (RC := fun _ _ => True) (lam := Real.pi / 2) (by positivity) .gc (m := 3) (by norm_num) (by norm_num) (by norm_num) hc hx (N := 3) ⟨fun q => by norm_num at q, fun _ => rfl⟩
  obtain rfl := Res.ok.inj (h1.symm.trans h1')
  rcases hF F le_rfl with ⟨al, be, -, Y, ca, cb, cc, Q, hr⟩ | ⟨-, q, -⟩
  · exact ⟨_, _, Y, ca, cb, cc, Q, hc, rfl, hx, hr, hf, hp⟩
  · exact absurd rfl q

/-- the hypotheses of `C61_complex_points` are met with `1 < gcd(m, n) < m` by curves of genus 7 -/
example : ∃ c : Sec, secInit 6 (4 : Nat) = .ok c ∧ c.shape.g = 7 ∧ Nat.gcd 6 4 = 2 ∧ InjOn x4 (Iio 4) ∧ TreeSize 6 4 3 ∧
    ∃ tr, spanningTreeOf (exactCOps (Real.pi / 2)) (WOps.ofOrder (-1)) sortByR x4 (treeInit (WOps.ofOrder (-1)) 3) 4 .gc = .ok tr ∧ crossBound .gc < tr.r := by
  obtain ⟨h1, -, tr, h3, h4, -⟩ := x4_plain sortByR_sorts
  obtain ⟨c, hc, hg⟩ : ∃ c : Sec, secInit 6 (4 : Nat) = .ok c ∧ c.shape.g = 7 := ⟨⟨6, 4, 2, 7, 2, 4, [1, 1, 2, 3]⟩, by decide, rfl⟩
  exact ⟨c, hc, hg, by decide, h1, ⟨fun q => by norm_num at q, fun _ => rfl⟩, tr, h3, h4⟩

/-- the hypotheses of `C61_complex` and `C61_relations` are met by the curve `y^4 = x (x - i)`, of genus 1, whose tree has one edge -/
example {B C : Type} {O : MatOps} (V : AjEnv ℂ B C ℝ O) : ∃ (x : Nat → ℂ) (c : Sec) (out : AjOut ℂ ℝ O c.shape.g) (Y : Nat → ℝ → ℂ) (ca cb : Nat → ℂ) (cc : IMat) (Q : Mat (out.tree.e.length * (4 - 1))), secInit 4 (2 : Nat) = .ok c ∧ c.shape.g = 1 ∧
    InjOn x (Iio 2) ∧ AjRight V (fun a z => a = z) (fun _ _ => True) 4 2 x c out Y ca cb cc Q ∧ FreeEdges x 2 out.tree.e ∧ PlainEdges x out.tree.e := by
  obtain ⟨c, hc, hg⟩ : ∃ c : Sec, secInit 4 (2 : Nat) = .ok c ∧ c.shape.g = 1 := ⟨⟨4, 2, 2, 1, 3, 1, [1]⟩, by decide, rfl⟩
  have hx : InjOn (fun k : Nat => (k : ℂ) * Complex.I) (Iio 2) := fun a _ b _ h => by simpa using h
  have hN : TreeSize 4 2 1 := ⟨fun q => by norm_num at q, fun _ => rfl⟩
  obtain ⟨tr, data, h1, -, hf, F, hF⟩ := ajRight_exactM V (RC := fun _ _ => True) (lam := Real.pi / 2) (by positivity) .gc (m := 4) (by norm_num) (by norm_num) (by norm_num) hc hx (N := 1) hN
  obtain ⟨tr', h1', hlen, -⟩ := C64_no_crossing_partial sortByR_sorts .gc (edgeCount_lt (edgeCount_of_size hN)) hx
  obtain rfl := Res.ok.inj (h1.symm.trans h1')
  rcases hF F le_rfl with ⟨al, be, -, Y, ca, cb, cc, Q, hr⟩ | ⟨-, -, q, -⟩
  · refine ⟨_, _, _, Y, ca, cb, cc, Q, hc, hg, hx, hr, hf, fun k l f g hkl hk hl => ?_⟩
    have h2 : k < tr.e.length := (List.getElem?_eq_some_iff.1 hk).1
    have h3 : l < tr.e.length := (List.getElem?_eq_some_iff.1 hl).1
    omega
  · exact absurd rfl q

end Hcp
