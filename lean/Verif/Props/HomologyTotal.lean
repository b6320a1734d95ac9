import Verif.Props.TauReal
import Verif.Props.MeetFails

/-!
# C78: the homology of every superelliptic curve with exact branch points

The run with `AJ_NO_INT`: the tree, the data of the edges and the symplectic basis, for every exponent `m` and every number of branch points, without condition on the curve.
-/

namespace Hcp

open Set Spec

/-- What a run which stops after the homology returns: the tree, no integrals, loops which form a positively oriented symplectic basis for the intersection numbers `I` and whose coefficients are the rows of `P`. -/
structure HomologyOut (m g : Nat) (I : Nat × Nat → Nat × Nat → Int) (tr : Tree ℝ) (P : Mat (tr.e.length * (m - 1))) (out : AjOut (Set ℂ) ℝ setMat g) : Prop where
  tree : out.tree = tr
  nothing_else : out.integrals = none ∧ out.omega = none ∧ out.tau = none
  basis : IsSymplecticBasis tr.e.length (m - 1) g I P out.loopA out.loopB
  positive : PositiveDual I out.loopA out.loopB

variable {x : Nat → ℂ} {lam : ℝ} {sort : List (Edge ℝ) → List (Edge ℝ)} {ord : List (Edge ℝ) → List Nat} {p : DePar (Set ℂ)}

/-- **C78.** For `y^m = ∏ (x - x_k)` with `2 ≤ m < 2^62`, `n ≥ 2` distinct branch points known exactly and `AJ_NO_INT`, whatever the other options: `abel_jacobi_compute` returns the tree and a positively oriented
symplectic basis for the matrix `cc` of the intersection numbers at the branch points, or it aborts because a coefficient of the basis does not fit in a `slong`; it never aborts for `m ≤ 3`.  If the edges meet only at
their ends — the case of real branch points and of three branch points — these are the intersection numbers of the closed paths. -/
theorem C78_homology (hs : SortsByR sort) (hlam : lam ≠ 0) {m n : Nat} (hm : 2 ≤ m) (hm62 : m < 2 ^ 62) (hn : 2 ≤ n) (hx : InjOn x (Iio n)) {c : Sec} (hc : secInit m n = .ok c) (flag : Nat) (hni : flag &&& ajNoInt ≠ 0) :
    ∃ (tr : Tree ℝ) (extra : Int), extraprecTree setArith clampMag tr.e (fun k => {x k}) c.shape = .ok extra ∧
      TreeSize m n tr.e.length ∧ GrowsAsTree (tr.e.map fun f => (f.a, f.b)) ∧ (∀ ed ∈ tr.e, ed.a < n ∧ ed.b < n) ∧ FreeEdges x n tr.e ∧
      ∃ (cc : IMat) (Y : Nat → ℝ → ℂ) (ca cb : Nat → ℂ) (P : Mat (tr.e.length * (m - 1))), Branches m n x tr.e Y ca cb ∧ HoldsNumbers m tr.e ca cb cc ∧
        (PlainEdges x tr.e → HoldsClosed m x tr.e Y ca cb (tableOf m cc)) ∧ (n = 3 ∨ (∀ k, (x k).im = 0) → PlainEdges x tr.e) ∧
        Unimodular P ∧ P * cc.toMat (tr.e.length * (m - 1)) * P.transpose = stdJ (tr.e.length * (m - 1)) c.shape.g ∧ 2 * c.shape.g ≤ tr.e.length * (m - 1) ∧
        ∀ (prec : Int) (ip fuel : Nat), prec + extra = ip → 2 ≤ ip → (ip : Int) < 2 ^ 62 → 1 ≤ fuel →
          ((m ≤ 3 ∨ ∀ a j : Fin (tr.e.length * (m - 1)), a.val < 2 * c.shape.g → FitsSlong (P a j)) →
            ∃ out, ajRun (idealEnv x lam sort ord p) fuel c flag prec (treeInit (WOps.ofOrder (-1)) (treeEdges c).toNat) = .ok out ∧ HomologyOut m c.shape.g (tableOf m cc) tr P out ∧
              (m ≤ 3 → SignCoeffs (out.loopA ++ out.loopB))) ∧
          (¬ (∀ a j : Fin (tr.e.length * (m - 1)), a.val < 2 * c.shape.g → FitsSlong (P a j)) →
            ajRun (idealEnv x lam sort ord p) fuel c flag prec (treeInit (WOps.ofOrder (-1)) (treeEdges c).toNat) = .abort "coefficient too large in basis") := by
  have hn2 : (2 : Int) ≤ n := by omega
  obtain ⟨_, e1, e2, _⟩ := secInit_fields hc hn2
  have hcn : c.shape.n = n := by unfold Sec.shape; simp [e2]
  have hcm : c.shape.m = m := by unfold Sec.shape; simp [e1]
  have hgen := isGenus_shape hn2 hc
  have hec := C03_tree_size (by omega) hc
  have hlt := edgeCount_lt (edgeCount_of_size hec)
  obtain ⟨tr, h1, -, h3⟩ := C46_no_third_point hs hlam (intType flag c.m c.n) (treeInit (WOps.ofOrder (-1)) (treeEdges c).toNat) n (Or.inl hlt) hx
  have hfree : FreeEdges x n tr.e := fun f hf k hk ha hb t t1 t2 e => h3 f hf ⟨k, hk, ha, hb, t, t1, t2, e⟩
  have h1' := h1
  unfold spanningTreeOf at h1'
  obtain ⟨tr', g1, -, g3, hgr, g5⟩ := C09_grows_as_tree (WOps.ofOrder (-1)) sort hs.perm _ (treeInit (WOps.ofOrder (-1)) (treeEdges c).toNat) n (Or.inl hlt)
  obtain rfl := Res.ok.inj (h1'.symm.trans g1)
  change GrowsAsTree (tr.e.map fun f => (f.a, f.b)) at hgr
  have hsz : TreeSize m n tr.e.length := by rw [g3]; exact hec
  have hes2 : ∀ ed ∈ tr.e, ed.a < n ∧ ed.b < n := fun ed hed => ⟨(g5 _ hed).1, (g5 _ hed).2.1⟩
  have hes : ∀ ed ∈ tr.e, ed.a < n ∧ ed.b < n ∧ ed.a ≠ ed.b := by
    intro ed hed
    obtain ⟨k, hk, rfl⟩ := List.getElem_of_mem hed
    have := (hgr k (by simpa using hk)).1
    exact ⟨(hes2 _ hed).1, (hes2 _ hed).2, fun h => by simpa using this (by simpa using h)⟩
  obtain ⟨extra, hext⟩ : ∃ extra, extraprecTree setArith clampMag tr.e (fun k => {x k}) c.shape = .ok extra := ⟨_, chk_ok (clampMag_log2 _)⟩
  obtain ⟨ys, y1, y2, y3⟩ := pt_tree (m := m) hx (by omega) tr.e hes
  obtain ⟨cc, hcc⟩ := pt_intersection (m := m) hx hm hm62 hes y2 y3
  let u : Nat → Nat → ℂ := fun k => ((ys[k]?).map fun y => y.u).getD 0
  have huk : ∀ k y, ys[k]? = some y → u k = y.u := fun k y h => by simp only [u, h, Option.map_some, Option.getD_some]
  have hu : ExactData (fun s z => s = {z}) m n x tr.e (ys.map ptData) u := by
    intro k ed yd h1 h2
    rw [List.getElem?_map, Option.map_eq_some_iff] at h2
    obtain ⟨y, h2, rfl⟩ := h2
    obtain ⟨q1, q2⟩ := y3 k ed y h1 h2
    rw [huk k y h2]
    exact ⟨q1, fun i => rfl, q2⟩
  have hu' : ExactData (fun (s : Set ℂ) z => z ∈ s) m n x tr.e (ys.map ptData) u := by
    intro k ed yd h1 h2
    obtain ⟨q1, q2, q3⟩ := hu k ed yd h1 h2
    exact ⟨q1, fun i => by rw [q2 i]; rfl, q3⟩
  have hdl : (ys.map ptData).length = tr.e.length := by rw [List.length_map, y2]
  have hres := resolved_pts hx hes2 hgr hfree hu
  obtain ⟨Y, ca, cb, q1, q2, -⟩ := C50_intersection_numbers setArith_encloses sndTests_sound (x := fun k => {x k}) (x' := x) (fun k => mem_singleton _) hm hx hes2 hgr hfree y1 hres hcc
  have hp := plainTree_balls setArith_encloses sndTests_sound hm hx hes2 hgr hfree hdl hu' hres hcc
  obtain ⟨P, hP, hPJ, hle, hyes, hno⟩ := basis_of_chain XGcd.std hm (edgeCount_of_size hsz) hgen hcc (fun a b => hp.anti a b a.isLt b.isLt) (fun _ => ⟨_, _, _, _, _, hp⟩)
  have hapx : (fun k => (idealEnv x lam sort ord p).approx ((idealEnv x lam sort ord p).roots 64 k)) = x := funext fun k => pick_singleton _
  have hrunT : ∀ (prec : Int) (ip : Nat), prec + extra = ip → 2 ≤ ip → (ip : Int) < 2 ^ 62 →
      ajTree (idealEnv x lam sort ord p) c flag prec (treeInit (WOps.ofOrder (-1)) (treeEdges c).toNat) = .ok (tr, (ip : Int), ys.map ptData) := by
    intro prec ip hip hip2 hip62
    refine ajTree_of (by rw [hcn, hapx]; exact h1) hext hip (by omega) (fits_small hip62).1 (fits_small hip62).2 ?_
    rw [hcn, hcm]
    exact y1
  have hrun : ∀ (prec : Int) (ip fuel : Nat), prec + extra = ip → 2 ≤ ip → (ip : Int) < 2 ^ 62 → ∀ al be,
      symplecticBasis XGcd.std fuel (shiftOracle setArith sndTests (ys.map ptData) m) tr.e m c.shape.g = .ok (al, be) →
      ajRun (idealEnv x lam sort ord p) fuel c flag prec (treeInit (WOps.ofOrder (-1)) (treeEdges c).toNat) = .ok ⟨intType flag c.m c.n, tr, ip, ys.map ptData, al, be, none, none, none⟩ := by
    intro prec ip fuel hip hip2 hip62 al be hb
    have hb' : symplecticBasis (idealEnv x lam sort ord p).xgcd fuel (shiftOracle ((idealEnv x lam sort ord p).ar 64) ((idealEnv x lam sort ord p).tests 64) (ys.map ptData) c.shape.m) tr.e c.shape.m c.shape.g = .ok (al, be) := by
      rw [hcm]; exact hb
    unfold ajRun
    simp only [hrunT prec ip hip hip2 hip62, Res.ok_bind, hb', if_pos hni]
  have hplain : n = 3 ∨ (∀ k, (x k).im = 0) → PlainEdges x tr.e := by
    rintro (rfl | hr)
    · exact plainEdges_three hgr hes2 hx hfree
    · have e : x = fun k => (((x k).re : ℝ) : ℂ) := funext fun k => Complex.ext (by simp) (by simp [hr k])
      rw [e] at hx hfree ⊢
      exact plainEdges_real hgr hes2 hx hfree
  have hsmall : m ≤ 3 → ∃ al be, (∀ fuel, 1 ≤ fuel → symplecticBasis XGcd.std fuel (shiftOracle setArith sndTests (ys.map ptData) m) tr.e m c.shape.g = .ok (al, be)) ∧ SignCoeffs (al ++ be) := by
    intro hm3
    obtain ⟨-, -, -, -, -, -, al, be, k1, -, -, k4⟩ := C50_small_basis XGcd.std setArith_encloses sndTests_sound (x := fun k => {x k}) (x' := x) (fun k => mem_singleton _) (by omega : m = 2 ∨ m = 3) hx hgen hes2
      (edgeCount_of_size hsz) hgr hfree y1 hres hcc
    exact ⟨al, be, k1, k4⟩
  have hfit : m ≤ 3 → ∀ a j : Fin (tr.e.length * (m - 1)), a.val < 2 * c.shape.g → FitsSlong (P a j) := by
    intro hm3
    by_contra hcon
    obtain ⟨al, be, k1, -⟩ := hsmall hm3
    have := (k1 1 le_rfl).symm.trans (hno hcon 1 le_rfl)
    cases this
  refine ⟨tr, extra, hext, hsz, hgr, hes2, hfree, cc, Y, ca, cb, P, q1, q2, holdsClosed_of q2, hplain, hP, hPJ, hle, fun prec ip fuel hip hip2 hip62 hf => ⟨fun hor => ?_, fun hnot => ?_⟩⟩
  · obtain ⟨al, be, b1, b2, b3⟩ := hyes (hor.elim hfit id)
    refine ⟨_, hrun prec ip fuel hip hip2 hip62 al be (b1 fuel hf), ⟨rfl, ⟨rfl, rfl, rfl⟩, b2, b3⟩, fun hm3 => ?_⟩
    obtain ⟨al', be', k1, k2⟩ := hsmall hm3
    obtain ⟨rfl, rfl⟩ := Prod.mk.inj (Res.ok.inj ((b1 1 le_rfl).symm.trans (k1 1 le_rfl)))
    exact k2
  · have hb' : symplecticBasis (idealEnv x lam sort ord p).xgcd fuel (shiftOracle ((idealEnv x lam sort ord p).ar 64) ((idealEnv x lam sort ord p).tests 64) (ys.map ptData) c.shape.m) tr.e c.shape.m c.shape.g = .abort "coefficient too large in basis" := by
      rw [hcm]; exact hno hnot fuel hf
    unfold ajRun
    simp only [hrunT prec ip hip hip2 hip62, Res.ok_bind, hb']
    rfl

/-- the hypotheses hold for `y^4 = x (x - 1) ⋯ (x - 4)`, genus 6, with insertion sort -/
example : ∃ c : Sec, secInit (4 : Nat) (5 : Nat) = .ok c ∧ c.shape.g = 6 ∧ SortsByR (sortByR : List (Edge ℝ) → List (Edge ℝ)) ∧ InjOn (fun k : Nat => (k : ℂ)) (Iio 5) ∧ (∀ k : Nat, ((k : ℂ)).im = 0) ∧ ajNoInt &&& ajNoInt ≠ 0 :=
  ⟨_, rfl, by decide, sortByR_sorts, fun a _ b _ h => by simpa using h, fun k => by simp, by decide⟩

end Hcp
