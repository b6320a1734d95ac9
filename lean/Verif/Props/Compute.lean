import Verif.Props.Orient
import Verif.Proofs.Compute
import Verif.Spec.Compute
import Verif.Props.QuadCurve
import Verif.Props.Tau

/-!
# C56: `abel_jacobi_compute` from the branch points to `tau`
-/

namespace Hcp
open Spec

variable {A B C W : Type} {O : MatOps} {R : A → ℂ → Prop} {RB : B → ℝ → Prop}

/-- the tree and the data of a run -/
theorem ajTree_ok {V : AjEnv A B C W O} (hsort : ∀ l, (V.sortEdges l).Perm l) {m n : Nat} (hn : 2 ≤ n) {c : Sec} (h : secInit m n = .ok c) {flag : Nat} {prec : Int} {tr0 tr : Tree W} (ht : (tr0.n : Int) = treeEdges c)
    {intprec : Int} {data : List (YData A)} (hrun : ajTree V c flag prec tr0 = .ok (tr, intprec, data)) :
    tr.n = tr.e.length ∧ GrowsAsTree (tr.e.map fun f => (f.a, f.b)) ∧ TreeSize m n tr.e.length ∧ (∀ ed ∈ tr.e, ed.a < n ∧ ed.b < n) ∧
      treeYdataInit (V.ar (intprec + 10)) (V.tests (intprec + 10)) (V.roots (intprec + 10)) n m tr.e = .ok data ∧ 2 ≤ intprec + 10 := by
  have hn2 : (2 : Int) ≤ n := by omega
  obtain ⟨_, e1, e2, _⟩ := secInit_fields h hn2
  have hcn : c.shape.n = n := by unfold Sec.shape; simp [e2]
  have hcm : c.shape.m = m := by unfold Sec.shape; simp [e1]
  have hec := C03_tree_size hn h
  rw [← ht, Int.toNat_natCast] at hec
  unfold ajTree at hrun
  simp only [Res.bind_eq_ok] at hrun
  obtain ⟨tr', h1, ex, h2', ip, h2, cp, h3, _, h3', data', h4, h5⟩ := hrun
  obtain ⟨rfl, h6⟩ := Prod.mk.inj (Res.ok.inj h5)
  obtain ⟨rfl, rfl⟩ := Prod.mk.inj h6
  unfold spanningTreeOf at h1
  rw [hcn] at h1 h4
  rw [hcm] at h4
  obtain ⟨tr2, k1, k2, k3, k4, k5⟩ := C09_grows_as_tree V.wops V.sortEdges hsort
    (fun i j => paramEdge V.wops (fun k => treeParam V.cops (intType flag c.m c.n) (V.approx (V.roots 64 i)) (V.approx (V.roots 64 j)) (V.approx (V.roots 64 k))) i j n) tr0 n
    (Or.inl (edgeCount_lt (edgeCount_of_size hec)))
  obtain rfl := Res.ok.inj (h1.symm.trans k1)
  refine ⟨k2.trans k3.symm, k4, by rw [k3]; exact hec, fun ed hed => ⟨(k5 ed hed).1, (k5 ed hed).2.1⟩, ?_⟩
  unfold chk at h3
  split at h3
  · obtain rfl := Res.ok.inj h3
    exact ⟨h4, arbPrec_ok h3'⟩
  · cases h3

/-- the loops of a run, from the exact data of its edges -/
theorem basis_of_run (xg : XGcd) {X : Arith A} (E : Encloses X exact R) {T : Tests A} (hT : SoundTests T R) {m n : Nat} (hn : 2 ≤ n) (hm : 2 ≤ m) {c : Sec} (h : secInit m n = .ok c)
    {x' : Nat → ℂ} (hx : Set.InjOn x' (Set.Iio n)) {es : List (Edge W)} (hes : ∀ ed ∈ es, ed.a < n ∧ ed.b < n) (hsz : TreeSize m n es.length) (hgr : GrowsAsTree (es.map fun f => (f.a, f.b)))
    (hfree : FreeEdges x' n es) {data : List (YData A)} (hdl : data.length = es.length) {u : Nat → Nat → ℂ} (hu : ExactData R m n x' es data u) (hres : Resolved X T x' es data)
    {fuel : Nat} {al be : List (List Gamma)} (hb : symplecticBasis xg fuel (shiftOracle X T data m) es m c.shape.g = .ok (al, be)) :
    ∃ (cc : IMat) (Q : Mat (es.length * (m - 1))), HoldsNumbers m es (fun k => u k (n + 1)) (fun k => u k (n + 2)) cc ∧
      IsSymplecticBasis es.length (m - 1) c.shape.g (fun s t => cc (s.1 * (m - 1) + s.2) (t.1 * (m - 1) + t.2)) Q al be ∧
      (Antisymm (cc.toMat (es.length * (m - 1))) ∧ Unimodular Q ∧ 2 * c.shape.g ≤ es.length * (m - 1) ∧ ∀ a b, 2 * c.shape.g ≤ a.val → (Q * cc.toMat (es.length * (m - 1)) * Q.transpose) a b = 0) ∧
      UnitDual (fun s t => cc (s.1 * (m - 1) + s.2) (t.1 * (m - 1) + t.2)) al be ∧
      PositiveDual (fun s t => cc (s.1 * (m - 1) + s.2) (t.1 * (m - 1) + t.2)) al be ∧ (m = 2 ∨ m = 3 ∨ n = 2 → SignCoeffs (al ++ be)) := by
  have hlen := edgeCount_of_size hsz
  obtain ⟨cc, hcc⟩ := symplecticBasis_tree hb
  have hp := plainTree_balls E hT hm hx hes hgr hfree hdl hu hres hcc
  have hg : IsGenus m n c.shape.g := isGenus_shape (by omega) h
  obtain ⟨Q, hU, hJ, hg2, p1, p2⟩ := basis_of_chain xg hm hlen hg hcc (fun a b => hp.anti a b a.isLt b.isLt) (fun _ => ⟨_, _, _, _, _, hp⟩)
  have e := symplecticBasis_mono xg (Nat.le_add_right fuel 1) hb
  by_cases hfit : ∀ a j : Fin (es.length * (m - 1)), a.val < 2 * c.shape.g → FitsSlong (Q a j)
  swap
  · rw [p2 hfit (fuel + 1) (by omega)] at e
    cases e
  obtain ⟨al', be', k1, k2, k3⟩ := p1 hfit
  obtain ⟨rfl, rfl⟩ := Prod.mk.inj (Res.ok.inj (e.symm.trans (k1 (fuel + 1) (by omega))))
  refine ⟨cc, Q, holdsNumbers_of hm hp, k2, ⟨fun a b => hp.anti a b a.isLt b.isLt, hU, hg2, fun a b ha => ?_⟩, fun i a b ha hb => ?_, k3, fun hpos => ?_⟩
  · rw [hJ]
    unfold stdJ
    rw [if_neg (by omega), if_neg (by omega)]
  · rw [k3 i a b ha hb]
    rfl
  · have hpu : PrincipallyUnimodular (cc.toMat (es.length * (m - 1))) := by
      by_cases h2 : m = 2 ∨ m = 3
      · exact pu_small_of_plainTree h2 fun _ => ⟨_, _, _, _, _, hp⟩
      · obtain rfl := (or_assoc.2 hpos).resolve_left h2
        have h1 : es.length = 1 := by
          rcases hlen with h1 | ⟨h1, -⟩
          · omega
          · have := Nat.le_of_dvd (by norm_num) h1
            omega
        rw [h1]
        exact pu_of_edge fun α hα β hβ => by
          have := hp.self 0 (by omega) α hα β hβ
          simpa using this
    obtain ⟨-, -, -, al', be', q1, -, -, q4⟩ := basis_of_pu xg hm hcc (fun a b => hp.anti a b a.isLt b.isLt) (rank_of_plainTree hm hlen hg (fun _ => ⟨_, _, _, _, _, hp⟩) ℚ) hpu
    obtain ⟨rfl, rfl⟩ := Prod.mk.inj (Res.ok.inj (e.symm.trans (q1 (fuel + 1) (by omega))))
    exact q4

/-- the integrals of a run with the Gauss-Chebyshev rule -/
theorem gc_rows_of_run {RC : {n m : Nat} → O.C n m → Matrix (Fin n) (Fin m) ℂ → Prop} {V : AjEnv A B C W O} (S : V.Sound R RB RC) {n : Nat} (hn : 3 ≤ n) {c : Sec} (h : secInit 2 n = .ok c) {x' : Nat → ℂ} {es : List (Edge W)} (hes : ∀ ed ∈ es, x' ed.a ≠ x' ed.b)
    {data : List (YData A)} (hdl : data.length = es.length) {u : Nat → Nat → ℂ} (hu : ExactData R 2 n x' es data u) {fuel flag : Nat} {prec : Int} (hprec : 2 ≤ prec)
    (hgood : GcGood V R fuel c.shape flag prec es data) {I : Nat → Nat → A}
    (hrun : treeGc V fuel c.shape flag prec data (V.order es) ⟨0, 0, fun _ => (V.ar prec).zero⟩ (fun _ _ => (V.ar prec).zero) = .ok I) :
    FreeEdges x' n es ∧ ∃ J : Nat → Nat → ℂ, (∀ k r, R (I k r) (J k r)) ∧ ∀ (k : Nat) (ed : Edge W), es[k]? = some ed → ∀ r i j, r < c.shape.g → diffOf c.shape.ni c.shape.j1 r = (i, j) →
      J k r = (1 - (zeta 2 ^ j)⁻¹) * segIntM (x' ed.a) (x' ed.b) i j (storedY 2 n data u k) := by
  have hn2 : (2 : Int) ≤ n := by omega
  obtain ⟨_, _, e2, _⟩ := secInit_fields h hn2
  have hcn : c.shape.n = n := by unfold Sec.shape; simp [e2]
  have hmem : ∀ (k : Nat) (yd : YData A), data[k]? = some yd → k ∈ V.order es := by
    intro k yd hk
    exact (S.order es).mem_iff.2 (List.mem_range.2 (hdl ▸ (List.getElem?_eq_some_iff.1 hk).1))
  have hex : ∀ k : Nat, ∃ p : GcPar, (∀ yd, data[k]? = some yd → gcParams V.par V.dbl fuel (pointsOf c.shape.n yd) c.shape.g prec = .ok p) ∧ ∃ e, p.e = some e := by
    intro k
    rcases hk : data[k]? with _ | yd
    · exact ⟨⟨0, some 0, 0, 0⟩, by simp, 0, rfl⟩
    · obtain ⟨p, hp⟩ := treeGc_params hrun k (hmem k yd hk) yd hk
      exact ⟨p, fun yd' h' => by obtain rfl := Option.some.inj h'; exact hp, Option.ne_none_iff_exists'.1 (hgood.par k yd p hk hp).1⟩
  choose par hpar e he using hex
  have hrun2 := treeGc_run hrun fun k _ yd hd => hpar k yd hd
  have hpar' : ∀ (k : Nat) (yd : YData A), data[k]? = some yd → gcParams V.par V.dbl fuel ((List.range (n - 2)).map yd.u) c.shape.g prec = .ok (par k) ∧ (par k).e = some (e k) ∧
      1 < (par k).r ∧ (par k).r ≤ (par k).r0 ∧ 1 ≤ (par k).n := by
    intro k yd hd
    have h1 := hpar k yd hd
    obtain ⟨-, g2⟩ := hgood.par k yd _ hd h1
    rw [hcn] at h1
    exact ⟨h1, he k, g2⟩
  have hdat : ∀ k ∈ V.order es, ∃ yd, data[k]? = some yd := by
    intro k hk
    exact ⟨_, List.getElem?_eq_getElem (hdl.symm ▸ List.mem_range.1 ((S.order es).mem_iff.1 hk))⟩
  have hmono : (V.order es).Pairwise fun k l => (par l).n.toNat ≤ (par k).n.toNat := by
    refine hgood.mono.imp_of_mem ?_
    intro k l hk hl hkl
    obtain ⟨yk, dk⟩ := hdat k hk
    obtain ⟨yl, dl⟩ := hdat l hl
    exact hkl yk yl _ _ dk dl (hpar k yk dk) (hpar l yl dl)
  have hfree := freeEdges_of_params S.par hes hdl hu fun k yd hd => ⟨(hpar' k yd hd).1, (hpar' k yd hd).2.2.1, (hpar' k yd hd).2.2.2.1⟩
  obtain ⟨J, hJ1, hJ2⟩ := tree_rows (S.ar prec hprec) (S.fns prec hprec) S.par (V.tests prec) hn h hes hdl hu hpar' (err := fun k => V.addErr (par k).e) (fun k v z z' => by rw [he k]; exact S.addErr _ v z z')
    ((S.order es).nodup_iff.2 List.nodup_range) hmono (fun k j yd _ hj hd => by
      obtain ⟨yj, dj⟩ := hdat j hj
      have := hgood.roots k j yd yj _ hd dj (hpar j yj dj)
      rwa [hcn] at this) (fun _ _ => (S.ar prec hprec).zero) rfl hrun2
  refine ⟨hfree, J, hJ1, fun k ed hk r i j hr hij => ?_⟩
  obtain ⟨ed', q1, -, q3⟩ := hJ2 k ((S.order es).mem_iff.2 (List.mem_range.2 (List.getElem?_eq_some_iff.1 hk).1))
  obtain rfl := Option.some.inj (q1.symm.trans hk)
  rw [diffOf_two hn2 h hr] at hij
  obtain ⟨rfl, rfl⟩ := Prod.mk.inj hij
  have e1 := cycleIntM_two (x' ed'.a) (x' ed'.b) r (storedY 2 n data u k) 0
  rw [cycleIntM_eq, cycleInt_eq] at e1
  simp only [pow_zero, zero_mul, inv_one, one_mul] at e1
  rw [q3 r hr, ← e1]

/-- the integrals of a run with the double-exponential rule -/
theorem de_rows_of_run {RC : {n m : Nat} → O.C n m → Matrix (Fin n) (Fin m) ℂ → Prop} {V : AjEnv A B C W O} (S : V.Sound R RB RC) {m n : Nat} (hn : 2 ≤ n) {c : Sec} (h : secInit m n = .ok c) {x' : Nat → ℂ} {es : List (Edge W)} (hes : ∀ ed ∈ es, x' ed.a ≠ x' ed.b)
    (hfree : FreeEdges x' n es) {data : List (YData A)} {u : Nat → Nat → ℂ} (hu : ExactData R m n x' es data u) {flag : Nat} {prec : Int} (hprec : 2 ≤ prec)
    (hgood : DeGood V R c.shape flag prec x' es data) {I : Nat → Nat → A} {de0 : DeInt A} (h0 : de0.n = 0)
    (hrun : treeDe V c.shape flag prec data (V.order es) de0 (fun _ _ => (V.ar prec).zero) = .ok I) :
    ∃ J : Nat → Nat → ℂ, (∀ k r, R (I k r) (J k r)) ∧ ∀ (k : Nat) (ed : Edge W), es[k]? = some ed → ∀ r i j, r < c.shape.g → diffOf c.shape.ni c.shape.j1 r = (i, j) →
      J k r = (1 - (zeta m ^ j)⁻¹) * segIntM (x' ed.a) (x' ed.b) i j (storedY m n data u k) := by
  have hn2 : (2 : Int) ≤ n := by omega
  obtain ⟨_, e1, e2, _⟩ := secInit_fields h hn2
  have hcn : c.shape.n = n := by unfold Sec.shape; simp [e2]
  have hcm : c.shape.m = m := by unfold Sec.shape; simp [e1]
  obtain ⟨q1, q2⟩ := treeDe_rows ((S.order es).nodup_iff.2 List.nodup_range) h0 hrun
  have key : ∀ k, ∃ z : Nat → ℂ, (∀ r, R (I k r) (z r)) ∧ ∀ ed : Edge W, es[k]? = some ed → ∀ r i j, r < c.shape.g → diffOf c.shape.ni c.shape.j1 r = (i, j) →
      z r = (1 - (zeta m ^ j)⁻¹) * segIntM (x' ed.a) (x' ed.b) i j (storedY m n data u k) := by
    intro k
    by_cases hk : k ∈ V.order es
    · obtain ⟨yd, yj, j, p, de, r, hd, hj, dj, f0, f1, f2, f3⟩ := q2 k hk
      have hk' : k < es.length := List.mem_range.1 ((S.order es).mem_iff.1 hk)
      have hke : es[k]? = some es[k] := List.getElem?_eq_getElem hk'
      obtain ⟨v1, v2, v3⟩ := hu k _ _ hke hd
      obtain ⟨h', lam', e, g1, g2, g3, g4⟩ := hgood.scheme j yj p dj f0
      have hroots := hgood.roots k j yd yj p hd dj f0
      have hcov := g4 k _ yd (u k) hke hd v2
      rw [hcn, hcm] at hroots hcov
      rw [hcn] at f2
      rw [hcm] at f1
      obtain ⟨row', r1, r2⟩ := de_edge_row (S.ar prec hprec) (S.fns prec hprec) (V.tests prec) hn h (hes _ (List.getElem_mem hk')) (hfree _ (List.getElem_mem hk')) v1 v2 v3 g1 g2 hroots g3 (hcov v3) f1 f2 f3
      refine ⟨row', r1, fun ed hed => ?_⟩
      obtain rfl := Option.some.inj (hke.symm.trans hed)
      unfold storedY
      rw [hd]
      exact r2
    · refine ⟨fun _ => 0, fun r => by rw [q1 k hk]; exact (S.ar prec hprec).zero, fun ed hed => ?_⟩
      exact absurd ((S.order es).mem_iff.2 (List.mem_range.2 (List.getElem?_eq_some_iff.1 hed).1)) hk
  choose J hJ using key
  exact ⟨J, fun k => (hJ k).1, fun k => (hJ k).2⟩

theorem intType_cases {flag : Nat} {m n : Int} (hm : 2 ≤ m) (hn : 2 ≤ n) :
    (intType flag m n = .gc → m = 2) ∧ (intType flag m n = .d2 → 2 < m ∧ n = 2) := by
  unfold intType
  split
  · exact ⟨fun h => (by cases h), fun h => (by cases h)⟩
  · rename_i h1
    split
    · rename_i h2
      exact ⟨fun _ => h2, fun h => (by cases h)⟩
    · rename_i h2
      refine ⟨fun h => (by cases h), fun _ => ?_⟩
      push Not at h1
      omega

theorem genus_two_points {m : Int} {c : Sec} (h : secInit m 2 = .ok c) (hm : m = 2) : c.shape.g = 0 := by
  subst hm
  have := isGenus_shape (by norm_num) h
  unfold IsGenus at this
  norm_num at this
  omega

/-- **C56 (partial).** Curve `y^m = ∏ (x - x_k)` of genus `g ≥ 1` with `n ≥ 2` distinct branch points; the roots computed at the last precision contain the `x_k` (nothing is assumed on the roots computed at 64 bits, from which the tree is chosen).
`tr0` is the tree of `abel_jacobi_init_poly` or the one left by an earlier call.  Whenever `abel_jacobi_compute` returns, whatever the options, its output is right (`AjRight`), provided that
the balls decide the directions of the edges with a common point (`Resolved`; nothing for `n = 2` without `AJ_USE_DE`), no branch point lies on an edge (needed when the integrals are not computed by the Gauss-Chebyshev rule), and the integrals are computed as in `GcGood` or `DeGood`.
Missing: the last conditions are not checked by the program, and can fail (C45_choice_fails, C27, C53_fails). -/
theorem C56_compute_partial {RM : {n m : Nat} → O.M n m → Matrix (Fin n) (Fin m) ℝ → Prop} {RC : {n m : Nat} → O.C n m → Matrix (Fin n) (Fin m) ℂ → Prop} {RK : O.K → ℂ → Prop} (M : MatEncl O RM RC RK)
    {V : AjEnv A B C W O} (S : V.Sound R RB RC) {m n : Nat} (hn : 2 ≤ n) {c : Sec} (h : secInit m n = .ok c) (hg : 1 ≤ c.shape.g) {tr0 : Tree W} (ht : (tr0.n : Int) = treeEdges c)
    {fuel flag : Nat} {prec : Int} {out : AjOut A W O c.shape.g} (hrun : ajRun V fuel c flag prec tr0 = .ok out)
    {x' : Nat → ℂ} (hx : Set.InjOn x' (Set.Iio n)) (hR : ∀ k, R (V.roots (out.intprec + 10) k) (x' k))
    (hres : out.type ≠ .d2 → Resolved (V.ar 64) (V.tests 64) x' out.tree.e out.data)
    (hfree : out.type = .de ∨ (out.type = .gc ∧ flag &&& ajNoInt ≠ 0) → FreeEdges x' n out.tree.e)
    (hgc : out.type = .gc → flag &&& ajNoInt = 0 → GcGood V R fuel c.shape flag out.intprec out.tree.e out.data)
    (hde : out.type = .de → flag &&& ajNoInt = 0 → DeGood V R c.shape flag out.intprec x' out.tree.e out.data) :
    ∃ (Y : Nat → ℝ → ℂ) (ca cb : Nat → ℂ) (cc : IMat) (Q : Mat (out.tree.e.length * (m - 1))), AjRight V R RC m n x' c out Y ca cb cc Q := by
  have hn2 : (2 : Int) ≤ n := by omega
  obtain ⟨hm1, e1, e2, _⟩ := secInit_fields h hn2
  have hcn : c.shape.n = n := by unfold Sec.shape; simp [e2]
  have hcm : c.shape.m = m := by unfold Sec.shape; simp [e1]
  have hm : 2 ≤ m := by omega
  obtain ⟨h1, h2, h3, h4, h5⟩ := ajRun_ok hrun
  obtain ⟨t1, hgr, hsz, hes, hdata, hcst⟩ := ajTree_ok S.sortEdges hn h ht h1
  have hlen := edgeCount_of_size hsz
  rw [hcm] at h3
  have hne : ∀ ed ∈ out.tree.e, ed.a < n ∧ ed.b < n ∧ x' ed.a ≠ x' ed.b := by
    intro ed hed
    obtain ⟨k, hk, rfl⟩ := List.getElem_of_mem hed
    have := (hgr k (by simpa using hk)).1
    exact ⟨(hes _ hed).1, (hes _ hed).2, fun h => by simpa using this (by simpa using hx (hes _ hed).1 (hes _ hed).2 h)⟩
  have hne2 : ∀ ed ∈ out.tree.e, x' ed.a ≠ x' ed.b := fun ed hed => (hne ed hed).2.2
  obtain ⟨u, hu⟩ := exactData_exists (S.ar _ hcst) _ hR (by omega) hne hdata
  have hdl := (treeYdataInit_get hdata).1
  obtain ⟨c1, c2⟩ := intType_cases (flag := flag) (m := c.m) (n := c.n) (by omega) (by omega)
  rw [← h2] at c1 c2
  have hone : out.type = .d2 → out.tree.e.length = 1 := by
    intro hty
    obtain ⟨d1, d2⟩ := c2 hty
    rcases hlen with h | ⟨h, -⟩
    · omega
    · have := Nat.le_of_dvd (by omega) h
      omega
  have hres' : Resolved (V.ar 64) (V.tests 64) x' out.tree.e out.data := by
    by_cases hty : out.type = .d2
    · have hlt : ∀ (k l : Nat) (el : Edge W), k < l → out.tree.e[l]? = some el → False := by
        intro k l el hkl hl
        have := (List.getElem?_eq_some_iff.1 hl).1
        have := hone hty
        omega
      exact ⟨fun k l _ el _ _ hkl _ hl => (hlt k l el hkl hl).elim, fun k l _ el _ _ hkl _ hl => (hlt k l el hkl hl).elim⟩
    · exact hres hty
  have hrows : FreeEdges x' n out.tree.e ∧ ∀ I, out.integrals = some I → ∃ J : Nat → Nat → ℂ, (∀ k r, R (I k r) (J k r)) ∧
      ∀ (k : Nat) (ed : Edge W), out.tree.e[k]? = some ed → ∀ r i j, r < c.shape.g → diffOf c.shape.ni c.shape.j1 r = (i, j) →
        J k r = (1 - (zeta m ^ j)⁻¹) * segIntM (x' ed.a) (x' ed.b) i j (storedY m n out.data u k) := by
    have hint : ∀ I, out.integrals = some I → flag &&& ajNoInt = 0 ∧ 2 ≤ out.intprec ∧ ajIntegrals V fuel c.shape flag out.intprec out.type out.tree.e out.data = .ok I := by
      intro I hI
      by_cases hf : flag &&& ajNoInt = 0
      · obtain ⟨hip, I', i1, i2, -⟩ := h4 hf
        obtain rfl := Option.some.inj (i1.symm.trans hI)
        exact ⟨hf, hip, i2⟩
      · rw [(h5 hf).1] at hI
        cases hI
    cases hty : out.type with
    | d2 =>
      obtain ⟨d1, d2⟩ := c2 hty
      obtain rfl : n = 2 := by omega
      have hm2 : 2 < m := by omega
      obtain ⟨ed, he⟩ := List.length_eq_one_iff.1 (hone hty)
      refine ⟨fun f hf k hk ha hb => ?_, fun I hI => ?_⟩
      · obtain ⟨f1, f2, f3⟩ := hne f hf
        have : f.a ≠ f.b := fun e => f3 (by rw [e])
        omega
      · obtain ⟨-, hip, hi⟩ := hint I hI
        rw [hty] at hi
        unfold ajIntegrals at hi
        have hd0 : out.data[0]? = some (out.data[0]'(by rw [hdl, he]; simp)) := List.getElem?_eq_getElem _
        simp only [hd0, Res.bind_eq_ok] at hi
        obtain ⟨row, i1, i2⟩ := hi
        obtain rfl := Res.ok.inj i2
        have he0 : out.tree.e[0]? = some ed := by rw [he]; rfl
        obtain ⟨v1, v2, v3⟩ := hu 0 ed _ he0 hd0
        obtain ⟨row2, row', w1, w2, w3⟩ := d2_row (S.ar out.intprec hip) (S.fns out.intprec hip) hm2 h (hne2 ed (by rw [he]; exact List.mem_singleton_self _)) v1 v2 v3
        obtain rfl := Res.ok.inj (i1.symm.trans w1)
        refine ⟨fun k => if k = 0 then row' else fun _ => 0, fun k r => ?_, fun k ed' hk r i j hr hij => ?_⟩
        · dsimp only
          split
          · exact w2 r
          · exact (S.ar out.intprec hip).zero
        · obtain rfl : k = 0 := by
            have := (List.getElem?_eq_some_iff.1 hk).1
            rw [he] at this
            simpa using this
          obtain rfl := Option.some.inj (he0.symm.trans hk)
          simp only [if_true, storedY, hd0]
          exact w3 r i j hr hij
    | gc =>
      have hm2 := c1 hty
      obtain rfl : m = 2 := by omega
      have hn3 : 3 ≤ n := by
        by_contra hlt
        obtain rfl : n = 2 := by omega
        have := genus_two_points h rfl
        omega
      by_cases hf : flag &&& ajNoInt = 0
      · obtain ⟨hip, I', i1, i2, -⟩ := h4 hf
        rw [hty] at i2
        obtain ⟨w1, w2⟩ := gc_rows_of_run S hn3 h hne2 hdl hu hip (hgc hty hf) i2
        refine ⟨w1, fun I hI => ?_⟩
        obtain rfl := Option.some.inj (i1.symm.trans hI)
        exact w2
      · exact ⟨hfree (Or.inr ⟨hty, hf⟩), fun I hI => absurd (hint I hI).1 hf⟩
    | de =>
      have hfr := hfree (Or.inl hty)
      refine ⟨hfr, fun I hI => ?_⟩
      obtain ⟨hf, hip, hi⟩ := hint I hI
      rw [hty] at hi
      exact de_rows_of_run S hn h hne2 hfr hu hip (hde hty hf) (by rfl) hi
  obtain ⟨hfr, hrw⟩ := hrows
  obtain ⟨cc, Q, b1, b2, bw, b3, b4, b5⟩ := basis_of_run V.xgcd (S.ar 64 (by norm_num)) (S.tests 64 (by norm_num)) hn hm h hx hes hsz hgr hfr hdl hu hres' h3
  have hom : ∀ om0 om1, out.omega = some (om0, om1) → ∀ r k : Fin c.shape.g, R (om0 r k) (periodsOf m x' out.tree.e (storedY m n out.data u) c.shape out.loopA r k) ∧
      R (om1 r k) (periodsOf m x' out.tree.e (storedY m n out.data u) c.shape out.loopB r k) := by
    intro om0 om1 ho
    by_cases hf : flag &&& ajNoInt = 0
    swap
    · rw [(h5 hf).2.1] at ho
      cases ho
    obtain ⟨hip, I, i1, -, i3, i4⟩ := h4 hf
    by_cases hA : flag &&& ajNoAb = 0
    swap
    · rw [(i4 hA).1] at ho
      cases ho
    obtain ⟨p0, p1, j1, j2, j3, -⟩ := i3 hA
    obtain ⟨rfl, rfl⟩ := Prod.mk.inj (Option.some.inj (j3.symm.trans ho))
    obtain ⟨J, hJ1, hJ2⟩ := hrw I i1
    rw [t1] at j1 j2
    have main : ∀ (ls : List (List Gamma)) (om : Nat → Nat → A), ls.length = c.shape.g → (∀ l ∈ ls, l ∈ out.loopA ++ out.loopB) →
        periodMatrix (V.ar out.intprec) c.shape ls out.tree.e.length I = .ok om →
        ∀ r k : Fin c.shape.g, R (trimIf V flag om r k) (periodsOf m x' out.tree.e (storedY m n out.data u) c.shape ls r k) := by
      intro ls om hl hsub hpm r k
      have hco := periodMatrix_coeff hpm hl.le
      obtain ⟨om', q1, q2⟩ := periods_of_rows (S.ar out.intprec hip) hn h hJ1 hJ2 ls hl.ge fun l hl t ht => by
        obtain ⟨-, w1, w2⟩ := (b2.terms l (hsub l hl)).1 t ht
        exact ⟨w1, by omega, hco l hl t ht⟩
      obtain rfl := Res.ok.inj (hpm.symm.trans q1)
      have hk : k.val < ls.length := by rw [hl]; exact k.isLt
      have key := q2 r _ _ k _ r.isLt rfl k.isLt (List.getElem?_eq_getElem hk)
      have e : periodsOf m x' out.tree.e (storedY m n out.data u) c.shape ls r k =
          loopPeriodM m x' out.tree.e (storedY m n out.data u) (diffOf c.shape.ni c.shape.j1 r).1 (diffOf c.shape.ni c.shape.j1 r).2 ls[k.val] := by
        simp only [periodsOf, Matrix.of_apply, List.getD_eq_getElem?_getD, List.getElem?_eq_getElem hk, Option.getD_some]
      rw [e]
      unfold trimIf
      split
      · exact S.trim _ _ key
      · exact key
    exact fun r k => ⟨main _ _ b2.lengths.1 (fun l hl => List.mem_append_left _ hl) j1 r k, main _ _ b2.lengths.2 (fun l hl => List.mem_append_right _ hl) j2 r k⟩
  refine ⟨storedY m n out.data u, _, _, cc, Q, ⟨hgr, hsz, hes⟩, branches_of (by omega) hne2 hfr hdl hu, b1, b2, bw, b3, b4, b5, ?_, hom, ?_⟩
  · intro I hI k ed hk r i j hr hij
    obtain ⟨J, hJ1, hJ2⟩ := hrw I hI
    rw [cycleIntM_eq, ← hJ2 k ed hk r i j hr hij]
    simpa using hJ1 k r
  · intro om0 om1 t ho htau
    have hom' := hom om0 om1 ho
    by_cases hf : flag &&& ajNoInt = 0
    swap
    · rw [(h5 hf).2.1] at ho
      cases ho
    obtain ⟨hip, I, i1, -, i3, i4⟩ := h4 hf
    by_cases hA : flag &&& ajNoAb = 0
    swap
    · rw [(i4 hA).1] at ho
      cases ho
    obtain ⟨p0, p1, j1, j2, j3, j4, j5⟩ := i3 hA
    obtain ⟨rfl, rfl⟩ := Prod.mk.inj (Option.some.inj (j3.symm.trans ho))
    by_cases hT : flag &&& ajNoTau = 0
    swap
    · rw [j5 hT] at htau
      cases htau
    obtain ⟨t', k1, k2⟩ := j4 hT
    obtain rfl := Option.some.inj (k2.symm.trans htau)
    have htrim : ∀ tau, RC t' tau → RC (if flag &&& ajTrim ≠ 0 then V.trimTau t' else t') tau := by
      intro tau h'
      split
      · exact S.trimTau _ _ h'
      · exact h'
    obtain ⟨q1, q2⟩ := C29_tau_partial M hg (S.mat _ _ fun i j => (hom' i j).1) (S.mat _ _ fun i j => (hom' i j).2) k1
    by_cases hs : O.solve (V.mat (trimIf V flag p0)) (V.mat (g := c.shape.g) (trimIf V flag p1)) ≠ none ∨ solveReal O (V.mat (trimIf V flag p0)) (V.mat (g := c.shape.g) (trimIf V flag p1)) ≠ none ∨
        solveReal O (O.mulI (V.mat (trimIf V flag p0))) (O.mulI (V.mat (g := c.shape.g) (trimIf V flag p1))) ≠ none
    · obtain ⟨tau, w1, w2, w3⟩ := q1 hs
      exact ⟨tau, htrim tau w1, Or.inl fun tau' => ⟨w3 tau', fun e => by rw [e]; exact w2⟩⟩
    · push Not at hs
      obtain ⟨tau, w1, w2⟩ := q2 hs.1 hs.2.1 hs.2.2
      exact ⟨tau, htrim tau w1, Or.inr ⟨hs.1, hs.2.1, hs.2.2, w2⟩⟩

/-- **C56 (two branch points).** Curve `y^m = (x - x_0) (x - x_1)`, `m > 2`, without the option `AJ_USE_DE`; at each precision the two roots are balls of two distinct points.  If the working precision is at least two bits and does not overflow, `abel_jacobi_compute`
aborts because the ball of the constant of the edge contains zero (the constant is not zero), aborts, when `tau` is wanted, because the ball of the determinant of the matrix of the periods contains zero, or returns a right output; no other condition. -/
theorem C56_quadratic {RM : {n m : Nat} → O.M n m → Matrix (Fin n) (Fin m) ℝ → Prop} {RC : {n m : Nat} → O.C n m → Matrix (Fin n) (Fin m) ℂ → Prop} {RK : O.K → ℂ → Prop} (M : MatEncl O RM RC RK)
    {V : AjEnv A B C W O} (S : V.Sound R RB RC) {m : Nat} (hm : 2 < m) {c : Sec} (h : secInit m 2 = .ok c) {tr0 : Tree W} (ht : (tr0.n : Int) = treeEdges c)
    {fuel flag : Nat} (hfuel : 1 ≤ fuel) (hflag : flag &&& ajUseDe = 0) {prec : Int} 
    (hprec : ∀ ed : Edge W, ed.a < 2 → ed.b < 2 → ed.a ≠ ed.b → ∃ e, extraprecTree (V.ar 64) V.mag [ed] (V.roots 64) c.shape = .ok e ∧ 2 ≤ prec + e ∧ FitsSlong (prec + e) ∧ FitsSlong (prec + e + 10))
    {x' : Int → Nat → ℂ} (hx : ∀ p, x' p 0 ≠ x' p 1) (hR : ∀ p k, 2 ≤ p → R (V.roots p k) (x' p k)) :
    (ajRun V fuel c flag prec tr0 = .abort "Cab contains 0" ∧ ∃ (p : Int) (a b : Nat), a < 2 ∧ b < 2 ∧ a ≠ b ∧ ydataInitEdge (V.ar p) (V.tests p) (V.roots p) a b 2 m = .abort "Cab contains 0" ∧
        ∃ (v : A) (z : ℂ), R v z ∧ z ≠ 0 ∧ (V.tests p).hasZero v = true) ∨
      (ajRun V fuel c flag prec tr0 = .abort "matrix is not invertible" ∧ flag &&& ajNoInt = 0 ∧ flag &&& ajNoAb = 0 ∧ flag &&& ajNoTau = 0 ∧ ∃ om, O.detHasZero (V.mat (g := c.shape.g) om) = true) ∨
      ∃ out, ajRun V fuel c flag prec tr0 = .ok out ∧ ∃ (Y : Nat → ℝ → ℂ) (ca cb : Nat → ℂ) (cc : IMat) (Q : Mat (out.tree.e.length * (m - 1))),
        AjRight V R RC m 2 (x' (out.intprec + 10)) c out Y ca cb cc Q := by
  have hn2 : (2 : Int) ≤ 2 := le_rfl
  obtain ⟨hm1, e1, e2, _⟩ := secInit_fields h hn2
  have hcn : c.shape.n = 2 := by unfold Sec.shape; simp [e2]
  have hcm : c.shape.m = m := by unfold Sec.shape; simp [e1]
  have hty : intType flag c.m c.n = .d2 := by
    unfold intType
    rw [if_neg, if_neg]
    · omega
    · rw [e2]
      push Not
      exact ⟨hflag, fun _ => le_rfl⟩
  have hinj : ∀ p, Set.InjOn (x' p) (Set.Iio 2) := by
    intro q a ha b hb e
    simp only [Set.mem_Iio] at ha hb
    rcases (by omega : a = b ∨ a = 0 ∧ b = 1 ∨ a = 1 ∧ b = 0) with e1 | ⟨rfl, rfl⟩ | ⟨rfl, rfl⟩
    · exact e1
    · exact absurd e (hx q)
    · exact absurd e.symm (hx q)
  have hg : 1 ≤ c.shape.g := by
    have hgen := isGenus_shape hn2 h
    unfold IsGenus at hgen
    have h3 : ((Int.gcd m 2 : Nat) : Int) ≤ 2 := Int.le_of_dvd (by norm_num) (Int.gcd_dvd_right _ _)
    by_contra h0
    have h4 : c.shape.g = 0 := by omega
    rw [h4] at hgen
    have h5 : m = 3 ∨ 4 ≤ m := by omega
    rcases h5 with rfl | h5
    · norm_num at hgen
    · push_cast at hgen
      omega
  -- the tree
  have hec := C03_edge_count (n := 2) le_rfl (by exact_mod_cast h)
  rw [← ht, Int.toNat_natCast] at hec
  obtain ⟨tr, k1, k2, k3, k4, k5⟩ := C09_grows_as_tree V.wops V.sortEdges S.sortEdges
    (fun i j => paramEdge V.wops (fun k => treeParam V.cops (intType flag c.m c.n) (V.approx (V.roots 64 i)) (V.approx (V.roots 64 j)) (V.approx (V.roots 64 k))) i j 2) tr0 2
    (Or.inl (edgeCount_lt hec))
  have hlen : tr.e.length = 1 := by
    rw [k3]
    rcases hec with h | ⟨h, -⟩
    · omega
    · have := Nat.le_of_dvd (by omega) h
      omega
  obtain ⟨ed, he⟩ := List.length_eq_one_iff.1 hlen
  obtain ⟨ha, hb, -⟩ := k5 ed (by rw [he]; exact List.mem_singleton_self _)
  have hab : ed.a ≠ ed.b := by
    have := (k4 0 (by simp [Tree.pairs, he])).1
    simpa [Tree.pairs, he] using this
  obtain ⟨ex, f0, hip, f1, f2⟩ := hprec ed ha hb hab
  rw [← he] at f0
  obtain ⟨ip, hipe⟩ : ∃ ip, prec + ex = ip := ⟨_, rfl⟩
  rw [hipe] at hip f1 f2
  have hxab : x' (ip + 10) ed.a ≠ x' (ip + 10) ed.b := fun e => hab (hinj _ ha hb e)
  have hstart : ajTree V c flag prec tr0 = (treeYdataInit (V.ar (ip + 10)) (V.tests (ip + 10)) (V.roots (ip + 10)) 2 m tr.e) >>= fun data => .ok (tr, ip, data) := by
    have e1 : spanningTreeOf V.cops V.wops V.sortEdges (fun k => V.approx (V.roots 64 k)) tr0 2 (intType flag c.m c.n) = .ok tr := k1
    unfold ajTree
    simp only [hcn, e1, f0, hipe, Res.ok_bind, chk_ok f1, chk_ok f2, arbPrec_of (by omega : 2 ≤ ip + 10), hcm]
  rcases C20_edge_data (S.ar (ip + 10) (by omega)) (V.tests (ip + 10)) (fun k => hR (ip + 10) k (by omega)) ha hb hab (by omega : 0 < m) hxab with ⟨yd, y1, -, hyn, u', hu, hE⟩ | ⟨y1, sv, z, z1, z2, z3⟩
  swap
  · left
    refine ⟨?_, ip + 10, ed.a, ed.b, ha, hb, hab, y1, sv, z, z1, z3, z2⟩
    unfold ajRun
    rw [hstart, he]
    simp only [treeYdataInit, y1]
    rfl
  right
  have hdata : treeYdataInit (V.ar (ip + 10)) (V.tests (ip + 10)) (V.roots (ip + 10)) 2 m tr.e = .ok [yd] := by
    rw [he]
    simp only [treeYdataInit, y1, Res.ok_bind]
  rw [hdata, Res.ok_bind] at hstart
  obtain ⟨cc, row, Y, ca, cb, Q, al, be, om0, om1, w1, w2, -, -, w5, -, -, -, w9, w10, -⟩ := quad_of_data V.xgcd (S.ar 64 (by norm_num)) (S.ar ip hip) (S.fns ip hip) (S.tests 64 (by norm_num)) hm h (hx (ip + 10)) ha hb hxab
    (by rw [← he]; exact k4) hyn hu hE (V.ar ip).zero (S.ar ip hip).zero
  have hrest : (∃ out, ajRun V fuel c flag prec tr0 = .ok out ∧ out.intprec = ip) ∨ (ajRun V fuel c flag prec tr0 = .abort "matrix is not invertible" ∧ flag &&& ajNoInt = 0 ∧ flag &&& ajNoAb = 0 ∧ flag &&& ajNoTau = 0 ∧
      ∃ om, O.detHasZero (V.mat (g := c.shape.g) om) = true) := by
    have hI : ajIntegrals V fuel c.shape flag ip (intType flag c.m c.n) tr.e [yd] = .ok fun k => if k = 0 then row else fun _ => (V.ar ip).zero := by
      unfold ajIntegrals
      rw [hty]
      simp only [List.getElem?_cons_zero, w2, Res.ok_bind]
    have hn1 : tr.n = 1 := by omega
    unfold ajRun
    simp only [hstart, Res.ok_bind, hcm]
    rw [he, w5 fuel hfuel, Res.ok_bind]
    dsimp only
    split
    · exact Or.inl ⟨_, rfl, rfl⟩
    rename_i g1
    rw [arbPrec_of hip, Res.ok_bind, ← he, hI, Res.ok_bind]
    split
    · exact Or.inl ⟨_, rfl, rfl⟩
    rename_i g2
    rw [hn1]
    simp only [List.length_singleton] at w9 w10
    rw [w9, Res.ok_bind, w10, Res.ok_bind]
    split
    · exact Or.inl ⟨_, rfl, rfl⟩
    rename_i g3
    rcases C29_outcomes O (n := c.shape.g) (m := c.shape.g) (V.mat (trimIf V flag om0)) (V.mat (trimIf V flag om1)) with ⟨t, e⟩ | ⟨e, e', -⟩
    · rw [e, Res.ok_bind]
      exact Or.inl ⟨_, rfl, rfl⟩
    · rw [e]
      exact Or.inr ⟨rfl, not_not.1 g1, not_not.1 g2, not_not.1 g3, _, e'⟩
  rcases hrest with ⟨out, hout, hoi⟩ | hab
  swap
  · exact Or.inl hab
  right
  refine ⟨out, hout, ?_⟩
  have hnd : out.type ≠ .gc ∧ out.type ≠ .de := by
    rw [(ajRun_ok hout).2.1, hty]
    exact ⟨by decide, by decide⟩
  exact C56_compute_partial M S le_rfl h hg ht hout (hinj _) (fun k => hR _ k (by rw [hoi]; omega)) (fun e => absurd ((ajRun_ok hout).2.1.trans hty) e) (fun e => by rcases e with e | ⟨e, -⟩; exacts [absurd e hnd.2, absurd e hnd.1])
    (fun e => absurd e hnd.1) fun e => absurd e hnd.2

/-- **C56 (fields).** When `abel_jacobi_compute` returns, the matrix of integrals is set unless `AJ_NO_INT`, the period matrices unless `AJ_NO_INT` or `AJ_NO_AB`, `tau` unless one of the three options excludes it, and nothing else. -/
theorem C56_fields {V : AjEnv A B C W O} {fuel : Nat} {c : Sec} {flag : Nat} {prec : Int} {tr0 : Tree W} {out : AjOut A W O c.shape.g} (h : ajRun V fuel c flag prec tr0 = .ok out) :
    (out.integrals.isSome ↔ flag &&& ajNoInt = 0) ∧ (out.omega.isSome ↔ flag &&& ajNoInt = 0 ∧ flag &&& ajNoAb = 0) ∧
      (out.tau.isSome ↔ flag &&& ajNoInt = 0 ∧ flag &&& ajNoAb = 0 ∧ flag &&& ajNoTau = 0) := by
  obtain ⟨-, -, -, h1, h2⟩ := ajRun_ok h
  by_cases f1 : flag &&& ajNoInt = 0
  swap
  · obtain ⟨e1, e2, e3⟩ := h2 f1
    simp [e1, e2, e3, f1]
  obtain ⟨-, I, e1, -, h3, h4⟩ := h1 f1
  by_cases f2 : flag &&& ajNoAb = 0
  swap
  · obtain ⟨e2, e3⟩ := h4 f2
    simp [e1, e2, e3, f1, f2]
  obtain ⟨om0, om1, -, -, e2, h5, h6⟩ := h3 f2
  by_cases f3 : flag &&& ajNoTau = 0
  · obtain ⟨t, -, e3⟩ := h5 f3
    simp [e1, e2, e3, f1, f2, f3]
  · simp [e1, e2, h6 f3, f1, f2, f3]

end Hcp
