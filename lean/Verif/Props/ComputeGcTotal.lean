import Verif.Props.ComputeGcExact
import Verif.Props.ComputeInst
import Verif.Props.SheetSpan

/-!
# C73: hyperelliptic curves with exactly known branch points, total correctness
-/

namespace Hcp

open Set Spec Filter Topology

variable {C W : Type} {O : MatOps}

theorem snd_shiftAD (yk yl : YData ℂ) (m : Nat) : shiftAD setArith sndTests (ptData yk) (ptData yl) m = shiftAD exact exactTests yk yl m := by
  have q1 : (ptData yk).ba2 = {yk.ba2} := rfl
  have q2 : (ptData yl).ba2 = {yl.ba2} := rfl
  have q3 : (ptData yk).ya = {yk.ya} := rfl
  have q4 : (ptData yl).ya = {yl.ya} := rfl
  have e1 : ∀ r p : ℂ, setArith.add {r} (setArith.mul {p} (setArith.ofInt m)) = {exact.add r (exact.mul p (exact.ofInt m))} := fun r p =>
    setArith_pt.add rfl (setArith_pt.mul rfl rfl)
  unfold shiftAD
  rw [q1, q2, q3, q4, snd_angle, snd_angle]
  obtain ⟨φ, h1, -⟩ := arbAngle_exact yk.ba2 yl.ba2
  obtain ⟨ψ, h2, -⟩ := arbAngle_exact yl.ya yk.ya
  rw [h1, h2]
  simp only [Res.ok_bind, e1]
  unfold arbGetSi
  rw [snd_uniqueInt]

/-- data of an edge, on one-point sets -/
theorem pt_data {x : Nat → ℂ} {n m a b : Nat} (hx : InjOn x (Iio n)) (hm : 0 < m) (ha : a < n) (hb : b < n) (hab : a ≠ b) :
    ∃ y : YData ℂ, ydataInitEdge setArith sndTests (fun k => {x k}) a b n m = .ok (ptData y) ∧ y.n = n ∧ EdgeData m n x a b y.n1 y.u := by
  rcases C20_edge_data setArith_pt sndTests (x := fun k => {x k}) (fun _ => rfl) ha hb hab (m := m) hm (fun h => hab (hx ha hb h))
    with ⟨yd, hyd, h1, h2, u', hu, hE⟩ | ⟨_, s, z, hz, h, h0⟩
  · refine ⟨{ m := m, n := n, n1 := yd.n1, u := u' }, ?_, rfl, hE⟩
    rw [hyd]
    congr 1
    unfold ptData
    cases yd
    simp only at h1 h2 hu ⊢
    subst h1 h2
    congr 1
    exact funext hu
  · subst hz
    simp only [sndTests, mem_singleton_iff, decide_eq_true_eq] at h
    exact absurd h.symm h0

theorem pt_tree {x : Nat → ℂ} {n m : Nat} (hx : InjOn x (Iio n)) (hm : 0 < m) : ∀ (es : List (Edge W)), (∀ ed ∈ es, ed.a < n ∧ ed.b < n ∧ ed.a ≠ ed.b) →
    ∃ ys : List (YData ℂ), treeYdataInit setArith sndTests (fun k => {x k}) n m es = .ok (ys.map ptData) ∧ ys.length = es.length ∧
      ∀ (k : Nat) (ed : Edge W) (y : YData ℂ), es[k]? = some ed → ys[k]? = some y → y.n = n ∧ EdgeData m n x ed.a ed.b y.n1 y.u
  | [], _ => ⟨[], rfl, rfl, by simp⟩
  | ed :: es, h => by
    obtain ⟨ys, h1, h2, h3⟩ := pt_tree hx hm es fun e he => h e (List.mem_cons_of_mem _ he)
    obtain ⟨q1, q2, q3⟩ := h ed List.mem_cons_self
    obtain ⟨y, y1, y2, y3⟩ := pt_data hx hm q1 q2 q3
    refine ⟨y :: ys, ?_, by simp [h2], ?_⟩
    · unfold treeYdataInit
      rw [y1, Res.ok_bind, h1, Res.ok_bind]
      rfl
    · rintro (_ | k) f z hf hz
      · obtain rfl := Option.some.inj hf
        obtain rfl := Option.some.inj hz
        exact ⟨y2, y3⟩
      · exact h3 k f z hf hz

/-- the intersection matrix is computed -/
theorem pt_intersection {x : Nat → ℂ} {n m : Nat} (hx : InjOn x (Iio n)) (hm : 2 ≤ m) (hm' : m < 2 ^ 62) {es : List (Edge W)} (hes : ∀ ed ∈ es, ed.a < n ∧ ed.b < n ∧ ed.a ≠ ed.b)
    {ys : List (YData ℂ)} (hl : ys.length = es.length) (hd : ∀ (k : Nat) (ed : Edge W) (y : YData ℂ), es[k]? = some ed → ys[k]? = some y → y.n = n ∧ EdgeData m n x ed.a ed.b y.n1 y.u) :
    ∃ cc, intersectionTree (shiftOracle setArith sndTests (ys.map ptData) m) es m = .ok cc := by
  have hget : ∀ (k : Nat) (ed : Edge W), es[k]? = some ed → ∃ y, ys[k]? = some y ∧ (ys.map ptData)[k]? = some (ptData y) ∧ y.n = n ∧ EdgeData m n x ed.a ed.b y.n1 y.u := by
    intro k ed hk
    have h1 := (List.getElem?_eq_some_iff.1 hk).1
    have h2 : ys[k]? = some (ys[k]'(by omega)) := List.getElem?_eq_getElem _
    exact ⟨_, h2, by rw [List.getElem?_map, h2]; rfl, hd k ed _ hk h2⟩
  have h1 : ∀ k l : Nat, ∃ s : Int, ∀ ek el : Edge W, es[k]? = some ek → es[l]? = some el → el.a = ek.a → (shiftOracle setArith sndTests (ys.map ptData) m).abad k l = .ok s := by
    intro k l
    by_cases h : ∃ ek el : Edge W, es[k]? = some ek ∧ es[l]? = some el ∧ el.a = ek.a
    · obtain ⟨ek, el, hk, hl, ha⟩ := h
      obtain ⟨yk, -, k2, k3, k4⟩ := hget k ek hk
      obtain ⟨yl, -, l2, l3, l4⟩ := hget l el hl
      obtain ⟨e1, e2, e3⟩ := hes ek (List.mem_of_getElem? hk)
      obtain ⟨-, f2, f3⟩ := hes el (List.mem_of_getElem? hl)
      rw [ha] at l4 f3
      obtain ⟨s, hs⟩ := shiftAD_exact_ok (by omega) hm' hx e1 e2 f2 e3 f3 k3 l3 k4 l4
      refine ⟨s, fun _ _ _ _ _ => ?_⟩
      simp only [shiftOracle, k2, l2]
      rw [snd_shiftAD, hs]
    · exact ⟨0, fun ek el hk hl ha => absurd ⟨ek, el, hk, hl, ha⟩ h⟩
  have h2 : ∀ k l : Nat, ∃ s : Int, ∀ ek el : Edge W, es[k]? = some ek → es[l]? = some el → el.a = ek.b → (shiftOracle setArith sndTests (ys.map ptData) m).abbd k l = .ok s := by
    intro k l
    by_cases h : ∃ ek el : Edge W, es[k]? = some ek ∧ es[l]? = some el ∧ el.a = ek.b
    · obtain ⟨ek, el, hk, hl, ha⟩ := h
      obtain ⟨yk, -, k2, k3, k4⟩ := hget k ek hk
      obtain ⟨yl, -, l2, l3, l4⟩ := hget l el hl
      obtain ⟨e1, e2, e3⟩ := hes ek (List.mem_of_getElem? hk)
      obtain ⟨-, f2, f3⟩ := hes el (List.mem_of_getElem? hl)
      rw [ha] at l4 f3
      obtain ⟨s, hs⟩ := shiftBD_exact_ok (by omega) hm' hx e1 e2 f2 e3 f3 k3 l3 k4 l4
      refine ⟨s, fun _ _ _ _ _ => ?_⟩
      simp only [shiftOracle, k2, l2]
      rw [snd_shiftBD, hs]
    · exact ⟨0, fun ek el hk hl ha => absurd ⟨ek, el, hk, hl, ha⟩ h⟩
  choose sab hsab using h1
  choose sbd hsbd using h2
  obtain ⟨cc, hcc, -⟩ := C13_intersection_table (shiftOracle setArith sndTests (ys.map ptData) m) es hm (sab := sab) (sbd := sbd)
    ⟨fun k l ek el _ hk hl h => hsab k l ek el hk hl h, fun k l ek el _ hk hl _ h => hsbd k l ek el hk hl h⟩
  exact ⟨cc, hcc⟩

/-- `integrals_tree_gc` returns when each edge does -/
theorem treeGc_total {A B : Type} {V : AjEnv A B C W O} {fuel : Nat} {c : Shape} {flag : Nat} {prec : Int} {data : List (YData A)}
    (hinit : ∀ N, ∃ gc, gcIntInit (V.ar prec) (V.fns prec) N = .ok gc) :
    ∀ (ks : List Nat), (∀ k ∈ ks, ∃ ye p, data[k]? = some ye ∧ gcParams V.par V.dbl fuel (pointsOf c.n ye) c.g prec = .ok p ∧ 0 ≤ p.n ∧
      ∀ N gc, gcIntInit (V.ar prec) (V.fns prec) N = .ok gc → ∃ r row, gcIntegralsPrecomp (V.ar prec) (V.tests prec) (c.n + 3) ye.u ye.n1 (c.n - 2) c.g gc flag = .ok r ∧
        edgeFactors (V.ar prec) c ye.ba2 ye.ab ye.c (fun i => if i < c.g then V.addErr p.e (r i) else r i) = .ok row) →
    ∀ (gc : GcInt A), (gc.n = 0 ∨ ∃ N, gcIntInit (V.ar prec) (V.fns prec) N = .ok gc) → ∀ I, ∃ I', treeGc V fuel c flag prec data ks gc I = .ok I'
  | [], _, _, _, I => ⟨I, rfl⟩
  | k :: ks, h, gc, hgc, I => by
    obtain ⟨ye, p, h1, h2, h3, h4⟩ := h k List.mem_cons_self
    have hs : ∃ gc1 N, gcScheme (V.ar prec) (V.fns prec) c p.n.toNat gc = .ok gc1 ∧ gcIntInit (V.ar prec) (V.fns prec) N = .ok gc1 := by
      unfold gcScheme
      by_cases hr : gcReplace gc.n p.n.toNat c.n c.g = true
      · rw [if_pos hr]
        obtain ⟨gc1, e⟩ := hinit p.n.toNat
        exact ⟨gc1, _, e, e⟩
      · rw [if_neg hr]
        rcases hgc with h0 | ⟨N, hN⟩
        · exact absurd (by simp [gcReplace, h0]) hr
        · exact ⟨gc, N, rfl, hN⟩
    obtain ⟨gc1, N, s1, s2⟩ := hs
    obtain ⟨r, row, r1, r2⟩ := h4 N gc1 s2
    obtain ⟨I', hI⟩ := treeGc_total hinit ks (fun k hk => h k (List.mem_cons_of_mem _ hk)) gc1 (Or.inr ⟨N, s2⟩) fun i => if i = k then row else I i
    refine ⟨I', ?_⟩
    unfold treeGc
    rw [h1]
    simp only
    rw [h2, Res.ok_bind, if_neg (by omega)]
    unfold integralsEdgeGc
    rw [s1, Res.ok_bind, r1, Res.ok_bind, r2, Res.ok_bind, Res.ok_bind]
    exact hI

theorem one_lt_rOf_edge {a b z u : ℂ} (hab : a ≠ b) (h : edgePt a b u = z) (hs : ¬ OnSeg a b z) : 1 < rOf u := by
  have e : rOf u = ellipseParam a b z := rOf_edge hab h
  rw [e]
  exact lt_of_le_of_ne (ellipseParam_ge a b z hab) fun h => hs ((ellipseParam_eq a b z hab).1 h.symm)

/-- the tree and the data, from their parts -/
theorem ajTree_of {A B : Type} {V : AjEnv A B C W O} {c : Sec} {flag : Nat} {prec : Int} {tr0 tr : Tree W} (h1 : spanningTreeOf V.cops V.wops V.sortEdges (fun k => V.approx (V.roots 64 k)) tr0 c.shape.n (intType flag c.m c.n) = .ok tr)
    {extra ip : Int} (h2 : extraprecTree (V.ar 64) V.mag tr.e (V.roots 64) c.shape = .ok extra) (hip : prec + extra = ip) (h2' : 2 ≤ ip) (h3 : FitsSlong ip) (h4 : FitsSlong (ip + 10)) {data : List (YData A)}
    (h5 : treeYdataInit (V.ar (ip + 10)) (V.tests (ip + 10)) (V.roots (ip + 10)) c.shape.n c.shape.m tr.e = .ok data) : ajTree V c flag prec tr0 = .ok (tr, ip, data) := by
  unfold ajTree
  simp only [h1, Res.ok_bind, h2, hip, chk_ok h3, chk_ok h4, arbPrec_of (by omega : (2 : Int) ≤ ip + 10), h5]

theorem fits_small {ip : Nat} (h : (ip : Int) < 2 ^ 62) : FitsSlong (ip : Int) ∧ FitsSlong ((ip : Int) + 10) := by
  unfold FitsSlong slongMin slongMax
  refine ⟨⟨?_, ?_⟩, ?_, ?_⟩ <;> omega

/-- **C73 (total correctness, any environment).** Let `y^2 = ∏ (x - x_k)` have `n ≥ 3` distinct branch points, known exactly; let the routines of Arb enclose what they compute and be exact on the branch points.  Let the tree chosen at the start have no
edge through a third branch point and let `extraprec_tree` return `extra`.  If the precision `prec + extra` is large enough for the tree (`GcReady`) and the numbers of points fit in machine integers, then with the
Gauss-Chebyshev rule and without `tau`, `abel_jacobi_compute` returns and what it returns is right. -/
theorem C73_returns_right {RB : RSet → ℝ → Prop} {RM : {n m : Nat} → O.M n m → Matrix (Fin n) (Fin m) ℝ → Prop} {RC : {n m : Nat} → O.C n m → Matrix (Fin n) (Fin m) ℂ → Prop} {RK : O.K → ℂ → Prop} (M : MatEncl O RM RC RK)
    {V : AjEnv (Set ℂ) RSet C W O} (S : V.Sound (fun s z => z ∈ s) RB RC) {x : Nat → ℂ} (hV : ExactGc V x) {n : Nat} (hn : 3 ≤ n) (hx : InjOn x (Iio n)) {c : Sec} (hc : secInit 2 n = .ok c) {tr0 tr : Tree W} (ht : (tr0.n : Int) = treeEdges c)
    (hspan : spanningTreeOf V.cops V.wops V.sortEdges (fun k => V.approx (V.roots 64 k)) tr0 n .gc = .ok tr) (hfree : FreeEdges x n tr.e)
    {extra : Int} (hext : extraprecTree (V.ar 64) V.mag tr.e (V.roots 64) c.shape = .ok extra)
    {prec : Int} {ip : Nat} (hip : prec + extra = ip) (hip2 : 2 ≤ ip) (hip62 : (ip : Int) < 2 ^ 62) (hready : GcReady x n c.shape.g tr.e (V.order tr.e) ip)
    (hfits : ∀ ed ∈ tr.e, ∀ r, IsLeastIn r (edgeRs x n ed.a ed.b) → 2 * gcN (edgeRs x n ed.a ed.b) r c.shape.g ip < 2 ^ 63)
    {fuel flag : Nat} (hfuel : 2 ≤ fuel) (hty : intType flag c.m c.n = .gc) (hni : flag &&& ajNoInt = 0) (hnt : flag &&& ajNoAb ≠ 0 ∨ flag &&& ajNoTau ≠ 0) (hflag : flag.testBit 5 = true ∨ n = 3) :
    ∃ out : AjOut (Set ℂ) W O c.shape.g, ajRun V fuel c flag prec tr0 = .ok out ∧ out.tree = tr ∧ out.integrals ≠ none ∧ (flag &&& ajNoAb = 0 → out.omega ≠ none) ∧
        ∃ (Y : Nat → ℝ → ℂ) (ca cb : Nat → ℂ) (cc : IMat) (Q : Mat (out.tree.e.length * (2 - 1))), AjRight V (fun s z => z ∈ s) RC 2 n x c out Y ca cb cc Q := by
  have hn2 : (2 : Int) ≤ n := by omega
  obtain ⟨_, e1, e2, _⟩ := secInit_fields hc hn2
  have hcn : c.shape.n = n := by unfold Sec.shape; simp [e2]
  have hcm : c.shape.m = 2 := by unfold Sec.shape; simp [e1]
  have hgen := isGenus_shape hn2 hc
  have hg : 1 ≤ c.shape.g := by
    by_contra h0
    rw [show c.shape.g = 0 by omega] at hgen
    unfold IsGenus at hgen
    rcases Nat.even_or_odd' n with ⟨q, rfl | rfl⟩ <;> simp at hgen <;> omega
  have hec := C03_tree_size (by omega) hc
  rw [← ht, Int.toNat_natCast] at hec
  -- the tree
  have hspan' := hspan
  unfold spanningTreeOf at hspan'
  obtain ⟨tr2, k1, k2, k3, k4, k5⟩ := C09_grows_as_tree V.wops V.sortEdges S.sortEdges _ tr0 n (Or.inl (edgeCount_lt (edgeCount_of_size hec)))
  obtain rfl := Res.ok.inj (hspan'.symm.trans k1)
  have hgr : GrowsAsTree (tr.e.map fun f => (f.a, f.b)) := k4
  have hsz : TreeSize 2 n tr.e.length := by rw [k3]; exact hec
  have hes : ∀ ed ∈ tr.e, ed.a < n ∧ ed.b < n ∧ ed.a ≠ ed.b := by
    intro ed hed
    obtain ⟨k, hk, rfl⟩ := List.getElem_of_mem hed
    have := (hgr k (by simpa using hk)).1
    exact ⟨(k5 _ hed).1, (k5 _ hed).2.1, fun h => by simpa using this (by simpa using h)⟩
  have hne : ∀ ed ∈ tr.e, x ed.a ≠ x ed.b := fun ed hed h => (hes ed hed).2.2 (hx (hes ed hed).1 (hes ed hed).2.1 h)
  -- the data
  obtain ⟨ys, y1, y2, y3⟩ := pt_tree (m := 2) hx (by norm_num) tr.e hes
  obtain ⟨cc, hcc⟩ := pt_intersection (m := 2) hx le_rfl (by norm_num) hes y2 y3
  let u : Nat → Nat → ℂ := fun k => ((ys[k]?).map fun y => y.u).getD 0
  have huk : ∀ k y, ys[k]? = some y → u k = y.u := fun k y h => by simp only [u, h, Option.map_some, Option.getD_some]
  have hu : ExactData (fun s z => s = {z}) 2 n x tr.e (ys.map ptData) u := by
    intro k ed yd h1 h2
    rw [List.getElem?_map, Option.map_eq_some_iff] at h2
    obtain ⟨y, h2, rfl⟩ := h2
    obtain ⟨q1, q2⟩ := y3 k ed y h1 h2
    rw [huk k y h2]
    exact ⟨q1, fun i => rfl, q2⟩
  have hu' : ExactData (fun (s : Set ℂ) z => z ∈ s) 2 n x tr.e (ys.map ptData) u := by
    intro k ed yd h1 h2
    obtain ⟨q1, q2, q3⟩ := hu k ed yd h1 h2
    exact ⟨q1, fun i => by rw [q2 i]; rfl, q3⟩
  have hdl : (ys.map ptData).length = tr.e.length := by rw [List.length_map, y2]
  have hres := resolved_pts hx (fun ed h => ⟨(hes ed h).1, (hes ed h).2.1⟩) hgr hfree hu
  have hG : GcGood V (fun s z => z ∈ s) fuel c.shape flag ip tr.e (ys.map ptData) := gcGood_exact hV hn hcn hdl hne hu hready hflag
  -- the ellipses
  have hr1 : ∀ k < tr.e.length, ∀ i < n - 2, 1 < rOf (u k i) := by
    intro k hk i hi
    have hd : ys[k]? = some (ys[k]'(by omega)) := List.getElem?_eq_getElem _
    obtain ⟨-, q2⟩ := y3 k tr.e[k] _ (List.getElem?_eq_getElem hk) hd
    rw [huk k _ hd]
    obtain ⟨τ, hτ, hp⟩ := q2.pts
    obtain ⟨t1, t2, t3⟩ := hτ.mapsTo (show i ∈ Iio (n - 2) from hi)
    refine one_lt_rOf_edge (hne _ (List.getElem_mem hk)) (hp i hi) ?_
    rintro ⟨t, s1, s2, s3⟩
    exact hfree _ (List.getElem_mem hk) _ t1 t2 t3 t s1 s2 s3
  have hne0 : ∀ k, (List.range (n - 2)).map (u k) ≠ [] := by
    intro k h
    have := congrArg List.length h
    simp at this
    omega
  have hret : ∀ k < tr.e.length, ∃ p, gcParams exactPar exactDbl fuel ((List.range (n - 2)).map (u k)) c.shape.g ip = .ok p := by
    intro k hk
    have hd : ys[k]? = some (ys[k]'(by omega)) := List.getElem?_eq_getElem _
    have hd' : (ys.map ptData)[k]? = some (ptData (ys[k]'(by omega))) := by rw [List.getElem?_map, hd]; rfl
    have hk' : tr.e[k]? = some tr.e[k] := List.getElem?_eq_getElem hk
    have hm : tr.e[k] ∈ tr.e := List.getElem_mem hk
    have pk := edgeRs_perm (hne _ hm) (hu k _ _ hk' hd').2.2
    have hpts : ∀ z ∈ (List.range (n - 2)).map (u k), 1 < rOf z := fun z hz => by
      obtain ⟨i, hi, rfl⟩ := List.mem_map.1 hz
      exact hr1 k hk i (List.mem_range.1 hi)
    obtain ⟨r, -, r1, r2⟩ := vecR_exact (hne0 k) hpts
    have hr := (isLeastIn_perm pk).1 (isMinR_iff.1 ⟨r1, r2⟩)
    refine (C72_returns hpts ⟨r1, r2⟩ (gcPrec_perm pk.symm (hready.prec _ hm r hr)) hfuel).2 ?_
    rw [gcN_perm pk]
    exact hfits _ hm r hr
  have hipz : (2 : Int) ≤ ip := by omega
  -- the start of the run
  have hrunT : ajTree V c flag prec tr0 = .ok (tr, (ip : Int), ys.map ptData) := by
    refine ajTree_of (by rw [hcn, hty]; exact hspan) hext hip hipz (fits_small hip62).1 (fits_small hip62).2 ?_
    rw [hV.ar, hV.tests, funext (hV.roots _), hcn, hcm]
    exact y1
  have hres64 : Resolved (V.ar 64) (V.tests 64) x tr.e (ys.map ptData) := by rw [hV.ar, hV.tests]; exact hres
  obtain ⟨Y, ca, cb, -, -, Q, al, be, b1, b2, -, b4⟩ := C50_hyperelliptic_basis V.xgcd (S.ar 64 (by norm_num)) (S.tests 64 (by norm_num)) (x := fun k => {x k}) (x' := x) (fun k => mem_singleton _) hx
    hgen (fun ed h => ⟨(hes ed h).1, (hes ed h).2.1⟩) (edgeCount_of_size hsz) hgr hfree (data := ys.map ptData) (by rw [hV.ar, hV.tests]; exact y1) hres64 (c := cc) (by rw [hV.ar, hV.tests]; exact hcc)
  -- the integrals
  have hpar : ∀ (k : Nat) (y : YData ℂ), ys[k]? = some y → gcParams V.par V.dbl fuel (pointsOf c.shape.n (ptData y)) c.shape.g ip = gcParams exactPar exactDbl fuel ((List.range (n - 2)).map (u k)) c.shape.g ip := by
    intro k y hk
    have : pointsOf c.shape.n (ptData y) = ((List.range (n - 2)).map (u k)).map fun z => {z} := by
      unfold pointsOf
      rw [hcn, List.map_map, huk k y hk]
      rfl
    rw [this, hV.par, hV.dbl, set_gcParams]
  have E := S.ar ip hipz
  have F := S.fns ip hipz
  obtain ⟨I, hI⟩ := treeGc_total (V := V) (fuel := fuel) (c := c.shape) (flag := flag) (prec := ip) (data := ys.map ptData) (fun N => by
      obtain ⟨gc', e', -⟩ := gcIntInit_spec N
      have hr := gcIntInit_rel E F N
      rw [e'] at hr
      obtain ⟨gc, e, -⟩ := hr.ok_left
      exact ⟨gc, e⟩) (V.order tr.e) (fun k hk => by
    have hk' : k < tr.e.length := List.mem_range.1 ((S.order tr.e).mem_iff.1 hk)
    have hd : ys[k]? = some (ys[k]'(by omega)) := List.getElem?_eq_getElem _
    have hd' : (ys.map ptData)[k]? = some (ptData (ys[k]'(by omega))) := by rw [List.getElem?_map, hd]; rfl
    obtain ⟨yn, yE⟩ := y3 k tr.e[k] _ (List.getElem?_eq_getElem hk') hd
    generalize ys[k]'(by omega) = y at hd hd' yn yE
    obtain ⟨p, hp⟩ := hret k hk'
    have hp' := (hpar k y hd).trans hp
    obtain ⟨g1, g2, g3, g4⟩ := hG.par k _ p hd' hp'
    obtain ⟨e, he⟩ := Option.ne_none_iff_exists'.1 g1
    have he0 : 0 ≤ e := by
      have := C45_error_partial exactPar_sound (List.forall₂_same.2 fun _ _ => rfl) hp he g2 g3 g4 (N := p.n.toNat) (by omega) (i := 0) (Nat.zero_le _) (n1 := 0) (Nat.zero_le _)
      exact (norm_nonneg _).trans this
    refine ⟨ptData y, p, hd', hp', by omega, fun N gc hgc => ?_⟩
    obtain ⟨r, r', hr, hr1', -⟩ := gcIntegrals_sum E F (V.tests ip) (sz := n + 3) (g := c.shape.g) (d1 := y.n1) (d := n - 2) (by omega) (by omega) yE.n1_le
      (u := (ptData y).u) (u' := y.u) (fun k => rfl) N flag (by rcases hflag with h | h; exacts [Or.inl h, Or.inr (Or.inl (by omega))]) (fun _ => ⟨by omega, fun t t1 t2 i hi h => by
        obtain ⟨τ, hτ, hp⟩ := yE.pts
        obtain ⟨s1, s2, s3⟩ := hτ.mapsTo (show i ∈ Iio (n - 2) from hi)
        exact hfree _ (List.getElem_mem hk') _ s1 s2 s3 t t1 t2 (by rw [← h]; exact (hp i hi).symm)⟩)
    have hz : ∀ i, (if i < c.shape.g then r' i else r' i) ∈ (if i < c.shape.g then V.addErr p.e (r i) else r i) := by
      intro i
      split
      · rw [he]
        exact S.addErr e _ _ _ (hr1' i) (by simpa using he0)
      · exact hr1' i
    obtain ⟨row, row', hrow, -, -⟩ := C19_encloses E hn2 hc (ba2 := (ptData y).ba2) (ab := (ptData y).ab) (cab := (ptData y).c) (ba2' := y.ba2) (ab' := y.ab) (cab' := y.c) rfl rfl rfl hz
    simp only [gcIntegrals, hgc, Res.ok_bind] at hr
    rw [hcn]
    exact ⟨r, row, hr, hrow⟩) ⟨0, 0, fun _ => (V.ar ip).zero⟩ (Or.inl rfl) fun _ _ => (V.ar ip).zero
  -- the periods
  obtain ⟨-, J, hJ1, hJ2⟩ := gc_rows_of_run S hn hc hne hdl hu' hipz hG hI
  have hterm : ∀ l ∈ al ++ be, ∀ t ∈ l, t.index < tr.e.length ∧ t.shift < 2 ∧ -(2 ^ 62) < t.coeff ∧ t.coeff < 2 ^ 62 := by
    intro l hl t ht
    obtain ⟨-, w1, w2⟩ := (b2.terms l hl).1 t ht
    have w3 := b4 l hl t ht
    exact ⟨w1, by omega, by omega, by omega⟩
  obtain ⟨om0, o0, -⟩ := periods_of_rows E (by omega) hc hJ1 hJ2 al b2.lengths.1.ge fun l hl => hterm l (List.mem_append_left _ hl)
  obtain ⟨om1, o1, -⟩ := periods_of_rows E (by omega) hc hJ1 hJ2 be b2.lengths.2.ge fun l hl => hterm l (List.mem_append_right _ hl)
  have hb : symplecticBasis V.xgcd fuel (shiftOracle (V.ar 64) (V.tests 64) (ys.map ptData) c.shape.m) tr.e c.shape.m c.shape.g = .ok (al, be) := by rw [hcm]; exact b1 fuel (by omega)
  have hI' : ajIntegrals V fuel c.shape flag ip (intType flag c.m c.n) tr.e (ys.map ptData) = .ok I := by
    rw [hty]
    exact hI
  rw [k3.trans k2.symm] at o0 o1
  have hout : ∃ out : AjOut (Set ℂ) W O c.shape.g, ajRun V fuel c flag prec tr0 = .ok out ∧ out.tree = tr ∧ out.integrals ≠ none ∧ (flag &&& ajNoAb = 0 → out.omega ≠ none) := by
    unfold ajRun
    rw [hrunT, Res.ok_bind]
    dsimp only
    rw [hb, Res.ok_bind]
    dsimp only
    rw [if_neg (not_not.2 hni), arbPrec_of hipz, Res.ok_bind, hI', Res.ok_bind]
    by_cases hab : flag &&& ajNoAb = 0
    · rw [if_neg (not_not.2 hab), o0, Res.ok_bind, o1, Res.ok_bind, if_pos (hnt.resolve_left (not_not.2 hab))]
      exact ⟨_, rfl, rfl, by simp, fun _ => by simp⟩
    · rw [if_pos hab]
      exact ⟨_, rfl, rfl, by simp, fun h => absurd h hab⟩
  obtain ⟨out, r1, r2, r3, r4⟩ := hout
  refine ⟨out, r1, r2, r3, r4, ?_⟩
  obtain ⟨q1, q2, -⟩ := ajRun_ok r1
  obtain ⟨-, q3⟩ := Prod.mk.inj (Res.ok.inj (hrunT.symm.trans q1))
  obtain ⟨q4, q5⟩ := Prod.mk.inj q3
  refine C56_compute_partial M S (by omega) hc hg ht r1 hx (fun k => by rw [hV.roots]; rfl) (fun _ => by rw [r2, ← q5]; exact hres64) ?_ (fun _ _ => by rw [r2, ← q4, ← q5]; exact hG) ?_
  · rintro (h | ⟨-, h⟩)
    · rw [q2, hty] at h; cases h
    · exact absurd hni h
  · intro h
    rw [q2, hty] at h
    cases h

end Hcp
