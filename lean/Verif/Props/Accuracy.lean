import Verif.Proofs.Diam
import Verif.Props.ExtraPrec
import Verif.Props.ComputeIdeal

/-!
# C74: accuracy of the integrals and of the periods
-/

namespace Hcp

open Set Spec Filter Topology

variable {C W : Type} {O : MatOps}

/-- Every row of `integrals_tree_gc` comes from a scheme, the parameters of the edge and `integrals_edge_factors`; the other rows are left alone. -/
theorem treeGc_row {A B : Type} {V : AjEnv A B C W O} {fuel : Nat} {c : Shape} {flag : Nat} {prec : Int} {data : List (YData A)} :
    ∀ {ks : List Nat}, ks.Nodup → ∀ {gc : GcInt A}, (gc.n = 0 ∨ ∃ N, gcIntInit (V.ar prec) (V.fns prec) N = .ok gc) → ∀ {I I' : Nat → Nat → A}, treeGc V fuel c flag prec data ks gc I = .ok I' →
      ∀ k, (k ∉ ks → I' k = I k) ∧ (k ∈ ks → ∃ ye p N gc1 r, data[k]? = some ye ∧ gcParams V.par V.dbl fuel (pointsOf c.n ye) c.g prec = .ok p ∧ gcIntInit (V.ar prec) (V.fns prec) N = .ok gc1 ∧
        gcIntegralsPrecomp (V.ar prec) (V.tests prec) (c.n + 3) ye.u ye.n1 (c.n - 2) c.g gc1 flag = .ok r ∧
        edgeFactors (V.ar prec) c ye.ba2 ye.ab ye.c (fun i => if i < c.g then V.addErr p.e (r i) else r i) = .ok (I' k))
  | [], _, _, _, I, I', h, k => by
    obtain rfl := Res.ok.inj h
    simp
  | l :: ks, hnd, gc, hgc, I, I', h, k => by
    obtain ⟨n1, n2⟩ := List.nodup_cons.1 hnd
    unfold treeGc at h
    cases hl : data[l]? with
    | none => rw [hl] at h; cases h
    | some ye =>
    rw [hl] at h
    simp only [Res.bind_eq_ok] at h
    obtain ⟨p, h1, h2⟩ := h
    split at h2
    · cases h2
    rw [Res.bind_eq_ok] at h2
    obtain ⟨⟨gc1, row⟩, h3, h4⟩ := h2
    unfold integralsEdgeGc at h3
    simp only [Res.bind_eq_ok] at h3
    obtain ⟨gc2, s1, r, s2, row', s3, s4⟩ := h3
    obtain ⟨rfl, rfl⟩ := Prod.mk.inj (Res.ok.inj s4)
    have hN : ∃ N, gcIntInit (V.ar prec) (V.fns prec) N = .ok gc2 := by
      unfold gcScheme at s1
      split at s1
      · exact ⟨_, s1⟩
      · obtain rfl := Res.ok.inj s1
        rename_i hr
        rcases hgc with h0 | h0
        · exact absurd (by simp [gcReplace, h0]) hr
        · exact h0
    obtain ⟨r1, r2⟩ := treeGc_row n2 (Or.inr hN) h4 k
    refine ⟨fun hk => ?_, fun hk => ?_⟩
    · obtain ⟨k1, k2⟩ := not_or.1 (List.mem_cons.not.1 hk)
      rw [r1 k2]
      simp [k1]
    · by_cases hkk : k ∈ ks
      · exact r2 hkk
      · obtain rfl : k = l := (List.mem_cons.1 hk).resolve_right hkk
        obtain ⟨N, hN⟩ := hN
        refine ⟨ye, p, N, gc2, r, hl, h1, hN, s2, ?_⟩
        rw [r1 hkk]
        simpa using s3

/-- size of the row of an edge: if the elementary integrals are known up to `ε`, the integral of `x^i dx / y^j` is known up to `2 (i + 1) 2^p ε`, where `p` are the bits returned by `extraprec_tree` -/
theorem row_diam {A B W : Type} {X : Arith A} {M : MagOps A B} {R : A → ℂ → Prop} {RB : B → ℝ → Prop} (E : Encloses X exact R) (S : MagSound M R RB) {m n : Nat} (hn : 2 ≤ n) {c : Sec} (h : secInit m n = .ok c) {x : Nat → A} {x' : Nat → ℂ} (hR : ∀ k, R (x k) (x' k))
    {es : List (Edge W)} {p : Int} (hp : extraprecTree X M es x c.shape = .ok p) (hlt : p ≤ 2 ^ 61) {e : Edge W} (he : e ∈ es) (ha : e.a < n) (hb : e.b < n) (hab : x' e.a ≠ x' e.b) {n1 : Nat} {u : Nat → ℂ}
    (hE : EdgeData m n x' e.a e.b n1 u) {v y : Nat → Set ℂ} {ε : ℝ} (hv : ∀ r, DiamLe (v r) ε) (hε : 0 ≤ ε) (hy : edgeFactors setArith c.shape {u (n - 2)} {u (n - 1)} {u n} v = .ok y) :
    (∀ r i j, r < c.shape.g → diffOf c.shape.ni c.shape.j1 r = (i, j) → DiamLe (y r) (2 * (i + 1) * 2 ^ p * ε)) ∧ ∀ r, c.shape.g ≤ r → DiamLe (y r) ε := by
  have hn2 : (2 : Int) ≤ n := by omega
  have hG := shape_good hn2 h
  obtain ⟨y', s, e1, g, f, H⟩ := edgeFactors_diam c.shape (u (n - 2)) (u (n - 1)) (u n) (by have := hG.m; omega) v (fun _ => (ε : ℂ)) (fun r => ⟨ε, rfl, hv r⟩) hG.pos hG.sum.le
  obtain rfl := Res.ok.inj (hy.symm.trans e1)
  constructor
  · intro r i j hr hij
    obtain ⟨k, nij, i', g1, g2, g3, g4⟩ := diffOf_spec c.shape.ni c.shape.j1 r (by rw [hG.sum]; exact hr)
    have hij' := hij
    rw [g4] at hij'
    obtain ⟨rfl, rfl⟩ := Prod.mk.inj hij'
    obtain ⟨d, hd, hdd⟩ := g r
    refine hdd.mono ?_
    have hs := H k i' nij g1 g2
    rw [← g3, hd] at hs
    have hz1 : ‖1 - exact.unitRoot c.shape.m ^ ((c.shape.m - (c.shape.j1 + k)) % c.shape.m)‖ ≤ 2 := by
      refine (norm_sub_le _ _).trans ?_
      have : ‖exact.unitRoot c.shape.m‖ = 1 := by
        show ‖Complex.exp (2 * Real.pi * Complex.I / c.shape.m)‖ = 1
        have : (2 * (Real.pi : ℂ) * Complex.I / c.shape.m : ℂ) = ((2 * Real.pi / c.shape.m : ℝ) : ℂ) * Complex.I := by push_cast; ring
        rw [this, Complex.norm_exp_ofReal_mul_I]
      rw [norm_pow, this]
      norm_num
    have hdv : d = ‖1 - exact.unitRoot c.shape.m ^ ((c.shape.m - (c.shape.j1 + k)) % c.shape.m)‖ * ∑ l ∈ Finset.range (i' + 1), ‖rowCoeff n u i' (c.shape.j1 + k) (i' - l)‖ * ε := by
      apply Complex.ofReal_injective
      rw [hs]
      unfold edgeSize bsum rowCoeff
      push_cast
      rw [Finset.mul_sum, Finset.mul_sum]
      refine Finset.sum_congr rfl fun l hl => ?_
      have hl' : l ≤ i' := Nat.lt_succ_iff.1 (Finset.mem_range.1 hl)
      rw [Nat.sub_sub_self hl', Nat.choose_symm hl']
      simp only [norm_mul, norm_div, norm_pow, Complex.norm_natCast]
      push_cast
      ring
    rw [hdv]
    have hterm : ∀ l ∈ Finset.range (i' + 1), ‖rowCoeff n u i' (c.shape.j1 + k) (i' - l)‖ * ε ≤ 2 ^ p * ε := fun l _ =>
      mul_le_mul_of_nonneg_right (C58_coefficients E S hn h hR hp hlt he ha hb hab hE hr hij (Nat.sub_le _ _)) hε
    have hsum := Finset.sum_le_sum hterm
    rw [Finset.sum_const, Finset.card_range, nsmul_eq_mul] at hsum
    push_cast at hsum
    calc _ ≤ 2 * ((i' + 1 : ℝ) * (2 ^ p * ε)) := mul_le_mul hz1 hsum (Finset.sum_nonneg fun l _ => by positivity) (by norm_num)
      _ = _ := by ring
  · intro r hr
    obtain ⟨d, hd, hdd⟩ := g r
    rw [f r (by rw [hG.sum]; exact hr)] at hd
    rw [Complex.ofReal_injective hd]
    exact hdd

/-- The functions are those of numbers, `mag_t` radii are added to the balls and nothing else, and `acb_mat_trim` adds nothing. -/
structure SharpGc (V : AjEnv (Set ℂ) RSet C W O) : Prop where
  fns : ∀ p, V.fns p = setFns
  addErr : ∀ (e : ℝ) v w, w ∈ V.addErr (some e) v → ∃ z ∈ v, ‖z - w‖ ≤ e
  trim : ∀ v, V.trim v ⊆ v

/-- sizes of the sets in the output -/
theorem gc_sizes {RB : RSet → ℝ → Prop} {RC : {n m : Nat} → O.C n m → Matrix (Fin n) (Fin m) ℂ → Prop}
    {V : AjEnv (Set ℂ) RSet C W O} (S : V.Sound (fun s z => z ∈ s) RB RC) {x : Nat → ℂ} (hV : ExactGc V x) (hS : SharpGc V) {n : Nat} (hn : 3 ≤ n) (hx : InjOn x (Iio n)) {c : Sec} (hc : secInit 2 n = .ok c) {tr0 : Tree W} (ht : (tr0.n : Int) = treeEdges c)
    {prec : Int} {fuel flag : Nat} {out : AjOut (Set ℂ) W O c.shape.g} (hrun : ajRun V fuel c flag prec tr0 = .ok out) (hty : intType flag c.m c.n = .gc) (hni : flag &&& ajNoInt = 0) (hflag : flag.testBit 5 = true ∨ n = 3)
    {ip : Nat} (hip : out.intprec = ip) (hready : GcReady x n c.shape.g out.tree.e (V.order out.tree.e) ip) (hex : out.intprec - prec ≤ 2 ^ 61) :
    ∀ I, out.integrals = some I → ∀ k r, DiamLe (I k r) (if r < c.shape.g then (8 : ℝ) * (r + 1) * 2 ^ (-prec) else 2 * 2 ^ (1 - ip : Int)) := by
  have hn2 : (2 : Int) ≤ n := by omega
  obtain ⟨_, e1, e2, _⟩ := secInit_fields hc hn2
  have hcn : c.shape.n = n := by unfold Sec.shape; simp [e2]
  obtain ⟨h1, h2, h3, h4, h5⟩ := ajRun_ok hrun
  obtain ⟨-, hgr, hsz, hes, hdata, -⟩ := ajTree_ok S.sortEdges (by omega) hc ht h1
  have hext := ajTree_extra h1
  rw [hV.ar, hV.tests, funext (hV.roots _)] at hdata
  have hne : ∀ ed ∈ out.tree.e, ed.a < n ∧ ed.b < n ∧ x ed.a ≠ x ed.b := by
    intro ed hed
    obtain ⟨k, hk, rfl⟩ := List.getElem_of_mem hed
    have := (hgr k (by simpa using hk)).1
    exact ⟨(hes _ hed).1, (hes _ hed).2, fun h => by simpa using this (by simpa using hx (hes _ hed).1 (hes _ hed).2 h)⟩
  obtain ⟨u, hu⟩ := exactData_exists setArith_pt sndTests (R := fun s z => s = {z}) (x := fun k => {x k}) (x' := x) (fun _ => rfl) (by norm_num : 0 < 2) hne hdata
  have hdl := (treeYdataInit_get hdata).1
  obtain ⟨hip2, I, i1, i2, -⟩ := h4 hni
  rw [h2, hty] at i2
  intro I' hI'
  obtain rfl := Option.some.inj (i1.symm.trans hI')
  have hg : 1 ≤ c.shape.g := by
    have := isGenus_shape (by omega) hc
    by_contra h0
    rw [show c.shape.g = 0 by omega] at this
    unfold IsGenus at this
    rcases Nat.even_or_odd' n with ⟨q, rfl | rfl⟩ <;> simp at this <;> omega
  have hpos : ∀ r : Nat, (0 : ℝ) ≤ if r < c.shape.g then (8 : ℝ) * (r + 1) * 2 ^ (-prec) else 2 * 2 ^ (1 - ip : Int) := by
    intro r
    split <;> positivity
  intro k
  obtain ⟨t1, t2⟩ := treeGc_row (V := V) ((S.order out.tree.e).nodup_iff.2 List.nodup_range) (Or.inl rfl) i2 k
  by_cases hk : k ∈ V.order out.tree.e
  swap
  · intro r w hw w' hw'
    rw [t1 hk, hV.ar, show setArith.zero = {(0 : ℂ)} from setArith_pt.zero, mem_singleton_iff] at hw hw'
    rw [hw, hw', sub_self, norm_zero]
    exact hpos r
  obtain ⟨ye, p, N, gc, r, q1, q2, q3, q4, q5⟩ := t2 hk
  have hk' : k < out.tree.e.length := List.mem_range.1 ((S.order out.tree.e).mem_iff.1 hk)
  have hke : out.tree.e[k]? = some out.tree.e[k] := List.getElem?_eq_getElem hk'
  have hmem := List.getElem_mem hk'
  obtain ⟨u1, u2, u3⟩ := hu k _ ye hke q1
  -- the parameters
  have hpts : pointsOf c.shape.n ye = ((List.range (n - 2)).map (u k)).map fun z => {z} := by
    unfold pointsOf
    rw [hcn, List.map_map]
    exact List.map_congr_left fun i _ => u2 i
  have hne0 : (List.range (n - 2)).map (u k) ≠ [] := by
    intro h
    have := congrArg List.length h
    simp at this
    omega
  rw [hpts, hV.par, hV.dbl, set_gcParams, hip] at q2
  have pk := edgeRs_perm (hne _ hmem).2.2 u3
  obtain ⟨r0, -, r1, r2⟩ := vecR_exact hne0 (points_of_par q2)
  have hr := (isLeastIn_perm pk).1 (isMinR_iff.1 ⟨r1, r2⟩)
  obtain ⟨-, -, -, hout, -, -, e, he, hle⟩ := C72_params (points_of_par q2) ⟨r1, r2⟩ (gcPrec_perm pk.symm (hready.prec _ hmem r0 hr)) q2
  -- the sum is a point
  rw [hV.ar, hS.fns] at q3
  rw [hV.ar, hV.tests, hcn] at q4
  have hoff : ∀ t : ℝ, -1 ≤ t → t ≤ 1 → ∀ i < n - 2, u k i ≠ t := by
    intro t ta tb i hi h
    have := points_of_par q2 (u k i) (List.mem_map.2 ⟨i, List.mem_range.2 hi, rfl⟩)
    rw [h] at this
    have h1 : ‖(t : ℂ) - 1‖ = 1 - t := by
      rw [show (t : ℂ) - 1 = ((t - 1 : ℝ) : ℂ) by push_cast; rfl, Complex.norm_real, Real.norm_of_nonpos (by linarith)]
      ring
    have h2 : ‖(t : ℂ) + 1‖ = t + 1 := by
      rw [show (t : ℂ) + 1 = ((t + 1 : ℝ) : ℂ) by push_cast; rfl, Complex.norm_real, Real.norm_of_nonneg (by linarith)]
    unfold rOf at this
    rw [h1, h2] at this
    linarith
  obtain ⟨v, v', hv, hv1, -⟩ := gcIntegrals_sum setArith_pt setFns_pt sndTests (sz := n + 3) (g := c.shape.g) (d1 := ye.n1) (d := n - 2) (by omega) (by omega) u3.n1_le
    (u := ye.u) (u' := u k) u2 N flag (by rcases hflag with h | h; exacts [Or.inl h, Or.inr (Or.inl (by omega))]) (fun _ => ⟨by omega, hoff⟩)
  simp only [gcIntegrals, q3, Res.ok_bind] at hv
  obtain rfl := Res.ok.inj (hv.symm.trans q4)
  have hd : ∀ i, DiamLe (if i < c.shape.g then V.addErr p.e (v i) else v i) (2 * 2 ^ (1 - ip : Int)) := by
    intro i w hw w' hw'
    split at hw
    · rename_i hi
      rw [if_pos hi] at hw'
      rw [he] at hw hw'
      obtain ⟨z, z1, z2⟩ := hS.addErr _ _ _ hw
      obtain ⟨z', z3, z4⟩ := hS.addErr _ _ _ hw'
      rw [hv1 i, mem_singleton_iff] at z1 z3
      rw [z1] at z2
      rw [z3] at z4
      have : w - w' = (v' i - w') - (v' i - w) := by ring
      rw [this]
      refine (norm_sub_le _ _).trans ?_
      linarith
    · rename_i hi
      rw [if_neg hi] at hw'
      rw [hv1 i, mem_singleton_iff] at hw hw'
      rw [hw, hw', sub_self, norm_zero]
      positivity
  rw [hV.ar] at q5
  have hyb : ye.ba2 = {u k (n - 2)} ∧ ye.ab = {u k (n - 1)} ∧ ye.c = {u k n} := by
    unfold YData.ba2 YData.ab YData.c
    rw [u1]
    exact ⟨u2 _, u2 _, u2 _⟩
  rw [hyb.1, hyb.2.1, hyb.2.2] at q5
  obtain ⟨w1, w2⟩ := row_diam (S.ar 64 (by norm_num)) S.mag (by omega) hc (x' := x) (fun k => by rw [hV.roots]; rfl) hext hex hmem (hne _ hmem).1 (hne _ hmem).2.1 (hne _ hmem).2.2 u3 hd (by positivity) q5
  intro r
  by_cases hr : r < c.shape.g
  · rw [if_pos hr]
    refine (w1 r r 1 hr (diffOf_two hn2 hc hr)).mono (le_of_eq ?_)
    rw [hip]
    have : (2 : ℝ) ^ (-prec) = 2 ^ ((ip : Int) - prec) * 2 ^ (1 - ip : Int) * 2⁻¹ := by
      rw [← zpow_add₀ two_ne_zero, ← zpow_neg_one, ← zpow_add₀ two_ne_zero]
      congr 1
      ring
    rw [this]
    ring
  · rw [if_neg hr]
    exact w2 r (by omega)

/-- the sum of the absolute values of the coefficients of a loop -/
theorem loop_size {len g : Nat} {I : Nat × Nat → Nat × Nat → Int} {P : Mat (len * 1)} {al be : List (List Gamma)} (h : IsSymplecticBasis len 1 g I P al be) (hs : SignCoeffs (al ++ be)) {l : List Gamma} (hl : l ∈ al ++ be) :
    (l.map fun t => |(t.coeff : ℝ)|).sum ≤ len := by
  obtain ⟨h1, h2⟩ := h.terms l hl
  have e1 : (l.map fun t => |(t.coeff : ℝ)|).sum = l.length := by
    have : l.map (fun t => |(t.coeff : ℝ)|) = l.map fun _ => (1 : ℝ) := List.map_congr_left fun t ht => by
      rcases hs l hl t ht with h | h <;> rw [h] <;> norm_num
    rw [this, List.map_const', List.sum_replicate, nsmul_eq_mul, mul_one]
  have hnd : (l.map fun t => t.index).Nodup := by
    refine List.Nodup.of_map (fun i => (i, 0)) ?_
    rw [List.map_map]
    refine (congrArg List.Nodup (List.map_congr_left fun t ht => ?_)).mp h2
    have := (h1 t ht).2.2
    simp only [Function.comp, Prod.mk.injEq, true_and]
    omega
  have hsub : (l.map fun t => t.index) ⊆ List.range len := fun i hi => by
    obtain ⟨t, ht, rfl⟩ := List.mem_map.1 hi
    exact List.mem_range.2 (h1 t ht).2.1
  have := (hnd.subperm hsub).length_le
  rw [List.length_map, List.length_range] at this
  rw [e1]
  exact_mod_cast this

/-- The balls returned for the curve `y² = ∏ (X - x k)` at precision `prec`, measured against the integrals over the elementary closed paths and the periods over the loops returned: `8 (i + 1) 2^-prec` for the integrals of `x^i dx / y`, times the number of edges for the periods. -/
def WithinGc (x : Nat → ℂ) (c : Sec) (prec : Int) (out : AjOut (Set ℂ) W O c.shape.g) (Y : Nat → ℝ → ℂ) : Prop :=
  (∀ I, out.integrals = some I → ∀ (k : Nat) (ed : Edge W), out.tree.e[k]? = some ed → ∀ i < c.shape.g, ∀ w ∈ I k i, ‖w - cycleIntM 2 (x ed.a) (x ed.b) i 1 (Y k) 0‖ ≤ 8 * (i + 1) * 2 ^ (-prec)) ∧
  ∀ om0 om1, out.omega = some (om0, om1) → ∀ i k : Fin c.shape.g, (∀ w ∈ om0 i k, ‖w - periodsOf 2 x out.tree.e Y c.shape out.loopA i k‖ ≤ 8 * (i + 1) * out.tree.e.length * 2 ^ (-prec)) ∧
    ∀ w ∈ om1 i k, ‖w - periodsOf 2 x out.tree.e Y c.shape out.loopB i k‖ ≤ 8 * (i + 1) * out.tree.e.length * 2 ^ (-prec)

/-- **C74 (accuracy, any environment).** In the setting of `C56_gc_exact`, suppose moreover that the routines on exact numbers return exact numbers, so that the radii of `mag_t` are the only errors (`SharpGc`).  Every number in the ball returned for the integral of
`x^i dx / y` over an elementary closed path differs from the integral by at most `8 (i + 1) 2^-prec`, where `prec` is the precision given to `abel_jacobi_compute`.  Every number in the balls returned for the periods of `x^i dx / y` differs from the period
by at most `8 (i + 1) 2^-prec` times the number of edges of the tree. -/
theorem C74_accuracy {RB : RSet → ℝ → Prop} {RM : {n m : Nat} → O.M n m → Matrix (Fin n) (Fin m) ℝ → Prop} {RC : {n m : Nat} → O.C n m → Matrix (Fin n) (Fin m) ℂ → Prop} {RK : O.K → ℂ → Prop} (M : MatEncl O RM RC RK)
    {V : AjEnv (Set ℂ) RSet C W O} (S : V.Sound (fun s z => z ∈ s) RB RC) {x : Nat → ℂ} (hV : ExactGc V x) (hS : SharpGc V) {n : Nat} (hn : 3 ≤ n) (hx : InjOn x (Iio n)) {c : Sec} (hc : secInit 2 n = .ok c) {tr0 : Tree W} (ht : (tr0.n : Int) = treeEdges c)
    {prec : Int} {fuel flag : Nat} {out : AjOut (Set ℂ) W O c.shape.g} (hrun : ajRun V fuel c flag prec tr0 = .ok out) (hty : intType flag c.m c.n = .gc) (hni : flag &&& ajNoInt = 0) (hflag : flag.testBit 5 = true ∨ n = 3)
    {ip : Nat} (hip : out.intprec = ip) (hready : GcReady x n c.shape.g out.tree.e (V.order out.tree.e) ip) (hex : out.intprec - prec ≤ 2 ^ 61) :
    ∃ (Y : Nat → ℝ → ℂ) (ca cb : Nat → ℂ) (cc : IMat) (Q : Mat (out.tree.e.length * (2 - 1))), AjRight V (fun s z => z ∈ s) RC 2 n x c out Y ca cb cc Q ∧ WithinGc x c prec out Y := by
  have hn2 : (2 : Int) ≤ n := by omega
  obtain ⟨Y, ca, cb, cc, Q, hA⟩ := C56_gc_exact M S hV hn hx hc ht hrun hty hni hflag hip hready
  have hD := gc_sizes S hV hS hn hx hc ht hrun hty hni hflag hip hready hex
  obtain ⟨h1, h2, h3, h4, h5⟩ := ajRun_ok hrun
  obtain ⟨hlen, -⟩ := ajTree_ok S.sortEdges (by omega) hc ht h1
  refine ⟨Y, ca, cb, cc, Q, hA, fun I hI k ed hk i hi w hw => ?_, fun om0 om1 hom i k => ?_⟩
  · have := hD I hI k i w hw _ (hA.integrals I hI k ed hk i i 1 hi (diffOf_two hn2 hc hi))
    rwa [if_pos hi] at this
  · obtain ⟨o1, o2⟩ := hA.omega om0 om1 hom i k
    obtain ⟨-, I, i1, -, i3, i4⟩ := h4 hni
    by_cases hab : flag &&& ajNoAb = 0
    swap
    · rw [(i4 hab).1] at hom
      cases hom
    obtain ⟨p0, p1, q0, q1, q2, -⟩ := i3 hab
    obtain ⟨rfl, rfl⟩ := Prod.mk.inj (Option.some.inj (hom.symm.trans q2))
    have hsg := hA.signs (Or.inl rfl)
    have hG := shape_good hn2 hc
    have hcm : c.shape.m = 2 := by
      obtain ⟨_, e1, _⟩ := secInit_fields hc hn2
      unfold Sec.shape
      simp [e1]
    have hT : ∀ l ∈ out.loopA ++ out.loopB, ∀ t ∈ l, TermOk c.shape out.tree.n t := by
      intro l hl t ht
      obtain ⟨-, w1, w2⟩ := (hA.basis.terms l hl).1 t ht
      have w3 := hsg l hl t ht
      exact ⟨by rw [hlen]; exact w1, by omega, by omega, by omega⟩
    have htrim : ∀ (om : Nat → Nat → Set ℂ) (a b : Nat), trimIf V flag om a b ⊆ om a b := by
      intro om a b
      unfold trimIf
      split
      · exact hS.trim _
      · exact subset_rfl
    rw [hV.ar] at q0 q1
    have fin : ∀ (ls : List (List Gamma)) (om : Nat → Nat → Set ℂ), ls.length = c.shape.g → (∀ l ∈ ls, l ∈ out.loopA ++ out.loopB) → periodMatrix setArith c.shape ls out.tree.n I = .ok om →
        DiamLe (om i k) (8 * (i + 1) * out.tree.e.length * 2 ^ (-prec)) := by
      intro ls om hl hm hp
      have hk : ls[k.val]? = some (ls[k.val]'(by rw [hl]; exact k.2)) := List.getElem?_eq_getElem _
      have := periodMatrix_diam hG (hD I i1) hl.ge (fun l h => hT l (hm l h)) hp i.2 k.2 hk
      rw [if_pos i.2] at this
      refine this.mono ?_
      have hsz := loop_size hA.basis hsg (hm _ (List.mem_of_getElem? hk))
      have h0 : (0 : ℝ) ≤ 8 * ((i : Nat) + 1) * 2 ^ (-prec) := by positivity
      calc _ ≤ 8 * (((i : Nat) : ℝ) + 1) * 2 ^ (-prec) * out.tree.e.length := mul_le_mul_of_nonneg_left hsz h0
        _ = _ := by ring
    exact ⟨fun w hw => fin out.loopA p0 hA.basis.lengths.1 (fun l h => List.mem_append_left _ h) q0 w (htrim _ _ _ hw) _ (htrim _ _ _ o1),
      fun w hw => fin out.loopB p1 hA.basis.lengths.2 (fun l h => List.mem_append_right _ h) q1 w (htrim _ _ _ hw) _ (htrim _ _ _ o2)⟩

theorem idealEnv_sharp {x : Nat → ℂ} {lam : ℝ} {sort : List (Edge ℝ) → List (Edge ℝ)} {ord : List (Edge ℝ) → List Nat} {p : DePar (Set ℂ)} : SharpGc (idealEnv x lam sort ord p) :=
  ⟨fun _ => rfl, fun _ _ _ h => h, fun _ => subset_rfl⟩

/-- **C74 (accuracy, hyperelliptic curves with exact branch points).** `C73_exact_numbers`, with the size of the errors: `abel_jacobi_compute` returns, and the balls it returns lie within `8 (i + 1) 2^-prec` of the integrals of `x^i dx / y`, and within
`8 (i + 1) 2^-prec` times the number of edges of their periods. -/
theorem C74_exact_numbers {x : Nat → ℂ} {lam : ℝ} {sort : List (Edge ℝ) → List (Edge ℝ)} {ord : List (Edge ℝ) → List Nat} {p : DePar (Set ℂ)} (hs : SortsByR sort) (ho : OrdersByR ord) (hlam : lam ≠ 0) {n : Nat} (hn : 3 ≤ n) (hx : InjOn x (Iio n)) {c : Sec} (hc : secInit 2 n = .ok c) :
    ∃ (tr : Tree ℝ) (extra : Int), spanningTreeOf (exactCOps lam) (WOps.ofOrder (-1)) sort x (treeInit (WOps.ofOrder (-1)) (treeEdges c).toNat) n .gc = .ok tr ∧
      extraprecTree setArith clampMag tr.e (fun k => {x k}) c.shape = .ok extra ∧ (TiesHarmless x n → ∃ P0 : Nat, ∀ ip : Nat, P0 ≤ ip → GcReady x n c.shape.g tr.e (ord tr.e) ip) ∧
      ∀ (prec : Int) (ip : Nat), extra ≤ 2 ^ 61 → prec + extra = ip → 2 ≤ ip → (ip : Int) < 2 ^ 62 → GcReady x n c.shape.g tr.e (ord tr.e) ip →
        (∀ ed ∈ tr.e, ∀ r, IsLeastIn r (edgeRs x n ed.a ed.b) → 2 * gcN (edgeRs x n ed.a ed.b) r c.shape.g ip < 2 ^ 63) →
        ∀ fuel flag : Nat, 2 ≤ fuel → intType flag c.m c.n = .gc → flag &&& ajNoInt = 0 → flag &&& ajNoAb ≠ 0 ∨ flag &&& ajNoTau ≠ 0 → flag.testBit 5 = true ∨ n = 3 →
        ∃ out : AjOut (Set ℂ) ℝ setMat c.shape.g, ajRun (idealEnv x lam sort ord p) fuel c flag prec (treeInit (WOps.ofOrder (-1)) (treeEdges c).toNat) = .ok out ∧ out.tree = tr ∧ out.integrals ≠ none ∧ (flag &&& ajNoAb = 0 → out.omega ≠ none) ∧
          ∃ (Y : Nat → ℝ → ℂ) (ca cb : Nat → ℂ) (cc : IMat) (Q : Mat (out.tree.e.length * (2 - 1))), AjRight (idealEnv x lam sort ord p) (fun s z => z ∈ s) InC 2 n x c out Y ca cb cc Q ∧ WithinGc x c prec out Y := by
  obtain ⟨tr, extra, h1, h2, h3, H⟩ := C73_exact_numbers (x := x) (lam := lam) (p := p) hs ho hlam hn hx hc
  refine ⟨tr, extra, h1, h2, h3, fun prec ip hex hip hip2 hip62 hready hfits fuel flag f1 f2 f3 f4 f5 => ?_⟩
  obtain ⟨out, q1, rfl, q3, q4, -⟩ := H prec ip hip hip2 hip62 hready hfits fuel flag f1 f2 f3 f4 f5
  have he := Res.ok.inj ((ajTree_extra (ajRun_ok q1).1).symm.trans h2)
  have hpos : 0 ≤ treeEdges c := by
    obtain ⟨_, e1, e2, e3, _⟩ := secInit_fields hc (by omega)
    unfold treeEdges
    rw [e1, e2, e3]
    split <;> omega
  exact ⟨out, q1, rfl, q3, q4, C74_accuracy setMat_encl (idealEnv_sound (x := x) (lam := lam) (p := p) hs ho) idealEnv_exact idealEnv_sharp hn hx hc (tr0 := treeInit (WOps.ofOrder (-1)) (treeEdges c).toNat)
    (by show ((treeEdges c).toNat : Int) = treeEdges c; omega) q1 f2 f3 f5 (by omega) hready (by omega)⟩

/-- The elliptic curve with branch points `-1`, `1`, `i√3` at every precision from `2` to `2^58 - 2`: the integrals are within `8 · 2^-prec` and the periods within `16 · 2^-prec`. -/
theorem C74_triangle (p : DePar (Set ℂ)) {c : Sec} (hc : secInit 2 3 = .ok c) {prec : Int} (hp : 2 ≤ prec) (hp' : prec + 1 < 2 ^ 58) {fuel flag : Nat} (hf : 2 ≤ fuel) (hty : intType flag c.m c.n = .gc) (hni : flag &&& ajNoInt = 0) (hnt : flag &&& ajNoAb ≠ 0 ∨ flag &&& ajNoTau ≠ 0) :
    ∃ out : AjOut (Set ℂ) ℝ setMat c.shape.g, ajRun (idealEnv tri 1 sortByR orderByR p) fuel c flag prec (treeInit (WOps.ofOrder (-1)) (treeEdges c).toNat) = .ok out ∧ out.tree.e.length = 2 ∧ out.integrals ≠ none ∧ (flag &&& ajNoAb = 0 → out.omega ≠ none) ∧
      ∃ (Y : Nat → ℝ → ℂ) (ca cb : Nat → ℂ) (cc : IMat) (Q : Mat (out.tree.e.length * (2 - 1))), AjRight (idealEnv tri 1 sortByR orderByR p) (fun s z => z ∈ s) InC 2 3 tri c out Y ca cb cc Q ∧ WithinGc tri c prec out Y := by
  obtain ⟨out, q1, q2, q3, q4, q5, q6, -⟩ := C73_triangle p hc hp hp' hf hty hni hnt
  exact ⟨out, q1, q2, q5, q6, C74_accuracy setMat_encl (idealEnv_sound (x := tri) (lam := 1) (p := p) sortByR_sorts orderByR_orders) idealEnv_exact idealEnv_sharp le_rfl tri_inj hc
    (by show ((treeEdges c).toNat : Int) = treeEdges c; rw [tri_treeEdges hc]; rfl) q1 hty hni (Or.inr rfl) (ip := (prec + 1).toNat) (by omega) q4 (by omega)⟩

end Hcp
