import Verif.Props.GcExact
import Verif.Props.ComputeRealFails

/-!
# C56: hyperelliptic curves with exactly known branch points

At large precision every run with the Gauss-Chebyshev rule is right.
-/

namespace Hcp

open Set Spec Filter Topology

variable {C W : Type} {O : MatOps}

/-! ## Directions of the edges -/

/-- the data of an edge made of one-point sets, as numbers -/
noncomputable def unPt (y : YData (Set ℂ)) : YData ℂ := { m := y.m, n := y.n, n1 := y.n1, u := fun i => pick (y.u i) }

theorem resolved_pts {x : Nat → ℂ} {n m : Nat} (hx : Set.InjOn x (Set.Iio n)) {es : List (Edge W)} (hes : ∀ ed ∈ es, ed.a < n ∧ ed.b < n)
    (hgr : GrowsAsTree (es.map fun f => (f.a, f.b))) (hfree : FreeEdges x n es) {data : List (YData (Set ℂ))} {u : Nat → Nat → ℂ} (hu : ExactData (fun s z => s = {z}) m n x es data u) :
    Resolved setArith sndTests x es data := by
  have hpt : ∀ (k : Nat) (ed : Edge W) (yd : YData (Set ℂ)), es[k]? = some ed → data[k]? = some yd → yd.ba2 = {(unPt yd).ba2} := by
    intro k ed yd h1 h2
    obtain ⟨h3, h4, -⟩ := hu k ed yd h1 h2
    show yd.u (yd.n - 2) = {pick (yd.u (yd.n - 2))}
    rw [h4, pick_singleton]
  have hex : Resolved exact exactTests x es (data.map unPt) := by
    refine resolved_exact (m := m) hx hes hgr hfree fun k ed yd h1 h2 => ?_
    rw [List.getElem?_map, Option.map_eq_some_iff] at h2
    obtain ⟨yd, h2, rfl⟩ := h2
    obtain ⟨h3, h4, h5⟩ := hu k ed yd h1 h2
    refine ⟨h3, ?_⟩
    have : (unPt yd).u = u k := funext fun i => by
      show pick (yd.u i) = _
      rw [h4, pick_singleton]
    rw [this]
    exact h5
  have hm : ∀ (k : Nat) (yd : YData (Set ℂ)), data[k]? = some yd → (data.map unPt)[k]? = some (unPt yd) := by
    intro k yd h
    rw [List.getElem?_map, h]
    rfl
  have e1 : ∀ a b : ℂ, setArith.div {a} {b} = {exact.div a b} := fun a b => setArith_pt.div rfl rfl
  have e2 : ∀ z, setArith.neg {z} = {exact.neg z} := fun z => setArith_pt.neg rfl
  have e3 : ∀ z, sndTests.imNonpos {z} = exactTests.imNonpos z := fun z => by simp [sndTests, exactTests]
  constructor
  · intro k l ek el yk yl hkl hk hl gk gl heq
    have := hex.start k l ek el _ _ hkl hk hl (hm k yk gk) (hm l yl gl) heq
    rw [hpt k ek yk hk gk, hpt l el yl hl gl]
    simp only [e1, e2, e3, snd_reNonpos, snd_reNonneg, snd_arg]
    exact this
  · intro k l ek el yk yl hkl hk hl gk gl heq
    have := hex.endStart k l ek el _ _ hkl hk hl (hm k yk gk) (hm l yl gl) heq
    rw [hpt k ek yk hk gk, hpt l el yl hl gl]
    simp only [e1, e2, snd_reNonpos, snd_reNonneg, snd_arg]
    exact this

/-! ## Ellipses of an edge -/

/-- the parameters of the ellipses with foci `x_a`, `x_b` through the other branch points -/
noncomputable def edgeRs (x : Nat → ℂ) (n a b : Nat) : List ℝ := ((List.range n).filter fun k => k ≠ a ∧ k ≠ b).map fun k => (‖x k - x a‖ + ‖x k - x b‖) / ‖x b - x a‖

/-- The edges are visited by increasing smallest ellipse; two edges with the same smallest ellipse have the same ellipses. -/
def EllipseOrder (x : Nat → ℂ) (n : Nat) (es : List (Edge W)) (ord : List Nat) : Prop :=
  ord.Pairwise fun k l => ∀ ed f : Edge W, es[k]? = some ed → es[l]? = some f → (∃ r ∈ edgeRs x n ed.a ed.b, ∀ s ∈ edgeRs x n f.a f.b, r < s) ∨ (edgeRs x n ed.a ed.b).Perm (edgeRs x n f.a f.b)

theorem rOf_edge {a b z u : ℂ} (hab : a ≠ b) (h : edgePt a b u = z) : rOf u = (‖z - a‖ + ‖z - b‖) / ‖b - a‖ := by
  have h0 : 0 < ‖b - a‖ := norm_pos_iff.2 (sub_ne_zero.2 hab.symm)
  have h1 : z - a = (u + 1) * ((b - a) / 2) := by rw [← h]; unfold edgePt; ring
  have h2 : z - b = (u - 1) * ((b - a) / 2) := by rw [← h]; unfold edgePt; ring
  rw [h1, h2, norm_mul, norm_mul, norm_div, rOf]
  simp only [Complex.norm_ofNat]
  field_simp
  ring

theorem edgeRs_perm {m n a b n1 : Nat} {x u : Nat → ℂ} (hab : x a ≠ x b) (hE : EdgeData m n x a b n1 u) : (((List.range (n - 2)).map u).map rOf).Perm (edgeRs x n a b) := by
  obtain ⟨τ, hτ, hp⟩ := hE.pts
  have h1 : ((List.range (n - 2)).map u).map rOf = ((List.range (n - 2)).map τ).map fun k => (‖x k - x a‖ + ‖x k - x b‖) / ‖x b - x a‖ := by
    rw [List.map_map, List.map_map]
    refine List.map_congr_left fun i hi => ?_
    exact rOf_edge hab (hp i (List.mem_range.1 hi))
  rw [h1]
  refine List.Perm.map _ ((List.perm_ext_iff_of_nodup ?_ (List.nodup_range.filter _)).2 fun k => ?_)
  · refine List.Nodup.map_on (fun i hi j hj h => ?_) List.nodup_range
    exact hτ.injOn (List.mem_range.1 hi) (List.mem_range.1 hj) h
  · simp only [List.mem_map, List.mem_range, List.mem_filter, decide_eq_true_eq]
    constructor
    · rintro ⟨i, hi, rfl⟩
      exact hτ.mapsTo hi
    · rintro h
      obtain ⟨i, hi, rfl⟩ := hτ.surjOn (show k ∈ {k | k < n ∧ k ≠ a ∧ k ≠ b} from h)
      exact ⟨i, hi, rfl⟩

/-! ## Large precision -/

/-- The precision `ip` is large enough for the Gauss-Chebyshev rule on the edges: it is so for the ellipses of each edge, and each edge needs at least as many points as the next ones in the order `ord`. -/
structure GcReady (x : Nat → ℂ) (n g : Nat) (es : List (Edge W)) (ord : List Nat) (ip : Nat) : Prop where
  prec : ∀ ed ∈ es, ∀ r, IsLeastIn r (edgeRs x n ed.a ed.b) → GcPrec (edgeRs x n ed.a ed.b) r g ip
  mono : ord.Pairwise fun k l => ∀ ed f : Edge W, es[k]? = some ed → es[l]? = some f → ∀ r s, IsLeastIn r (edgeRs x n ed.a ed.b) → IsLeastIn s (edgeRs x n f.a f.b) →
    gcN (edgeRs x n f.a f.b) s g ip ≤ gcN (edgeRs x n ed.a ed.b) r g ip

/-- **C72 (edges of a tree).** If the edges are visited by increasing smallest ellipse, all precisions from some precision on are large enough. -/
theorem C72_edges {x : Nat → ℂ} {n : Nat} {es : List (Edge W)} {ord : List Nat} (h1 : ∀ ed ∈ es, ∀ r ∈ edgeRs x n ed.a ed.b, 1 < r) (hord : EllipseOrder x n es ord) (g : Nat) :
    ∃ P0 : Nat, ∀ ip : Nat, P0 ≤ ip → GcReady x n g es ord ip := by
  classical
  have E1 : ∀ᶠ ip : ℕ in atTop, ∀ ed ∈ {ed | ed ∈ es}, ∀ r, IsLeastIn r (edgeRs x n ed.a ed.b) → GcPrec (edgeRs x n ed.a ed.b) r g ip := by
    refine (eventually_all_finite es.finite_toSet).2 fun ed hed => ?_
    by_cases h : edgeRs x n ed.a ed.b = []
    · exact Eventually.of_forall fun _ r hr => by rw [h] at hr; exact absurd hr.1 List.not_mem_nil
    · obtain ⟨r, hr⟩ := isLeastIn_exists h
      obtain ⟨P0, hP⟩ := C72_large hr (h1 ed hed r hr.1) g
      filter_upwards [eventually_ge_atTop P0] with ip hip s hs
      rw [isLeastIn_unique hs hr]
      exact hP ip hip
  have E2 : ∀ᶠ ip : ℕ in atTop, ∀ ed ∈ {ed | ed ∈ es}, ∀ f ∈ {f | f ∈ es}, ((∃ r ∈ edgeRs x n ed.a ed.b, ∀ s ∈ edgeRs x n f.a f.b, r < s) ∨ (edgeRs x n ed.a ed.b).Perm (edgeRs x n f.a f.b)) →
      ∀ r s, IsLeastIn r (edgeRs x n ed.a ed.b) → IsLeastIn s (edgeRs x n f.a f.b) → gcN (edgeRs x n f.a f.b) s g ip ≤ gcN (edgeRs x n ed.a ed.b) r g ip := by
    refine (eventually_all_finite es.finite_toSet).2 fun ed hed => (eventually_all_finite es.finite_toSet).2 fun f hf => ?_
    rw [eventually_imp_distrib_left]
    rintro (⟨r', hr', hlt⟩ | hperm)
    · obtain ⟨r, hr⟩ := isLeastIn_exists (List.ne_nil_of_mem hr')
      by_cases h : edgeRs x n f.a f.b = []
      · exact Eventually.of_forall fun _ _ s _ hs => by rw [h] at hs; exact absurd hs.1 List.not_mem_nil
      · obtain ⟨s, hs⟩ := isLeastIn_exists h
        obtain ⟨P0, hP⟩ := C72_order hr hs (h1 ed hed r hr.1) ((hr.2 r' hr').trans_lt (hlt s hs.1)) g
        filter_upwards [eventually_ge_atTop P0] with ip hip r2 s2 hr2 hs2
        rw [isLeastIn_unique hr2 hr, isLeastIn_unique hs2 hs]
        exact (hP ip hip).le
    · refine Eventually.of_forall fun ip r s hr hs => ?_
      rw [isLeastIn_unique ((isLeastIn_perm hperm).1 hr) hs, gcN_perm hperm]
  obtain ⟨P0, H⟩ := eventually_atTop.1 (E1.and E2)
  refine ⟨P0, fun ip hip => ⟨(H ip hip).1, hord.imp fun {k l} h ed f hk hl => ?_⟩⟩
  exact (H ip hip).2 ed (List.mem_of_getElem? hk) f (List.mem_of_getElem? hl) (h ed f hk hl)

theorem points_of_par {u : List ℂ} {fuel : Nat} {d prec : Int} {p : GcPar} (hp : gcParams exactPar exactDbl fuel u d prec = .ok p) : ∀ z ∈ u, 1 < rOf z := by
  unfold gcParams at hp
  simp only [Res.bind_eq_ok] at hp
  obtain ⟨s, hs, -⟩ := hp
  exact vecR_exact_ok u none s hs

/-- The branch points are known exactly and the computations on them are exact: arithmetic on one-point sets, functions in double precision without rounding. -/
structure ExactGc (V : AjEnv (Set ℂ) RSet C W O) (x : Nat → ℂ) : Prop where
  ar : ∀ p, V.ar p = setArith
  tests : ∀ p, V.tests p = sndTests
  roots : ∀ p k, V.roots p k = {x k}
  par : V.par = setPar
  dbl : V.dbl = exactDbl

/-- `GcGood` at large precision -/
theorem gcGood_exact {V : AjEnv (Set ℂ) RSet C W O} {x : Nat → ℂ} (hV : ExactGc V x) {n : Nat} (hn : 3 ≤ n) {c : Sec} (hcn : c.shape.n = n) {es : List (Edge W)} {data : List (YData (Set ℂ))} {u : Nat → Nat → ℂ}
    (hdl : data.length = es.length) (hne : ∀ ed ∈ es, x ed.a ≠ x ed.b) (hu : ExactData (fun s z => s = {z}) 2 n x es data u) {prec : Nat} (hready : GcReady x n c.shape.g es (V.order es) prec)
    {fuel flag : Nat} (hflag : flag.testBit 5 = true ∨ n = 3) : GcGood V (fun s z => z ∈ s) fuel c.shape flag prec es data := by
  have hpts : ∀ (k : Nat) (yd : YData (Set ℂ)), data[k]? = some yd → pointsOf c.shape.n yd = ((List.range (n - 2)).map (u k)).map fun z => {z} := by
    intro k yd hk
    obtain ⟨h1, h2⟩ := List.getElem?_eq_some_iff.1 hk
    obtain ⟨-, h4, -⟩ := hu k es[k] yd (List.getElem?_eq_getElem (by omega)) hk
    unfold pointsOf
    rw [hcn, List.map_map]
    exact List.map_congr_left fun i _ => h4 i
  have hne0 : ∀ k, (List.range (n - 2)).map (u k) ≠ [] := by
    intro k h
    have := congrArg List.length h
    simp at this
    omega
  have hpar : ∀ (k : Nat) (yd : YData (Set ℂ)), data[k]? = some yd → gcParams V.par V.dbl fuel (pointsOf c.shape.n yd) c.shape.g prec = gcParams exactPar exactDbl fuel ((List.range (n - 2)).map (u k)) c.shape.g prec := by
    intro k yd hk
    rw [hpts k yd hk, hV.par, hV.dbl, set_gcParams]
  -- the parameters of an edge
  have hall : ∀ (k : Nat) (yd : YData (Set ℂ)) (p : GcPar), data[k]? = some yd → gcParams exactPar exactDbl fuel ((List.range (n - 2)).map (u k)) c.shape.g prec = .ok p → ∃ (ed : Edge W) (r : ℝ), es[k]? = some ed ∧
      IsLeastIn r (edgeRs x n ed.a ed.b) ∧ p.n = gcN (edgeRs x n ed.a ed.b) r c.shape.g prec ∧ p.e ≠ none ∧ 1 < p.r ∧ p.r ≤ p.r0 ∧ 1 ≤ p.n := by
    intro k yd p hk hp
    have k1 := (List.getElem?_eq_some_iff.1 hk).1
    have k2 : es[k]? = some (es[k]'(by omega)) := List.getElem?_eq_getElem _
    have pk := edgeRs_perm (hne _ (List.mem_of_getElem? k2)) (hu k _ yd k2 hk).2.2
    obtain ⟨r, -, r1, r2⟩ := vecR_exact (hne0 k) (points_of_par hp)
    have hr := (isLeastIn_perm pk).1 (isMinR_iff.1 ⟨r1, r2⟩)
    obtain ⟨a1, a2, -, -, a3, a4, e, a5, -⟩ := C72_params (points_of_par hp) ⟨r1, r2⟩ (gcPrec_perm pk.symm (hready.prec _ (List.mem_of_getElem? k2) r hr)) hp
    exact ⟨_, r, k2, hr, by rw [a3, gcN_perm pk], by rw [a5]; simp, a1, a2.le, a4⟩
  constructor
  · intro k yd p hk h
    rw [hpar k yd hk] at h
    obtain ⟨-, -, -, -, -, h⟩ := hall k yd p hk h
    exact h
  · refine hready.mono.imp fun {k l} hkl yk yl p q gk gl hp hq => ?_
    rw [hpar k yk gk] at hp
    rw [hpar l yl gl] at hq
    obtain ⟨ed, r, k2, hr, e1, -, -, -, p1⟩ := hall k yk p gk hp
    obtain ⟨f, s, l2, hs, e2, -, -, -, q1⟩ := hall l yl q gl hq
    have := hkl ed f k2 l2 r s hr hs
    omega
  · intro k j yd yj p _ _ _
    rcases hflag with h | h
    · exact Or.inl h
    · exact Or.inr (Or.inl (by omega))

/-- **C56 (hyperelliptic curves, exact branch points).** Let `y^2 = ∏ (x - x_k)` have `n ≥ 3` distinct branch points, known exactly, and let the routines of Arb enclose what they compute and be exact on the branch points.
If the precision is large enough for the tree chosen (`GcReady`; it is so from some precision on by `C72_edges` if the edges are visited by increasing smallest ellipse), whatever `abel_jacobi_compute` returns with the Gauss-Chebyshev rule
is right (`AjRight`), for all options with `AJ_ROOT_DEF`, and for all options at all on elliptic curves with three branch points.  No hypothesis on the position of the edges, the parameters of the rule or the tests is left. -/
theorem C56_gc_exact {RB : RSet → ℝ → Prop} {RM : {n m : Nat} → O.M n m → Matrix (Fin n) (Fin m) ℝ → Prop} {RC : {n m : Nat} → O.C n m → Matrix (Fin n) (Fin m) ℂ → Prop} {RK : O.K → ℂ → Prop} (M : MatEncl O RM RC RK)
    {V : AjEnv (Set ℂ) RSet C W O} (S : V.Sound (fun s z => z ∈ s) RB RC) {x : Nat → ℂ} (hV : ExactGc V x) {n : Nat} (hn : 3 ≤ n) (hx : InjOn x (Iio n)) {c : Sec} (hc : secInit 2 n = .ok c) {tr0 : Tree W} (ht : (tr0.n : Int) = treeEdges c)
    {prec : Int} {fuel flag : Nat} {out : AjOut (Set ℂ) W O c.shape.g} (hrun : ajRun V fuel c flag prec tr0 = .ok out) (hty : intType flag c.m c.n = .gc) (hni : flag &&& ajNoInt = 0) (hflag : flag.testBit 5 = true ∨ n = 3)
    {ip : Nat} (hip : out.intprec = ip) (hready : GcReady x n c.shape.g out.tree.e (V.order out.tree.e) ip) :
    ∃ (Y : Nat → ℝ → ℂ) (ca cb : Nat → ℂ) (cc : IMat) (Q : Mat (out.tree.e.length * (2 - 1))), AjRight V (fun s z => z ∈ s) RC 2 n x c out Y ca cb cc Q := by
  have hn2 : (2 : Int) ≤ n := by omega
  obtain ⟨_, e1, e2, _⟩ := secInit_fields hc hn2
  have hcn : c.shape.n = n := by unfold Sec.shape; simp [e2]
  obtain ⟨h1, h2, h3, h4, h5⟩ := ajRun_ok hrun
  obtain ⟨-, hgr, hsz, hes, hdata, -⟩ := ajTree_ok S.sortEdges (by omega) hc ht h1
  rw [hV.ar, hV.tests, funext (hV.roots _)] at hdata
  have hne : ∀ ed ∈ out.tree.e, ed.a < n ∧ ed.b < n ∧ x ed.a ≠ x ed.b := by
    intro ed hed
    obtain ⟨k, hk, rfl⟩ := List.getElem_of_mem hed
    have := (hgr k (by simpa using hk)).1
    exact ⟨(hes _ hed).1, (hes _ hed).2, fun h => by simpa using this (by simpa using hx (hes _ hed).1 (hes _ hed).2 h)⟩
  obtain ⟨u, hu⟩ := exactData_exists setArith_pt sndTests (R := fun s z => s = {z}) (x := fun k => {x k}) (x' := x) (fun _ => rfl) (by norm_num : 0 < 2) hne hdata
  have hdl := (treeYdataInit_get hdata).1
  have hG : GcGood V (fun s z => z ∈ s) fuel c.shape flag out.intprec out.tree.e out.data := by
    rw [hip]
    exact gcGood_exact hV hn hcn hdl (fun ed h => (hne ed h).2.2) hu hready hflag
  have hu' : ExactData (fun (s : Set ℂ) z => z ∈ s) 2 n x out.tree.e out.data u := by
    intro k ed yd q1 q2
    obtain ⟨a1, a2, a3⟩ := hu k ed yd q1 q2
    exact ⟨a1, fun i => by rw [a2 i]; rfl, a3⟩
  obtain ⟨hip, I, -, i2, -⟩ := h4 hni
  rw [h2, hty] at i2
  have hfree : FreeEdges x n out.tree.e := (gc_rows_of_run S hn hc (fun ed h => (hne ed h).2.2) hdl hu' hip hG i2).1
  have hres : Resolved setArith sndTests x out.tree.e out.data := resolved_pts hx hes hgr hfree hu
  have hg : 1 ≤ c.shape.g := by
    have := isGenus_shape (by omega) hc
    by_contra h0
    rw [show c.shape.g = 0 by omega] at this
    unfold IsGenus at this
    rcases Nat.even_or_odd' n with ⟨q, rfl | rfl⟩ <;> simp at this <;> omega
  refine C56_compute_partial M S (by omega) hc hg ht hrun hx (fun k => by rw [hV.roots]; rfl) (fun _ => by rw [hV.ar, hV.tests]; exact hres) ?_ (fun _ _ => hG) ?_
  · rintro (h | ⟨-, h⟩)
    · rw [h2, hty] at h; cases h
    · exact absurd hni h
  · intro h
    rw [h2, hty] at h
    cases h

end Hcp
