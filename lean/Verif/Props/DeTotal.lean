import Verif.Props.HomologyTotal
import Verif.Props.ComputeRealFails

/-!
# C79: the double-exponential rule on every superelliptic curve with exact branch points

With the default options this rule is used for all `m, n > 2`.  With exact operations on sets and `de_params` as modelled, a run returns for every curve; for real branch points and a second exponent of `y` what it returns is
wrong at every large precision.
-/

namespace Hcp

open Set Spec

/-- `idealEnv` with `de_params` as modelled; `mu` is its `lambda`, `m2` its bounds. -/
noncomputable def idealDe (x : Nat → ℂ) (lam : ℝ) (sort : List (Edge ℝ) → List (Edge ℝ)) (ord : List (Edge ℝ) → List Nat) (mu : ℝ) (m2 : ℝ → ℝ) : AjEnv (Set ℂ) RSet ℂ ℝ setMat :=
  { idealEnv x lam sort ord ⟨0, {0}, {0}, id⟩ with dePar := fun pts _ j m prec => setDePar mu m2 pts j m prec }

theorem idealDe_exact {x : Nat → ℂ} {lam : ℝ} {sort : List (Edge ℝ) → List (Edge ℝ)} {ord : List (Edge ℝ) → List Nat} {mu : ℝ} {m2 : ℝ → ℝ} (hs : ∀ l, (sort l).Perm l) (ho : ∀ es, (ord es).Perm (List.range es.length)) :
    ExactDe (idealDe x lam sort ord mu m2) mu m2 x :=
  ⟨fun _ => rfl, fun _ => rfl, fun _ => rfl, fun _ _ => rfl, fun _ _ _ _ _ => rfl, hs, ho⟩

/-- the roots are not taken with the turning numbers -/
def RootsDefault (flag n : Nat) : Prop := flag.testBit 5 = true ∨ flag.testBit 7 = true ∨ (flag.testBit 6 = false ∧ n ≤ 7)

/-- the data of an edge are points, and none of the other branch points is on it -/
def EdgePts (n : Nat) (yd : YData (Set ℂ)) : Prop :=
  yd.n = n ∧ yd.n1 ≤ n - 2 ∧ ∃ u : Nat → ℂ, (∀ i, yd.u i = {u i}) ∧ ∀ i < n - 2, ∀ t : ℝ, -1 ≤ t → t ≤ 1 → u i ≠ t

/-- the scheme is that of some parameters -/
def SchemeOf (m : Nat) (de : DeInt (Set ℂ)) : Prop :=
  ∃ p : DePar (Set ℂ), 0 < p.n ∧ (∃ h l : ℝ, p.h = {(h : ℂ)} ∧ p.lam = {(l : ℂ)}) ∧ deIntInit setArith setFns p.h p.lam p.n p.err m = .ok de

theorem edge_total {m n : Nat} (hn : 2 ≤ n) {c : Sec} (hc : secInit m n = .ok c) {flag : Nat} {big : Bool} (hroot : flag.testBit 5 = true ∨ flag.testBit 7 = true ∨ (flag.testBit 6 = false ∧ big = false)) {yd : YData (Set ℂ)} (hy : EdgePts n yd)
    {p : DePar (Set ℂ)} {de : DeInt (Set ℂ)} (hd : de.n = 0 ∨ SchemeOf m de) (hp : de.n = 0 ∨ flag.testBit 8 = false → 0 < p.n ∧ ∃ h l : ℝ, p.h = {(h : ℂ)} ∧ p.lam = {(l : ℂ)}) :
    ∃ de1 row, integralsEdgeDe setArith sndTests setFns c.shape flag big yd p de = .ok (de1, row) ∧ SchemeOf m de1 := by
  have hn2 : (2 : Int) ≤ n := by omega
  obtain ⟨_, e1, e2, _⟩ := secInit_fields hc hn2
  have hcn : c.shape.n = n := by unfold Sec.shape; simp [e2]
  have hcm : c.shape.m = m := by unfold Sec.shape; simp [e1]
  have hg := shape_good hn2 hc
  obtain ⟨hyn, hn1, u, hu, hfree⟩ := hy
  have hsum : ∀ q : DePar (Set ℂ), 0 < q.n → (∃ h l : ℝ, q.h = {(h : ℂ)} ∧ q.lam = {(l : ℂ)}) → ∃ de1 r, deIntInit setArith setFns q.h q.lam q.n q.err m = .ok de1 ∧ deIntegralsPrecomp setArith sndTests (n + 3) yd.u yd.n1 (n - 2) c.shape de1 flag big = .ok r := by
    rintro q hq ⟨h, l, hh, hl⟩
    obtain ⟨de1, r, k1, k2, -⟩ := de_sums setArith_pt setFns_pt sndTests hn2 hc (sz := n + 3) (d1 := yd.n1) (d := n - 2) (by omega) hn1 (u := yd.u) (u' := u) hu hfree (p := q) hq (h' := h) (lam' := l) hh hl (flag := flag) (big := big)
      (by rcases hroot with h | h | h
          · exact Or.inl h
          · exact Or.inr (Or.inl (Or.inl h))
          · exact Or.inr (Or.inl (Or.inr h)))
    rw [hcm] at k1
    exact ⟨de1, r, k1, k2⟩
  obtain ⟨de1, k1, k2⟩ : ∃ de1, deScheme setArith setFns c.shape flag p de = .ok de1 ∧ SchemeOf m de1 := by
    unfold deScheme
    rw [hcm]
    by_cases h0 : de.n = 0
    · obtain ⟨p1, p2⟩ := hp (Or.inl h0)
      obtain ⟨d1, -, q1, -⟩ := hsum p p1 p2
      rw [if_pos (by simp [h0, deReplace])]
      exact ⟨d1, q1, p, p1, p2, q1⟩
    · have hS : SchemeOf m de := by
        rcases hd with h | h
        · exact absurd h h0
        · exact h
      split
      · rename_i hcond
        have hb : flag.testBit 8 = false := by
          rw [Bool.and_eq_true, Bool.or_eq_true] at hcond
          rcases hcond.1 with h | h
          · exact absurd (of_decide_eq_true h) h0
          · simpa using h
        obtain ⟨p1, p2⟩ := hp (Or.inr hb)
        obtain ⟨d1, -, q1, -⟩ := hsum p p1 p2
        exact ⟨d1, q1, p, p1, p2, q1⟩
      · exact ⟨de, rfl, hS⟩
  obtain ⟨q, q1, q2, q3⟩ := k2
  obtain ⟨de2, r, r1, r2⟩ := hsum q q1 q2
  obtain rfl := Res.ok.inj (q3.symm.trans r1)
  have triv : Encloses setArith exact fun _ _ => True := by
    constructor <;> intros <;> trivial
  obtain ⟨y, hy, -⟩ := edgeFactors_spec c.shape 0 0 0 (by have := hg.m; omega) (fun _ => 0) hg.pos hg.sum.le
  have hrel := edgeFactors_rel triv c.shape (ba2 := yd.ba2) (ab := yd.ab) (cab := yd.c) (ba2' := 0) (ab' := 0) (cab' := 0) trivial trivial trivial (x := fun i => if i < c.shape.g then de1.err (r i) else r i) (y := fun _ => 0) (fun _ => trivial)
  rw [hy] at hrel
  obtain ⟨row, hrow, -⟩ := hrel.ok_left
  refine ⟨de1, row, ?_, q, q1, q2, q3⟩
  unfold integralsEdgeDe
  rw [k1, Res.ok_bind, hcn, r2, Res.ok_bind, hrow]
  rfl

/-- the rule returns for every order of the edges -/
theorem treeDe_total {C W : Type} {O : MatOps} {V : AjEnv (Set ℂ) RSet C W O} {mu : ℝ} {m2 : ℝ → ℝ} {x : Nat → ℂ} (hV : ExactDe V mu m2 x) (hl : 0 < mu) (hl2 : mu ≤ Real.pi / 2) {m n : Nat} (hn : 2 ≤ n) {c : Sec} (hc : secInit m n = .ok c)
    {flag : Nat} (hroot : RootsDefault flag n) {prec : Int} (hprec : 2 ≤ prec) {data : List (YData (Set ℂ))} : ∀ (ks : List Nat) (de : DeInt (Set ℂ)) (I : Nat → Nat → Set ℂ),
    (∀ k ∈ ks, ∃ yd, data[k]? = some yd ∧ EdgePts n yd) → (de.n = 0 ∨ SchemeOf m de) → ∃ I', treeDe V c.shape flag prec data ks de I = .ok I'
  | [], _, I, _, _ => ⟨I, rfl⟩
  | k :: ks, de, I, hks, hd => by
    have hn2 : (2 : Int) ≤ n := by omega
    obtain ⟨_, e1, e2, _⟩ := secInit_fields hc hn2
    have hcn : c.shape.n = n := by unfold Sec.shape; simp [e2]
    have hcm : c.shape.m = m := by unfold Sec.shape; simp [e1]
    have hg := shape_good hn2 hc
    obtain ⟨yd, hyd, hy⟩ := hks k List.mem_cons_self
    have hpar : ∃ p : DePar (Set ℂ), V.dePar (pointsOf n yd) (n - 1) c.shape.j1 m prec = .ok p ∧ 0 < p.n ∧ ∃ h l : ℝ, p.h = {(h : ℂ)} ∧ p.lam = {(l : ℂ)} := by
      obtain ⟨-, -, u, hu, hfree⟩ := hy
      obtain ⟨o, ho⟩ := (C54_returns hl m2 ((pointsOf n yd).map pick) c.shape.j1 m prec.toNat).2 (by
        intro t t1 t2 ht
        unfold pointsOf at ht
        rw [List.map_map, List.mem_map] at ht
        obtain ⟨i, hi, e⟩ := ht
        rw [Function.comp, hu i, pick_singleton] at e
        exact hfree i (List.mem_range.1 hi) t t1 t2 e)
      refine ⟨⟨o.n, {(o.h : ℂ)}, {(o.l : ℂ)}, growBall o.e⟩, ?_, deParams_pos hl hl2 (by have := hg.m; omega) (by omega) ho, o.h, o.l, rfl, rfl⟩
      rw [hV.dePar]
      unfold setDePar
      rw [ho]
      rfl
    obtain ⟨p, hp1, hp2⟩ : ∃ p : DePar (Set ℂ), deParIf V c.shape flag prec de.n yd = .ok p ∧ (de.n = 0 ∨ flag.testBit 8 = false → 0 < p.n ∧ ∃ h l : ℝ, p.h = {(h : ℂ)} ∧ p.lam = {(l : ℂ)}) := by
      obtain ⟨p, p1, p2⟩ := hpar
      unfold deParIf
      rw [hcn, hcm]
      split
      · exact ⟨p, p1, fun _ => p2⟩
      · rename_i h
        refine ⟨_, rfl, fun h' => absurd ?_ h⟩
        rcases h' with h' | h' <;> simp [h']
    obtain ⟨de1, row, r1, r2⟩ := edge_total hn hc (flag := flag) (big := decide (1000 < prec) && decide (5 < n - 2)) (by
      rcases hroot with h | h | ⟨h, h7⟩
      · exact Or.inl h
      · exact Or.inr (Or.inl h)
      · exact Or.inr (Or.inr ⟨h, by rw [Bool.and_eq_false_iff]; exact Or.inr (decide_eq_false (by omega))⟩)) hy hd hp2
    obtain ⟨I', hI'⟩ := treeDe_total hV hl hl2 hn hc hroot hprec (data := data) ks de1 (fun i => if i = k then row else I i) (fun k hk => hks k (List.mem_cons_of_mem _ hk)) (Or.inr r2)
    refine ⟨I', ?_⟩
    unfold treeDe
    rw [hyd]
    simp only [hp1, Res.ok_bind, hV.ar, hV.tests, hV.fns, hcn, r1, hI']

theorem ajTree_prec {A B C W : Type} {O : MatOps} {V : AjEnv A B C W O} {c : Sec} {flag : Nat} {prec : Int} {tr0 tr : Tree W} {ip : Int} {data : List (YData A)} (h : ajTree V c flag prec tr0 = .ok (tr, ip, data)) :
    ∃ extra, extraprecTree (V.ar 64) V.mag tr.e (V.roots 64) c.shape = .ok extra ∧ ip = prec + extra := by
  unfold ajTree at h
  simp only [Res.bind_eq_ok] at h
  obtain ⟨tr', h1, ex, h2, ip', h3, cp, h4, _, h5, data', h6, h7⟩ := h
  simp only [Res.ok.injEq, Prod.mk.injEq] at h7
  obtain ⟨rfl, rfl, rfl⟩ := h7
  exact ⟨ex, h2, (chk_eq_ok.1 h3).2⟩

/-- the option `AJ_NO_INT` does not change the choice of the rule -/
theorem intType_noInt (flag : Nat) (m n : Int) : intType (flag ||| ajNoInt) m n = intType flag m n := by
  unfold intType
  have : (flag ||| ajNoInt) &&& ajUseDe = flag &&& ajUseDe := by
    rw [Nat.and_or_distrib_right, show ajNoInt &&& ajUseDe = 0 by decide, Nat.or_zero]
  rw [this]

variable {x : Nat → ℂ} {lam mu : ℝ} {m2 : ℝ → ℝ} {sort : List (Edge ℝ) → List (Edge ℝ)} {ord : List (Edge ℝ) → List Nat}

theorem ajTree_idealDe {p : DePar (Set ℂ)} {c : Sec} {flag : Nat} {prec : Int} {tr0 : Tree ℝ} :
    ajTree (idealDe x lam sort ord mu m2) c flag prec tr0 = ajTree (idealEnv x lam sort ord p) c (flag ||| ajNoInt) prec tr0 := by
  unfold ajTree
  rw [intType_noInt]
  rfl

/-- a term of a loop without repetitions is its coefficient in the chain -/
theorem chain_term : ∀ {l : List Gamma} {t : Gamma}, t ∈ l → (l.map fun t => (t.index, t.shift)).Nodup → (toChain l).coeff t.index t.shift = t.coeff
  | x :: l, t, ht, hnd => by
    have hc : (toChain (x :: l)).coeff t.index t.shift = (if (x.index, x.shift) = (t.index, t.shift) then x.coeff else 0) + (toChain l).coeff t.index t.shift := by
      simp [toChain, Chain.coeff]
    obtain ⟨h1, h2⟩ := List.nodup_cons.1 hnd
    rcases List.mem_cons.1 ht with rfl | ht
    · have h0 : ∀ y ∈ l, ¬ (y.index = t.index ∧ y.shift = t.shift) := by
        rintro y hy ⟨e1, e2⟩
        exact h1 (List.mem_map.2 ⟨y, hy, by rw [e1, e2]⟩)
      have : (toChain l).coeff t.index t.shift = 0 := by
        unfold toChain Chain.coeff
        refine List.sum_eq_zero fun v hv => ?_
        simp only [List.map_map, List.mem_map, Function.comp_apply] at hv
        obtain ⟨y, hy, rfl⟩ := hv
        simp [h0 y hy]
      rw [hc, this, if_pos rfl, add_zero]
    · have : (x.index, x.shift) ≠ (t.index, t.shift) := fun e => h1 (List.mem_map.2 ⟨t, ht, e.symm⟩)
      rw [hc, if_neg this, zero_add, chain_term ht h2]

/-- the coefficients of a symplectic basis are entries of the first `2 g` rows of its matrix -/
theorem basis_entry {len m1 g : Nat} {I : Nat × Nat → Nat × Nat → Int} {P : Mat (len * m1)} {al be : List (List Gamma)} (h : IsSymplecticBasis len m1 g I P al be)
    {l : List Gamma} (hl : l ∈ al ++ be) {t : Gamma} (ht : t ∈ l) : ∃ a j : Fin (len * m1), a.val < 2 * g ∧ t.coeff = P a j := by
  obtain ⟨h1, h2⟩ := h.terms l hl
  obtain ⟨-, h3, h4⟩ := h1 t ht
  have hc := chain_term ht h2
  obtain ⟨i, hi, hor⟩ : ∃ i, i < g ∧ (al[i]? = some l ∨ be[i]? = some l) := by
    rcases List.mem_append.1 hl with hl | hl
    · obtain ⟨i, hi⟩ := List.getElem?_of_mem hl
      exact ⟨i, by have := (List.getElem?_eq_some_iff.1 hi).1; have := h.lengths.1; omega, .inl hi⟩
    · obtain ⟨i, hi⟩ := List.getElem?_of_mem hl
      exact ⟨i, by have := (List.getElem?_eq_some_iff.1 hi).1; have := h.lengths.2; omega, .inr hi⟩
  have ha : al[i]? = some (al[i]'(by rw [h.lengths.1]; exact hi)) := List.getElem?_eq_getElem _
  have hb : be[i]? = some (be[i]'(by rw [h.lengths.2]; exact hi)) := List.getElem?_eq_getElem _
  obtain ⟨a, b, j, q1, q2, -, q4, q5⟩ := h.rows i t.index t.shift _ _ ha hb h3 h4
  rcases hor with hor | hor
  · rw [hor] at ha
    rw [← Option.some.inj ha, hc] at q4
    exact ⟨a, j, by omega, q4⟩
  · rw [hor] at hb
    rw [← Option.some.inj hb, hc] at q5
    exact ⟨b, j, by omega, q5⟩

/-- **C79.** For `y^m = ∏ (x - x_k)` with `2 ≤ m < 2^62`, `n ≥ 2` distinct branch points known exactly, and options which select the double-exponential rule (the default for `m, n > 2`): `abel_jacobi_compute` returns the integrals and,
for `m ≤ 3` or a basis with coefficients below `2^62`, the period matrices, or it aborts because a coefficient of the symplectic basis does not fit in a `slong`; the latter never for `m ≤ 3`.  In particular `de_params` never finds a branch point on an edge. -/
theorem C79_returns (hs : SortsByR sort) (ho : ∀ es, (ord es).Perm (List.range es.length)) (hlam : lam ≠ 0) (hmu : 0 < mu) (hmu2 : mu ≤ Real.pi / 2) (m2 : ℝ → ℝ) {m n : Nat} (hm : 2 ≤ m) (hm62 : m < 2 ^ 62) (hn : 2 ≤ n) (hx : InjOn x (Iio n))
    {c : Sec} (hc : secInit m n = .ok c) {flag : Nat} (hty : intType flag c.m c.n = .de) (hni : flag &&& ajNoInt = 0) (hroot : RootsDefault flag n) :
    ∃ (tr : Tree ℝ) (extra : Int), extraprecTree setArith clampMag tr.e (fun k => {x k}) c.shape = .ok extra ∧
      TreeSize m n tr.e.length ∧ GrowsAsTree (tr.e.map fun f => (f.a, f.b)) ∧ (∀ ed ∈ tr.e, ed.a < n ∧ ed.b < n) ∧ FreeEdges x n tr.e ∧
      ∃ (cc : IMat) (Y : Nat → ℝ → ℂ) (ca cb : Nat → ℂ) (P : Mat (tr.e.length * (m - 1))), Branches m n x tr.e Y ca cb ∧ HoldsNumbers m tr.e ca cb cc ∧
        Unimodular P ∧ P * cc.toMat (tr.e.length * (m - 1)) * P.transpose = stdJ (tr.e.length * (m - 1)) c.shape.g ∧
        ∀ (prec : Int) (ip fuel : Nat), prec + extra = ip → 2 ≤ ip → (ip : Int) < 2 ^ 62 → 1 ≤ fuel →
          ((m ≤ 3 ∨ ∀ a j : Fin (tr.e.length * (m - 1)), a.val < 2 * c.shape.g → FitsSlong (P a j)) → (flag &&& ajNoAb ≠ 0 ∨ (m ≤ 3 ∨ ∀ a j : Fin (tr.e.length * (m - 1)), a.val < 2 * c.shape.g → |P a j| < 2 ^ 62) ∧ flag &&& ajNoTau ≠ 0) →
            ∃ out I, ajRun (idealDe x lam sort ord mu m2) fuel c flag prec (treeInit (WOps.ofOrder (-1)) (treeEdges c).toNat) = .ok out ∧ out.tree = tr ∧ out.intprec = ip ∧ out.integrals = some I ∧
              (flag &&& ajNoAb = 0 → ∃ om, out.omega = some om) ∧ IsSymplecticBasis tr.e.length (m - 1) c.shape.g (tableOf m cc) P out.loopA out.loopB ∧ PositiveDual (tableOf m cc) out.loopA out.loopB) ∧
          (¬ (∀ a j : Fin (tr.e.length * (m - 1)), a.val < 2 * c.shape.g → FitsSlong (P a j)) →
            ajRun (idealDe x lam sort ord mu m2) fuel c flag prec (treeInit (WOps.ofOrder (-1)) (treeEdges c).toNat) = .abort "coefficient too large in basis") := by
  have hn2 : (2 : Int) ≤ n := by omega
  obtain ⟨_, e1, e2, _⟩ := secInit_fields hc hn2
  have hcn : c.shape.n = n := by unfold Sec.shape; simp [e2]
  have hcm : c.shape.m = m := by unfold Sec.shape; simp [e1]
  have hni' : (flag ||| ajNoInt) &&& ajNoInt ≠ 0 := by
    rw [Nat.and_or_distrib_right, Nat.and_self, hni, Nat.zero_or]
    decide
  obtain ⟨tr, extra, h1, h2, h3, h4, h5, cc, Y, ca, cb, P, k1, k2, -, -, k3, k4, -, hrun⟩ := C78_homology (p := ⟨0, {0}, {0}, id⟩) (ord := ord) hs hlam hm hm62 hn hx hc (flag ||| ajNoInt) hni'
  have hV : ExactDe (idealDe x lam sort ord mu m2) mu m2 x := idealDe_exact hs.perm ho
  refine ⟨tr, extra, h1, h2, h3, h4, h5, cc, Y, ca, cb, P, k1, k2, k3, k4, fun prec ip fuel hip hip2 hip62 hf => ⟨fun hor hfl => ?_, fun hnot => ?_⟩⟩
  · obtain ⟨out', o1, o2, o3⟩ := (hrun prec ip fuel hip hip2 hip62 hf).1 hor
    obtain ⟨t1, -, t2, -⟩ := ajRun_ok o1
    rw [o2.tree] at t1 t2
    have hte : ((treeInit (WOps.ofOrder (-1) : WOps ℝ) (treeEdges c).toNat).n : Int) = treeEdges c := by
      have : 0 ≤ treeEdges c := by
        unfold treeEdges
        rw [e2]
        split <;> omega
      show (((treeEdges c).toNat : Nat) : Int) = _
      omega
    obtain ⟨l1, -, -, -, hdata, -⟩ := ajTree_ok (V := idealEnv x lam sort ord ⟨0, {0}, {0}, id⟩) hs.perm hn hc hte t1
    obtain ⟨ex, x1, x2⟩ := ajTree_prec t1
    have hex : ex = extra := Res.ok.inj (x1.symm.trans h1)
    have hip' : out'.intprec = ip := by omega
    have hdata' : treeYdataInit setArith sndTests (fun k => {x k}) n m tr.e = .ok out'.data := hdata
    obtain ⟨hdl, hget⟩ := treeYdataInit_get hdata'
    have hpts : ∀ k ∈ ord tr.e, ∃ yd, out'.data[k]? = some yd ∧ EdgePts n yd := by
      intro k hk
      have hk' : k < tr.e.length := by simpa using (ho tr.e).mem_iff.1 hk
      obtain ⟨yd, hy⟩ : ∃ yd, out'.data[k]? = some yd := ⟨_, List.getElem?_eq_getElem (by omega)⟩
      obtain ⟨ed, hed, hyd⟩ := hget k yd hy
      have hmem := List.mem_of_getElem? hed
      obtain ⟨b1, b2⟩ := h4 ed hmem
      have hab : ed.a ≠ ed.b := by
        have h := (h3 k (by simpa using hk')).1
        rw [List.getElem_map, (List.getElem?_eq_some_iff.1 hed).2] at h
        exact h
      have hxab : x ed.a ≠ x ed.b := fun h => hab (hx b1 b2 h)
      refine ⟨yd, hy, ?_⟩
      rcases ydataInitEdge_spec setArith_pt sndTests (x := fun k => {x k}) (x' := x) (fun _ => rfl) b1 b2 hab (by omega : 0 < m) hxab with ⟨yd', e, -, q2, -, -, u', hu, hE⟩ | ⟨e, -⟩
      · obtain rfl := Res.ok.inj (hyd.symm.trans e)
        exact ⟨q2, hE.n1_le, u', hu, edgeData_free hE (h5 ed hmem)⟩
      · rw [hyd] at e
        cases e
    obtain ⟨I, hI⟩ := treeDe_total hV hmu hmu2 hn hc hroot (prec := ip) (by omega) (data := out'.data) (ord tr.e) ⟨0, {0}, fun _ => {0}, fun _ => {0}, fun _ => {0}, id⟩ (fun _ _ => {0}) hpts (Or.inl rfl)
    have hI' : ajIntegrals (idealDe x lam sort ord mu m2) fuel c.shape flag ip .de tr.e out'.data = .ok I := hI
    have ht : ajTree (idealDe x lam sort ord mu m2) c flag prec (treeInit (WOps.ofOrder (-1)) (treeEdges c).toNat) = .ok (tr, (ip : Int), out'.data) := by
      rw [ajTree_idealDe (p := ⟨0, {0}, {0}, id⟩), t1, hip']
    have hb : symplecticBasis (idealDe x lam sort ord mu m2).xgcd fuel (shiftOracle ((idealDe x lam sort ord mu m2).ar 64) ((idealDe x lam sort ord mu m2).tests 64) out'.data c.shape.m) tr.e c.shape.m c.shape.g = .ok (out'.loopA, out'.loopB) := t2
    have hip2' : arbPrec (ip : Int) = .ok () := arbPrec_of (by omega)
    have hnn : ¬ flag &&& ajNoInt ≠ 0 := not_not.2 hni
    by_cases hab : flag &&& ajNoAb = 0
    · obtain ⟨hm3, htau⟩ := hfl.resolve_left (not_not.2 hab)
      have hterm : ∀ l ∈ out'.loopA ++ out'.loopB, ∀ t ∈ l, t.index < tr.n ∧ t.shift < c.shape.m ∧ -(2 ^ 62) < t.coeff ∧ t.coeff < 2 ^ 62 := by
        intro l hl t ht
        obtain ⟨-, w1, w2⟩ := (o2.basis.terms l hl).1 t ht
        rw [hcm, l1]
        refine ⟨w1, by omega, abs_lt.1 ?_⟩
        rcases hm3 with hm3 | hP
        · rcases o3 hm3 l hl t ht with w3 | w3 <;> rw [w3] <;> norm_num
        · obtain ⟨a, j, b1, b2⟩ := basis_entry o2.basis hl ht
          rw [b2]
          exact hP a j b1
      have triv : Encloses setArith exact fun _ _ => True := by
        constructor <;> intros <;> trivial
      obtain ⟨om0, -, a1, -⟩ := C17_encloses triv hn2 hc out'.loopA o2.basis.lengths.1.ge (rows := tr.n) (integrals := I) (integrals' := fun _ _ => 0) (fun _ _ => trivial) fun l hl => hterm l (List.mem_append_left _ hl)
      obtain ⟨om1, -, a2, -⟩ := C17_encloses triv hn2 hc out'.loopB o2.basis.lengths.2.ge (rows := tr.n) (integrals := I) (integrals' := fun _ _ => 0) (fun _ _ => trivial) fun l hl => hterm l (List.mem_append_right _ hl)
      have a1' : periodMatrix ((idealDe x lam sort ord mu m2).ar ip) c.shape out'.loopA tr.n I = .ok om0 := a1
      have a2' : periodMatrix ((idealDe x lam sort ord mu m2).ar ip) c.shape out'.loopB tr.n I = .ok om1 := a2
      refine ⟨⟨.de, tr, ip, out'.data, out'.loopA, out'.loopB, some I, some (trimIf (idealDe x lam sort ord mu m2) flag om0, trimIf (idealDe x lam sort ord mu m2) flag om1), none⟩, I, ?_, rfl, rfl, rfl, fun _ => ⟨_, rfl⟩, o2.basis, o2.positive⟩
      unfold ajRun
      simp only [ht, Res.ok_bind, hb, if_neg hnn, hip2', hty, hI', if_neg (not_not.2 hab), a1', a2', if_pos htau]
    · refine ⟨⟨.de, tr, ip, out'.data, out'.loopA, out'.loopB, some I, none, none⟩, I, ?_, rfl, rfl, rfl, fun h => absurd h hab, o2.basis, o2.positive⟩
      unfold ajRun
      simp only [ht, Res.ok_bind, hb, if_neg hnn, hip2', hty, hI', if_pos hab]
  · have h := (hrun prec ip fuel hip hip2 hip62 hf).2 hnot
    unfold ajRun at h ⊢
    rw [ajTree_idealDe (p := ⟨0, {0}, {0}, id⟩)]
    cases ht : ajTree (idealEnv x lam sort ord ⟨0, {0}, {0}, id⟩) c (flag ||| ajNoInt) prec (treeInit (WOps.ofOrder (-1)) (treeEdges c).toNat) with
    | ok t =>
      rw [ht] at h
      obtain ⟨tr', ip', data'⟩ := t
      simp only [Res.ok_bind] at h ⊢
      have hb : symplecticBasis (idealDe x lam sort ord mu m2).xgcd fuel (shiftOracle ((idealDe x lam sort ord mu m2).ar 64) ((idealDe x lam sort ord mu m2).tests 64) data' c.shape.m) tr'.e c.shape.m c.shape.g =
        symplecticBasis (idealEnv x lam sort ord ⟨0, {0}, {0}, id⟩).xgcd fuel (shiftOracle ((idealEnv x lam sort ord ⟨0, {0}, {0}, id⟩).ar 64) ((idealEnv x lam sort ord ⟨0, {0}, {0}, id⟩).tests 64) data' c.shape.m) tr'.e c.shape.m c.shape.g := rfl
      rw [hb]
      cases hs : symplecticBasis (idealEnv x lam sort ord ⟨0, {0}, {0}, id⟩).xgcd fuel (shiftOracle ((idealEnv x lam sort ord ⟨0, {0}, {0}, id⟩).ar 64) ((idealEnv x lam sort ord ⟨0, {0}, {0}, id⟩).tests 64) data' c.shape.m) tr'.e c.shape.m c.shape.g with
      | ok q =>
        rw [hs] at h
        simp only [Res.ok_bind, if_pos hni'] at h
        cases h
      | abort w => rw [hs] at h; exact h
      | ub w => rw [hs] at h; cases h
      | diverge => rw [hs] at h; cases h
    | abort w => rw [ht] at h; exact h
    | ub w => rw [ht] at h; cases h
    | diverge => rw [ht] at h; cases h

/-- **C56 does not hold with the default options.** Let `y^m = ∏ (x - x_k)` have distinct real branch points, let `j` be an exponent of `y` in the differentials other than the smallest, and `r` the number of `dx / y^j`.  At every precision
from some point on the radii of `de_params` are too small on all edges, and whenever they are the run returns (for `m ≤ 3`, and for larger `m` with `AJ_NO_AB` if the basis fits), and on an edge of its tree the cell of `dx / y^j` contains the
integral over the closed path for no determination of `y`. -/
theorem C56_default_fails (hs : SortsByR sort) (ho : ∀ es, (ord es).Perm (List.range es.length)) (hlam : lam ≠ 0) (hmu : 0 < mu) (hmu2 : mu ≤ Real.pi / 2) (m2 : ℝ → ℝ) {ξ : Nat → ℝ} {m n : Nat} (hm : 2 ≤ m) (hm62 : m < 2 ^ 62) (hn : 2 ≤ n)
    (hξ : InjOn ξ (Iio n)) {c : Sec} (hc : secInit m n = .ok c) {r j : Nat} (hr : r < c.shape.g) (hd : diffOf c.shape.ni c.shape.j1 r = (0, j)) (hjj : c.shape.j1 < j)
    {flag : Nat} (hty : intType flag c.m c.n = .de) (hni : flag &&& ajNoInt = 0) (hroot : RootsDefault flag n) (hfl : flag &&& ajNoAb ≠ 0 ∨ m ≤ 3 ∧ flag &&& ajNoTau ≠ 0) :
    (∃ P0 : Nat, ∀ ip : Nat, P0 ≤ ip → ∀ a < n, ∀ b < n, a ≠ b → EdgeShort mu m2 m n c.shape.j1 j ξ a b ip) ∧
    ∃ (tr : Tree ℝ) (extra : Int) (P : Mat (tr.e.length * (m - 1))), extraprecTree setArith clampMag tr.e (fun k => {(ξ k : ℂ)}) c.shape = .ok extra ∧ Unimodular P ∧
      ∀ (prec : Int) (ip fuel : Nat), prec + extra = ip → 2 ≤ ip → (ip : Int) < 2 ^ 62 → 1 ≤ fuel → (∀ a < n, ∀ b < n, a ≠ b → EdgeShort mu m2 m n c.shape.j1 j ξ a b ip) →
        (m ≤ 3 ∨ ∀ a j : Fin (tr.e.length * (m - 1)), a.val < 2 * c.shape.g → FitsSlong (P a j)) →
        ∃ (out : AjOut (Set ℂ) ℝ setMat c.shape.g) (I : Nat → Nat → Set ℂ) (k : Nat) (ed : Edge ℝ),
          ajRun (idealDe (fun k => (ξ k : ℂ)) lam sort ord mu m2) fuel c flag prec (treeInit (WOps.ofOrder (-1)) (treeEdges c).toNat) = .ok out ∧ out.tree = tr ∧ out.integrals = some I ∧ tr.e[k]? = some ed ∧
          (∀ Y, IsBranchM m n (fun k => (ξ k : ℂ)) (ξ ed.a) (ξ ed.b) Y → cycleIntM m (ξ ed.a) (ξ ed.b) 0 j Y 0 ∉ I k r) ∧
          ∀ Y ca cb cc Q, ¬ AjRight (idealDe (fun k => (ξ k : ℂ)) lam sort ord mu m2) (fun s z => z ∈ s) InC m n (fun k => (ξ k : ℂ)) c out Y ca cb cc Q := by
  have hn2 : (2 : Int) ≤ n := by omega
  obtain ⟨_, e1, e2, _⟩ := secInit_fields hc hn2
  have hcm : c.shape.m = m := by unfold Sec.shape; simp [e1]
  have hg := shape_good hn2 hc
  have hjm : j < m := by
    have := (diffOf_exp hg hr).2
    rwa [hd, hcm] at this
  have hx : InjOn (fun k => (ξ k : ℂ)) (Iio n) := fun a ha b hb h => hξ ha hb (Complex.ofReal_injective h)
  refine ⟨C53_edges_fail hmu hmu2 m2 hξ hg.j1 hjj hjm, ?_⟩
  obtain ⟨tr, extra, h1, -, -, -, -, cc, Y, ca, cb, P, -, -, h2, -, hrun⟩ := C79_returns hs ho hlam hmu hmu2 m2 hm hm62 hn hx hc hty hni hroot
  refine ⟨tr, extra, P, h1, h2, fun prec ip fuel hip hip2 hip62 hf hshort hor => ?_⟩
  obtain ⟨out, I, o1, o2, o3, o4, -⟩ := (hrun prec ip fuel hip hip2 hip62 hf).1 hor (hfl.imp_right fun h => ⟨.inl h.1, h.2⟩)
  have hte : ((treeInit (WOps.ofOrder (-1) : WOps ℝ) (treeEdges c).toNat).n : Int) = treeEdges c := by
    have : 0 ≤ treeEdges c := by
      unfold treeEdges
      rw [e2]
      split <;> omega
    show (((treeEdges c).toNat : Nat) : Int) = _
    omega
  obtain ⟨⟨I', k, ed, i1, i2, i3⟩, i4⟩ := C56_real_fails (idealDe_exact (lam := lam) hs.perm ho) hn hξ hc hr hd hjj hte InC hty hni hroot o1 (by rw [o3, Int.toNat_natCast]; exact hshort)
  obtain rfl := Option.some.inj (o4.symm.trans i1)
  rw [o2] at i2
  exact ⟨out, I, k, ed, o1, o2, o4, i2, i3, i4⟩

/-- the hypotheses of both theorems hold for `y^3 = x (x - 1) (x - 2) (x - 3)`, genus 3, with the default options but `tau`, and for the differential `dx / y^2` -/
example : ∃ c : Sec, secInit (3 : Nat) (4 : Nat) = .ok c ∧ c.shape.g = 3 ∧ diffOf c.shape.ni c.shape.j1 1 = (0, 2) ∧ c.shape.j1 < 2 ∧ intType ajNoTau c.m c.n = .de ∧ ajNoTau &&& ajNoInt = 0 ∧ RootsDefault ajNoTau 4 ∧
    ajNoTau &&& ajNoTau ≠ 0 ∧ SortsByR (sortByR : List (Edge ℝ) → List (Edge ℝ)) ∧ (∀ es : List (Edge ℝ), (List.range es.length).Perm (List.range es.length)) ∧ InjOn (fun k : Nat => (k : ℝ)) (Iio 4) ∧ 0 < Real.pi / 2 :=
  ⟨_, rfl, by decide, by decide, by decide, by decide, by decide, Or.inr (Or.inr ⟨by decide, by decide⟩), by decide, sortByR_sorts, fun _ => List.Perm.refl _, fun a _ b _ h => by simpa using h, by positivity⟩

end Hcp
