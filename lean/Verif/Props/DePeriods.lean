import Verif.Props.DeConverge
import Verif.Proofs.PeriodsCongr

/-!
# C85: convergence of the matrices of periods
-/

namespace Hcp

open Set Spec

variable {x : Nat → ℂ} {n : Nat}

/-- from the distances of the integrals to the distances of the periods -/
theorem periods_near {W : Type} {m n : Nat} (hn : 2 ≤ n) {c : Sec} (hc : secInit m n = .ok c) {es : List (Edge W)} {Y : Nat → ℝ → ℂ} {I : Nat → Nat → Set ℂ} {δ : Nat → ℝ} (hδ : ∀ r, 0 ≤ δ r)
    (hI : ∀ (k r i j : Nat) (ed : Edge W), es[k]? = some ed → r < c.shape.g → diffOf c.shape.ni c.shape.j1 r = (i, j) → ∀ w ∈ I k r, ‖w - cycleIntM m (x ed.a) (x ed.b) i j (Y k) 0‖ ≤ δ r)
    {ls : List (List Gamma)} (hl : ls.length = c.shape.g) (hT : ∀ l ∈ ls, ∀ t ∈ l, t.index < es.length ∧ t.shift < m) {om : Nat → Nat → Set ℂ}
    (hpm : periodMatrix setArith c.shape ls es.length I = .ok om) {r k i j : Nat} (hr : r < c.shape.g) (hk : k < c.shape.g) (hij : diffOf c.shape.ni c.shape.j1 r = (i, j)) :
    (∀ w ∈ om r k, ‖w - loopPeriodM m x es Y i j (ls.getD k [])‖ ≤ 2 * δ r * ((ls.getD k []).map fun t => |(t.coeff : ℝ)|).sum) ∧
      ((∀ k' < es.length, ∀ r' < c.shape.g, (I k' r').Nonempty) → (om r k).Nonempty) := by
  classical
  have hn2 : (2 : Int) ≤ n := by omega
  have hG := shape_good hn2 hc
  have hcm : c.shape.m = m := by
    obtain ⟨_, e1, _⟩ := secInit_fields hc hn2
    unfold Sec.shape
    simp [e1]
  have hco := periodMatrix_coeff hpm hl.le
  have hT' : ∀ l ∈ ls, ∀ t ∈ l, t.index < es.length ∧ t.shift < m ∧ -(2 ^ 62) < t.coeff ∧ t.coeff < 2 ^ 62 := fun l h t ht => ⟨(hT l h t ht).1, (hT l h t ht).2, hco l h t ht⟩
  have hkl : k < ls.length := by omega
  have hlp : ls[k]? = some (ls.getD k []) := by rw [List.getD_eq_getElem?_getD, List.getElem?_eq_getElem hkl, Option.getD_some]
  -- the cells outside the matrix do not matter
  let I0 : Nat → Nat → Set ℂ := fun k r => if k < es.length ∧ r < c.shape.g then I k r else {0}
  have hI0 : periodMatrix setArith c.shape ls es.length I0 = .ok om := by
    rw [← hpm]
    exact periodMatrix_congr (fun k hk r hr => by simp only [I0, if_pos (And.intro hk hr)]) ls
  let J : Nat → Nat → ℂ := fun k r => match es[k]? with
    | some ed => if r < c.shape.g then cycleIntM m (x ed.a) (x ed.b) (diffOf c.shape.ni c.shape.j1 r).1 (diffOf c.shape.ni c.shape.j1 r).2 (Y k) 0 else 0
    | none => 0
  let I1 : Nat → Nat → Set ℂ := fun k r => Metric.closedBall (J k r) (δ r)
  have hsub : ∀ k r, I0 k r ⊆ I1 k r := by
    intro k r w hw
    rw [mem_closedBall_iff_norm]
    by_cases h : k < es.length ∧ r < c.shape.g
    · simp only [I0, if_pos h] at hw
      simp only [J, List.getElem?_eq_getElem h.1, if_pos h.2]
      exact hI k r _ _ _ (List.getElem?_eq_getElem h.1) h.2 rfl w hw
    · simp only [I0, if_neg h, mem_singleton_iff] at hw
      have hJ : J k r = 0 := by
        simp only [J]
        by_cases h1 : k < es.length
        · rw [List.getElem?_eq_getElem h1]
          exact if_neg fun h2 => h ⟨h1, h2⟩
        · rw [List.getElem?_eq_none (by omega)]
      rw [hw, hJ, sub_self, norm_zero]
      exact hδ r
  obtain ⟨om1, q1, q2⟩ := periods_of_rows setArith_encloses hn hc (x' := x) (es := es) (Y := Y) (I' := I1) (J := J) (fun k r => Metric.mem_closedBall_self (hδ r)) (fun k ed hk r i j hr hij => by
    simp only [J, hk, if_pos hr, hij]
    rw [cycleIntM_eq]
    simp) ls hl.ge hT'
  have hrel := periodMatrix_rel setArith_mono c.shape es.length (I := I0) (J := I1) hsub ls
  rw [hI0, q1] at hrel
  have hinc : om r k ⊆ om1 r k := by
    cases hrel with
    | ok h => exact h r k
  have hd := periodMatrix_diam hG (I := I1) (δ := fun r => 2 * δ r) (fun k r w hw w' hw' => by
    rw [mem_closedBall_iff_norm] at hw
    rw [mem_closedBall_iff_norm'] at hw'
    calc ‖w - w'‖ = ‖(w - J k r) + (J k r - w')‖ := by congr 1; ring
      _ ≤ 2 * δ r := (norm_add_le _ _).trans (by linarith)) hl.ge (fun l h t ht => by
    obtain ⟨t1, t2, t3⟩ := hT' l h t ht
    exact ⟨t1, by omega, t3⟩) q1 hr hk hlp
  refine ⟨fun w hw => hd w (hinc hw) _ (q2 r i j k _ hr hij hk hlp), fun hne => ?_⟩
  obtain ⟨om2, q3, -⟩ := C17_period_matrix hn2 hc ls hl.ge J (fun l h t ht => by rw [hcm]; exact hT' l h t ht)
  have hrel := periodMatrix_rel setArith_nonempty c.shape es.length (I := I0) (J := J) (fun k r => by
    by_cases h : k < es.length ∧ r < c.shape.g
    · simp only [I0, if_pos h]
      exact hne k h.1 r h.2
    · simp only [I0, if_neg h]
      exact singleton_nonempty _) ls
  rw [hI0, q3] at hrel
  cases hrel with
  | ok h => exact h r k

/-- C85 with the exact data of the edges -/
theorem de_all (hs : SortsByR sort) (ho : OrdersByR ord) {lam : ℝ} (hlam : 0 < lam) (hlam2 : lam ≤ Real.pi / 2) (m2 : ℝ → ℝ) {m n : Nat} (hm : 2 ≤ m) (hn : 3 ≤ n) (hx : InjOn x (Iio n))
    {c : Sec} (hc : secInit m n = .ok c) {flag : Nat} (hty : intType flag c.m c.n = .de) (hni : flag &&& ajNoInt = 0) (hroot : RootsDefault flag n) :
    ∃ (tr : Tree ℝ) (data : List (YData (Set ℂ))) (Y : Nat → ℝ → ℂ) (la lb : List (List Gamma)), spanningTreeOf (exactCOps lam) (WOps.ofOrder (-1)) sort x (treeInit (WOps.ofOrder (-1)) (treeEdges c).toNat) n .de = .ok tr ∧
      treeYdataInit setArith sndTests (fun k => {x k}) n m tr.e = .ok data ∧ TreeSize m n tr.e.length ∧
      tr.n = tr.e.length ∧ GrowsAsTree (tr.e.map fun f => (f.a, f.b)) ∧ FreeEdges x n tr.e ∧ data.length = tr.e.length ∧ (∃ u, ExactData (fun s z => s = {z}) m n x tr.e data u ∧ Y = storedY m n data u) ∧
      (∀ fuel al be, symplecticBasis XGcd.std fuel (shiftOracle setArith sndTests data m) tr.e m c.shape.g = .ok (al, be) → al = la ∧ be = lb) ∧
      (∀ (k : Nat) (ed : Edge ℝ), tr.e[k]? = some ed → ed.a < n ∧ ed.b < n ∧ ed.a ≠ ed.b ∧ IsBranchM m n x (x ed.a) (x ed.b) (Y k)) ∧
      (∀ (prec : Int) (fuel : Nat), 2 ≤ prec → ∃ I, ajIntegrals (idealDe x lam sort ord lam m2) fuel c.shape flag prec .de tr.e data = .ok I) ∧
      (∀ (k r i j : Nat) (ed : Edge ℝ), tr.e[k]? = some ed → r < c.shape.g → diffOf c.shape.ni c.shape.j1 r = (i, j) →
        ∃ K : ℝ, ∀ (prec : Int) (fuel : Nat) (I : Nat → Nat → Set ℂ), 2 ≤ prec → ajIntegrals (idealDe x lam sort ord lam m2) fuel c.shape flag prec .de tr.e data = .ok I →
          (∀ w ∈ I k r, ‖w - cycleIntM m (x ed.a) (x ed.b) i j (Y k) 0‖ ≤ K * 2 ^ (-((m - j) / (m - 1) * prec : ℝ))) ∧ ((∀ ρ, 0 ≤ m2 ρ) → (I k r).Nonempty)) ∧
      (∀ r k i j : Nat, r < c.shape.g → k < c.shape.g → diffOf c.shape.ni c.shape.j1 r = (i, j) →
        ∃ K : ℝ, ∀ (prec : Int) (fuel : Nat) (I om0 om1 : Nat → Nat → Set ℂ), 2 ≤ prec → ajIntegrals (idealDe x lam sort ord lam m2) fuel c.shape flag prec .de tr.e data = .ok I →
          periodMatrix setArith c.shape la tr.e.length I = .ok om0 → periodMatrix setArith c.shape lb tr.e.length I = .ok om1 →
            (∀ w ∈ om0 r k, ‖w - loopPeriodM m x tr.e Y i j (la.getD k [])‖ ≤ K * 2 ^ (-((m - j) / (m - 1) * prec : ℝ))) ∧
            (∀ w ∈ om1 r k, ‖w - loopPeriodM m x tr.e Y i j (lb.getD k [])‖ ≤ K * 2 ^ (-((m - j) / (m - 1) * prec : ℝ))) ∧
            ((∀ ρ, 0 ≤ m2 ρ) → (om0 r k).Nonempty ∧ (om1 r k).Nonempty)) ∧
      ∀ (prec : Int) (fuel : Nat) (out : AjOut (Set ℂ) ℝ setMat c.shape.g), ajRun (idealDe x lam sort ord lam m2) fuel c flag prec (treeInit (WOps.ofOrder (-1)) (treeEdges c).toNat) = .ok out →
        out.tree = tr ∧ out.data = data ∧ 2 ≤ out.intprec ∧ (∃ fuel, symplecticBasis XGcd.std fuel (shiftOracle setArith sndTests data m) tr.e m c.shape.g = .ok (la, lb)) ∧ out.loopA = la ∧ out.loopB = lb ∧ la.length = c.shape.g ∧ lb.length = c.shape.g ∧
          ∃ I, out.integrals = some I ∧ ajIntegrals (idealDe x lam sort ord lam m2) fuel c.shape flag out.intprec .de tr.e data = .ok I ∧
            (flag &&& ajNoAb = 0 → ∃ om0 om1, out.omega = some (om0, om1) ∧ periodMatrix setArith c.shape la tr.e.length I = .ok om0 ∧ periodMatrix setArith c.shape lb tr.e.length I = .ok om1) := by
  classical
  obtain ⟨tr, data, u, ht, hd, hsz, hbr, hfree, hu, htot, H⟩ := de_stages (x := x) hs ho hlam hlam2 m2 hm hn hx hc hroot
  have hn2 : (2 : Int) ≤ n := by omega
  obtain ⟨_, e1, e2, _⟩ := secInit_fields hc hn2
  have hcn : c.shape.n = n := by unfold Sec.shape; simp [e2]
  have hcm : c.shape.m = m := by unfold Sec.shape; simp [e1]
  have hec := C03_tree_size (by omega) hc
  have hlt := edgeCount_lt (edgeCount_of_size hec)
  obtain ⟨hn', hgr⟩ : tr.n = tr.e.length ∧ GrowsAsTree (tr.e.map fun f => (f.a, f.b)) := by
    have ht' := ht
    unfold spanningTreeOf at ht'
    obtain ⟨t1, q1, q2, q3, q4, -⟩ := C09_grows_as_tree (WOps.ofOrder (-1)) sort hs.perm _ (treeInit (WOps.ofOrder (-1 : ℝ)) (treeEdges c).toNat) n (.inl hlt)
    obtain rfl := Res.ok.inj (ht'.symm.trans q1)
    exact ⟨q2.trans q3.symm, q4⟩
  have hes : ∀ ed ∈ tr.e, ed.a < n ∧ ed.b < n ∧ x ed.a ≠ x ed.b := fun ed hed => by
    obtain ⟨k', hk', rfl⟩ := List.getElem_of_mem hed
    obtain ⟨b1, b2, b3, -⟩ := hbr k' _ (List.getElem?_eq_getElem hk')
    exact ⟨b1, b2, fun h => b3 (hx b1 b2 h)⟩
  obtain ⟨hdl, -⟩ := treeYdataInit_get hd
  have hu' : ExactData (fun s z => z ∈ s) m n x tr.e data u := fun k ed yd q1 q2 => ⟨(hu k ed yd q1 q2).1, fun i => by rw [(hu k ed yd q1 q2).2.1 i]; exact mem_singleton _, (hu k ed yd q1 q2).2.2⟩
  -- the loops
  obtain ⟨la, lb, hlp⟩ : ∃ la lb : List (List Gamma), (∀ fuel al be, symplecticBasis XGcd.std fuel (shiftOracle setArith sndTests data m) tr.e m c.shape.g = .ok (al, be) →
      al = la ∧ be = lb ∧ la.length = c.shape.g ∧ lb.length = c.shape.g) ∧ (la = [] ∨ la.length = c.shape.g ∧ lb.length = c.shape.g) ∧ ∀ l ∈ la ++ lb, ∀ t ∈ l, t.index < tr.e.length ∧ t.shift < m := by
    by_cases hex : ∃ fuel al be, symplecticBasis XGcd.std fuel (shiftOracle setArith sndTests data m) tr.e m c.shape.g = .ok (al, be)
    swap
    · exact ⟨[], [], fun fuel al be h => absurd ⟨fuel, al, be, h⟩ hex, Or.inl rfl, by simp⟩
    obtain ⟨fuel, la, lb, h3⟩ := hex
    obtain ⟨cc, Q, -, b2, -⟩ := basis_of_run _ setArith_encloses sndTests_sound (by omega) hm hc hx (fun ed hed => ⟨(hes ed hed).1, (hes ed hed).2.1⟩) hsz hgr hfree hdl hu'
      (resolved_pts hx (fun ed hed => ⟨(hes ed hed).1, (hes ed hed).2.1⟩) hgr hfree hu) h3
    refine ⟨la, lb, fun fuel' al be h3' => ?_, Or.inr b2.lengths, fun l hl t ht => ?_⟩
    · have h4 := symplecticBasis_mono _ (le_max_left fuel fuel') h3
      have h5 := symplecticBasis_mono _ (le_max_right fuel fuel') h3'
      obtain ⟨a1, a2⟩ := Prod.mk.inj (Res.ok.inj (h5.symm.trans h4))
      exact ⟨a1, a2, b2.lengths.1, b2.lengths.2⟩
    · obtain ⟨-, w1, w2⟩ := (b2.terms l hl).1 t ht
      exact ⟨w1, by omega⟩
  obtain ⟨hlp, hll, hT⟩ := hlp
  refine ⟨tr, data, storedY m n data u, la, lb, ht, hd, hsz, hn', hgr, hfree, hdl, ⟨u, hu, rfl⟩, fun fuel al be h => ⟨(hlp fuel al be h).1, (hlp fuel al be h).2.1⟩, hbr, htot, H, fun r k i j hr hk hij => ?_, fun prec fuel out hrun => ?_⟩
  swap
  · obtain ⟨r1, r2, r0, r3, -⟩ := ajRun_ok hrun
    obtain ⟨hip, I, hI, hint, r5, -⟩ := r3 hni
    obtain ⟨htr, hdt⟩ : out.tree = tr ∧ out.data = data := by
      unfold ajTree at r1
      simp only [Res.bind_eq_ok] at r1
      obtain ⟨tr', q1, ex, q2, ip', q3, cp, q4, _, q5, data', q6, q7⟩ := r1
      simp only [Res.ok.injEq, Prod.mk.injEq] at q7
      obtain ⟨rfl, -, rfl⟩ := q7
      have hapx : (fun k => (idealDe x lam sort ord lam m2).approx ((idealDe x lam sort ord lam m2).roots 64 k)) = x := funext fun k => pick_singleton _
      rw [hapx, hty, hcn] at q1
      obtain rfl := Res.ok.inj (ht.symm.trans q1)
      rw [hcn, hcm] at q6
      exact ⟨rfl, (Res.ok.inj (hd.symm.trans q6)).symm⟩
    rw [r2, hty, htr, hdt] at hint
    rw [htr, hdt, hcm] at r0
    obtain ⟨ea, eb, l1, l2⟩ := hlp _ _ _ r0
    refine ⟨htr, hdt, hip, ⟨fuel, by rw [← ea, ← eb]; exact r0⟩, ea, eb, l1, l2, I, hI, hint, fun hA => ?_⟩
    obtain ⟨p0, p1, j1, j2, j3, -⟩ := r5 hA
    have htrim : ∀ om, trimIf (idealDe x lam sort ord lam m2) flag om = om := by
      intro om
      unfold trimIf
      split <;> rfl
    rw [htrim, htrim] at j3
    rw [htr, hn', ea] at j1
    rw [htr, hn', eb] at j2
    exact ⟨p0, p1, j3, j1, j2⟩
  -- the periods
  have hK : ∀ k' r' : Nat, ∃ K : ℝ, ∀ ed, tr.e[k']? = some ed → r' < c.shape.g → ∀ (prec : Int) (fuel : Nat) (I : Nat → Nat → Set ℂ), 2 ≤ prec →
      ajIntegrals (idealDe x lam sort ord lam m2) fuel c.shape flag prec .de tr.e data = .ok I →
        (∀ w ∈ I k' r', ‖w - cycleIntM m (x ed.a) (x ed.b) (diffOf c.shape.ni c.shape.j1 r').1 (diffOf c.shape.ni c.shape.j1 r').2 (storedY m n data u k') 0‖ ≤ K * deRate m (diffOf c.shape.ni c.shape.j1 r').2 prec) ∧
          ((∀ ρ, 0 ≤ m2 ρ) → (I k' r').Nonempty) := by
    intro k' r'
    by_cases h : k' < tr.e.length ∧ r' < c.shape.g
    · obtain ⟨K, hK⟩ := H k' r' _ _ _ (List.getElem?_eq_getElem h.1) h.2 rfl
      refine ⟨K, fun ed hed _ prec fuel I hp hI => ?_⟩
      obtain rfl := Option.some.inj ((List.getElem?_eq_getElem h.1).symm.trans hed)
      exact hK prec fuel I hp hI
    · exact ⟨0, fun ed hed hr' => absurd ⟨(List.getElem?_eq_some_iff.1 hed).1, hr'⟩ h⟩
  choose K hK using hK
  let KK : Nat → ℝ := fun r' => ∑ k' ∈ Finset.range tr.e.length, |K k' r'|
  have hKK0 : ∀ r', 0 ≤ KK r' := fun r' => Finset.sum_nonneg fun _ _ => abs_nonneg _
  have hKle : ∀ k' r', k' < tr.e.length → K k' r' ≤ KK r' := fun k' r' h => (le_abs_self _).trans (Finset.single_le_sum (f := fun k' => |K k' r'|) (fun _ _ => abs_nonneg _) (Finset.mem_range.2 h))
  let S : List (List Gamma) → ℝ := fun l => ((l.getD k []).map fun t => |(t.coeff : ℝ)|).sum
  have hS0 : ∀ l, 0 ≤ S l := fun l => List.sum_nonneg fun a ha => by
    obtain ⟨t, -, rfl⟩ := List.mem_map.1 ha
    exact abs_nonneg _
  refine ⟨2 * KK r * (S la + S lb), fun prec fuel I om0 om1 hp hI j1 j2 => ?_⟩
  let δ : Nat → ℝ := fun r' => KK r' * deRate m (diffOf c.shape.ni c.shape.j1 r').2 prec
  have hδ0 : ∀ r', 0 ≤ δ r' := fun r' => mul_nonneg (hKK0 r') (deRate_pos _ _ _).le
  have hδ : ∀ (k' r' i' j' : Nat) (ed : Edge ℝ), tr.e[k']? = some ed → r' < c.shape.g → diffOf c.shape.ni c.shape.j1 r' = (i', j') → ∀ w ∈ I k' r', ‖w - cycleIntM m (x ed.a) (x ed.b) i' j' (storedY m n data u k') 0‖ ≤ δ r' := by
    intro k' r' i' j' ed hed hr' hij' w hw
    have := ((hK k' r' ed hed hr' prec fuel I hp hI).1 w hw).trans (mul_le_mul_of_nonneg_right (hKle k' r' (List.getElem?_eq_some_iff.1 hed).1) (deRate_pos _ _ _).le)
    rw [hij'] at this
    show _ ≤ KK r' * deRate m (diffOf c.shape.ni c.shape.j1 r').2 prec
    rw [hij']
    exact this
  have hδr : δ r = KK r * 2 ^ (-((m - j) / (m - 1) * prec : ℝ)) := by
    show KK r * deRate m (diffOf c.shape.ni c.shape.j1 r).2 prec = _
    rw [hij]
    rfl
  obtain ⟨la1, lb1⟩ : la.length = c.shape.g ∧ lb.length = c.shape.g := by
    refine hll.resolve_left fun h => ?_
    obtain ⟨g', hg'⟩ : ∃ g', c.shape.g = g' + 1 := ⟨c.shape.g - 1, by omega⟩
    rw [h] at j1
    unfold periodMatrix at j1
    rw [hg'] at j1
    unfold periodRows at j1
    cases j1
  obtain ⟨p2, p3⟩ := periods_near (by omega) hc hδ0 hδ la1 (fun l hl => hT l (List.mem_append_left _ hl)) j1 hr hk hij
  obtain ⟨p4, p5⟩ := periods_near (by omega) hc hδ0 hδ lb1 (fun l hl => hT l (List.mem_append_right _ hl)) j2 hr hk hij
  rw [hδr] at p2 p4
  have hne : (∀ ρ, 0 ≤ m2 ρ) → ∀ k' < tr.e.length, ∀ r' < c.shape.g, (I k' r').Nonempty := fun h2 k' hk' r' hr' => (hK k' r' _ (List.getElem?_eq_getElem hk') hr' prec fuel I hp hI).2 h2
  have hfin : ∀ s t : ℝ, 0 ≤ t → 2 * (KK r * 2 ^ (-((m - j) / (m - 1) * prec : ℝ))) * s ≤ 2 * KK r * (s + t) * 2 ^ (-((m - j) / (m - 1) * prec : ℝ)) := by
    intro s t h
    have h1 : (0 : ℝ) ≤ 2 ^ (-((m - j) / (m - 1) * prec : ℝ)) := (Real.rpow_pos_of_pos two_pos _).le
    have h2 := hKK0 r
    generalize (2 : ℝ) ^ (-((m - j) / (m - 1) * prec : ℝ)) = ρ at h1 ⊢
    have : 0 ≤ 2 * KK r * t * ρ := by positivity
    linarith [this, show 2 * KK r * (s + t) * ρ = 2 * (KK r * ρ) * s + 2 * KK r * t * ρ by ring]
  refine ⟨fun w hw => (p2 w hw).trans (hfin _ _ (hS0 lb)), fun w hw => (p4 w hw).trans ?_, fun h2 => ⟨p3 (hne h2), p5 (hne h2)⟩⟩
  rw [add_comm (S la)]
  exact hfin _ _ (hS0 la)

/-- **C85.** Take `n ≥ 3` distinct branch points known exactly, an exponent `m ≥ 2`, and options which select the double-exponential rule (the default for `m, n > 2`), with or without `AJ_DE_SAME`.  There are a tree with the data of its
edges, lists of loops `la` and `lb` and, on each edge of the tree, a determination `Y` of `y` such that:

* the integration of the tree returns at every precision;
* for each edge and each differential `x^i dx / y^j` there is a constant `K` with: at every precision (without an upper bound), all points of the cell computed are at distance at most `K 2^(-(m-j)/(m-1) prec)` of the integral of the
  differential over the closed path which goes along the edge on `Y` and comes back on the next sheet;
* for each differential `x^i dx / y^j` and each `k` there is a constant `K` with: at every precision, all points of the entries of the matrices of periods of `la` and `lb` are at distance at most `K 2^(-(m-j)/(m-1) prec)` of the integral
  of the differential over loop number `k` of `la`, respectively of `lb`;
* every run of `abel_jacobi_compute` which returns has this tree, these loops, the integrals computed at the precision `intprec` and the matrices of periods computed from them.

The cells and the entries are not empty when the bounds `m2` are not negative. -/
theorem C85_converges (hs : SortsByR sort) (ho : OrdersByR ord) {lam : ℝ} (hlam : 0 < lam) (hlam2 : lam ≤ Real.pi / 2) (m2 : ℝ → ℝ) {m n : Nat} (hm : 2 ≤ m) (hn : 3 ≤ n) (hx : InjOn x (Iio n))
    {c : Sec} (hc : secInit m n = .ok c) {flag : Nat} (hty : intType flag c.m c.n = .de) (hni : flag &&& ajNoInt = 0) (hroot : RootsDefault flag n) :
    ∃ (tr : Tree ℝ) (data : List (YData (Set ℂ))) (Y : Nat → ℝ → ℂ) (la lb : List (List Gamma)), TreeSize m n tr.e.length ∧
      (∀ (k : Nat) (ed : Edge ℝ), tr.e[k]? = some ed → ed.a < n ∧ ed.b < n ∧ ed.a ≠ ed.b ∧ IsBranchM m n x (x ed.a) (x ed.b) (Y k)) ∧
      (∀ (prec : Int) (fuel : Nat), 2 ≤ prec → ∃ I, ajIntegrals (idealDe x lam sort ord lam m2) fuel c.shape flag prec .de tr.e data = .ok I) ∧
      (∀ (k r i j : Nat) (ed : Edge ℝ), tr.e[k]? = some ed → r < c.shape.g → diffOf c.shape.ni c.shape.j1 r = (i, j) →
        ∃ K : ℝ, ∀ (prec : Int) (fuel : Nat) (I : Nat → Nat → Set ℂ), 2 ≤ prec → ajIntegrals (idealDe x lam sort ord lam m2) fuel c.shape flag prec .de tr.e data = .ok I →
          (∀ w ∈ I k r, ‖w - cycleIntM m (x ed.a) (x ed.b) i j (Y k) 0‖ ≤ K * 2 ^ (-((m - j) / (m - 1) * prec : ℝ))) ∧ ((∀ ρ, 0 ≤ m2 ρ) → (I k r).Nonempty)) ∧
      (∀ r k i j : Nat, r < c.shape.g → k < c.shape.g → diffOf c.shape.ni c.shape.j1 r = (i, j) →
        ∃ K : ℝ, ∀ (prec : Int) (fuel : Nat) (I om0 om1 : Nat → Nat → Set ℂ), 2 ≤ prec → ajIntegrals (idealDe x lam sort ord lam m2) fuel c.shape flag prec .de tr.e data = .ok I →
          periodMatrix setArith c.shape la tr.e.length I = .ok om0 → periodMatrix setArith c.shape lb tr.e.length I = .ok om1 →
            (∀ w ∈ om0 r k, ‖w - loopPeriodM m x tr.e Y i j (la.getD k [])‖ ≤ K * 2 ^ (-((m - j) / (m - 1) * prec : ℝ))) ∧
            (∀ w ∈ om1 r k, ‖w - loopPeriodM m x tr.e Y i j (lb.getD k [])‖ ≤ K * 2 ^ (-((m - j) / (m - 1) * prec : ℝ))) ∧
            ((∀ ρ, 0 ≤ m2 ρ) → (om0 r k).Nonempty ∧ (om1 r k).Nonempty)) ∧
      ∀ (prec : Int) (fuel : Nat) (out : AjOut (Set ℂ) ℝ setMat c.shape.g), ajRun (idealDe x lam sort ord lam m2) fuel c flag prec (treeInit (WOps.ofOrder (-1)) (treeEdges c).toNat) = .ok out →
        out.tree = tr ∧ out.data = data ∧ 2 ≤ out.intprec ∧ out.loopA = la ∧ out.loopB = lb ∧ la.length = c.shape.g ∧ lb.length = c.shape.g ∧
          ∃ I, out.integrals = some I ∧ ajIntegrals (idealDe x lam sort ord lam m2) fuel c.shape flag out.intprec .de tr.e data = .ok I ∧
            (flag &&& ajNoAb = 0 → ∃ om0 om1, out.omega = some (om0, om1) ∧ periodMatrix setArith c.shape la tr.e.length I = .ok om0 ∧ periodMatrix setArith c.shape lb tr.e.length I = .ok om1) := by
  obtain ⟨tr, data, Y, la, lb, -, -, h1, -, -, -, -, -, -, h2, h3, h4, h5, h6⟩ := de_all (x := x) hs ho hlam hlam2 m2 hm hn hx hc hty hni hroot
  refine ⟨tr, data, Y, la, lb, h1, h2, h3, h4, h5, fun prec fuel out hrun => ?_⟩
  obtain ⟨k1, k2, k3, -, k4⟩ := h6 prec fuel out hrun
  exact ⟨k1, k2, k3, k4⟩

/-- The curve `y^3 = ∏ (x - x_k)` over the equilateral triangle with the default options (without the matrix `tau`): the runs return, the cells for `dx / y^2` on the first edge shrink to the integral like `2^(-intprec / 2)`, and so does the
entry of the first matrix of periods for the first loop. -/
example (m2 : ℝ → ℝ) (h2 : ∀ ρ, 0 ≤ m2 ρ) : ∃ (c : Sec) (tr : Tree ℝ) (ed : Edge ℝ) (Y : Nat → ℝ → ℂ) (lp : List Gamma) (K K' : ℝ) (extra : Int), secInit (3 : Nat) (3 : Nat) = .ok c ∧ tr.e[0]? = some ed ∧ ed.a ≠ ed.b ∧
    IsBranchM 3 3 tri (tri ed.a) (tri ed.b) (Y 0) ∧ ∀ ip : Nat, 2 ≤ ip → (ip : Int) < 2 ^ 62 → ∃ (out : AjOut (Set ℂ) ℝ setMat c.shape.g) (I om0 om1 : Nat → Nat → Set ℂ),
      ajRun (idealDe tri (Real.pi / 2) sortByR orderByR (Real.pi / 2) m2) 1 c ajNoTau (ip - extra) (treeInit (WOps.ofOrder (-1)) (treeEdges c).toNat) = .ok out ∧ out.integrals = some I ∧ out.omega = some (om0, om1) ∧
        (I 0 0).Nonempty ∧ (om0 0 0).Nonempty ∧ (∀ w ∈ I 0 0, ‖w - cycleIntM 3 (tri ed.a) (tri ed.b) 0 2 (Y 0) 0‖ ≤ K * 2 ^ (-((3 - 2) / (3 - 1) * ip : ℝ))) ∧
          ∀ w ∈ om0 0 0, ‖w - loopPeriodM 3 tri tr.e Y 0 2 lp‖ ≤ K' * 2 ^ (-((3 - 2) / (3 - 1) * ip : ℝ)) := by
  obtain ⟨c, hc, hg, hd, hty⟩ : ∃ c, secInit (3 : Nat) (3 : Nat) = .ok c ∧ 0 < c.shape.g ∧ diffOf c.shape.ni c.shape.j1 0 = (0, 2) ∧ intType ajNoTau c.m c.n = .de := ⟨_, rfl, by decide, by decide, by decide⟩
  have hroot : RootsDefault ajNoTau 3 := Or.inr (Or.inr ⟨by decide, by decide⟩)
  obtain ⟨tr, data, Y, la, lb, h1, h3, -, H, H', HR⟩ := C85_converges (x := tri) sortByR_sorts orderByR_orders (by positivity : 0 < Real.pi / 2) le_rfl m2 (by norm_num : 2 ≤ 3) le_rfl tri_inj hc hty (by decide) hroot
  obtain ⟨tr', extra, -, -, -, -, -, cc, Y', ca, cb, P, -, -, -, -, hrun⟩ := C79_returns (x := tri) sortByR_sorts orderByR_orders.perm (by positivity : Real.pi / 2 ≠ 0) (by positivity : 0 < Real.pi / 2) le_rfl m2
    (by norm_num : 2 ≤ 3) (by norm_num) (by norm_num) tri_inj hc hty (by decide) hroot
  obtain ⟨ed, hed⟩ : ∃ ed, tr.e[0]? = some ed := ⟨_, List.getElem?_eq_getElem (by have := h1.1 (dvd_refl 3); omega)⟩
  obtain ⟨K, hK⟩ := H 0 0 0 2 ed hed hg hd
  obtain ⟨K', hK'⟩ := H' 0 0 0 2 hg hg hd
  refine ⟨c, tr, ed, Y, la.getD 0 [], K, K', extra, hc, hed, (h3 0 ed hed).2.2.1, (h3 0 ed hed).2.2.2, fun ip hip hip2 => ?_⟩
  obtain ⟨out, -, o1, -, o2, -, -⟩ := (hrun (ip - extra) ip 1 (by omega) hip hip2 le_rfl).1 (Or.inl (by norm_num)) (Or.inr ⟨Or.inl (by norm_num), by decide⟩)
  obtain ⟨-, -, k0, -, -, -, -, I, k1, k2, k3⟩ := HR _ _ _ o1
  obtain ⟨om0, om1, k4, k5, k6⟩ := k3 (by decide)
  obtain ⟨a1, a2⟩ := hK _ _ _ k0 k2
  obtain ⟨b1, -, b2⟩ := hK' _ _ _ _ _ k0 k2 k5 k6
  rw [o2] at a1 b1
  exact ⟨out, I, om0, om1, o1, k1, k4, a2 h2, (b2 h2).1, fun w hw => by exact_mod_cast a1 w hw, fun w hw => by exact_mod_cast b1 w hw⟩

end Hcp
