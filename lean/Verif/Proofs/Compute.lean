import Verif.Model.Compute
import Verif.Proofs.SympRank
import Verif.Props.GcEdge
import Verif.Props.DeEdge

/-!
# Runs of `abel_jacobi_compute`
-/

namespace Hcp

variable {A B C W : Type} {O : MatOps}

/-- more passes do not change the basis -/
theorem symplecticBasis_mono (xg : XGcd) {fuel fuel' : Nat} (hle : fuel ≤ fuel') {o : ShiftOracle} {es : List (Edge W)} {m g : Nat} {r : List (List Gamma) × List (List Gamma)}
    (h : symplecticBasis xg fuel o es m g = .ok r) : symplecticBasis xg fuel' o es m g = .ok r := by
  unfold symplecticBasis at h ⊢
  rw [Res.bind_eq_ok] at h ⊢
  obtain ⟨c, h1, h⟩ := h
  refine ⟨c, h1, ?_⟩
  rw [Res.bind_eq_ok] at h ⊢
  obtain ⟨st, h2, h3⟩ := h
  exact ⟨st, reduceLoop_mono xg hle h2, h3⟩

/-- a basis is computed from an intersection matrix -/
theorem symplecticBasis_tree {xg : XGcd} {fuel : Nat} {o : ShiftOracle} {es : List (Edge W)} {m g : Nat} {r : List (List Gamma) × List (List Gamma)}
    (h : symplecticBasis xg fuel o es m g = .ok r) : ∃ cc, intersectionTree o es m = .ok cc := by
  unfold symplecticBasis at h
  rw [Res.bind_eq_ok] at h
  obtain ⟨c, h1, -⟩ := h
  exact ⟨c, h1⟩

theorem slongAsFmpz_range {c d : Int} (h : slongAsFmpz c = .ok d) : -(2 ^ 62) < c ∧ c < 2 ^ 62 := by
  unfold slongAsFmpz at h
  split at h
  · cases h
  · split at h
    · cases h
    · omega

theorem addTerms_coeff {X : Arith A} {c : Shape} {rows : Nat} {I : Nat → Nat → A} : ∀ {lp : List Gamma} {x y : Nat → A}, addTerms X c rows I lp x = .ok y →
    ∀ t ∈ lp, -(2 ^ 62) < t.coeff ∧ t.coeff < 2 ^ 62
  | [], _, _, _, t, ht => by cases ht
  | s :: lp, x, y, h, t, ht => by
    unfold addTerms at h
    rw [Res.bind_eq_ok] at h
    obtain ⟨x1, h1, h2⟩ := h
    rcases List.mem_cons.1 ht with rfl | ht
    · unfold addTerm at h1
      split at h1
      · rw [Res.bind_eq_ok] at h1
        obtain ⟨d, h3, -⟩ := h1
        exact slongAsFmpz_range h3
      · cases h1
    · exact addTerms_coeff h2 t ht

theorem periodRows_coeff {X : Arith A} {c : Shape} {rows : Nat} {I : Nat → Nat → A} : ∀ {cnt k : Nat} {basis : List (List Gamma)} {om : List (Nat → A)},
    periodRows X c rows I cnt k basis = .ok om → basis.length ≤ cnt → ∀ lp ∈ basis, ∀ t ∈ lp, -(2 ^ 62) < t.coeff ∧ t.coeff < 2 ^ 62
  | _, _, [], _, _, _, lp, hl => by cases hl
  | 0, _, _ :: _, _, _, hlen, _, _ => by simp at hlen
  | cnt + 1, k, b :: basis, om, h, hlen, lp, hl => by
    unfold periodRows at h
    rw [Res.bind_eq_ok] at h
    obtain ⟨row, h1, h⟩ := h
    rw [Res.bind_eq_ok] at h
    obtain ⟨rest, h2, -⟩ := h
    rcases List.mem_cons.1 hl with rfl | hl
    · exact addTerms_coeff h1
    · exact periodRows_coeff h2 (by simpa using hlen) lp hl

/-- when the period matrix of `g` loops is computed, all coefficients are small -/
theorem periodMatrix_coeff {X : Arith A} {c : Shape} {rows : Nat} {I : Nat → Nat → A} {basis : List (List Gamma)} {om : Nat → Nat → A}
    (h : periodMatrix X c basis rows I = .ok om) (hlen : basis.length ≤ c.g) : ∀ lp ∈ basis, ∀ t ∈ lp, -(2 ^ 62) < t.coeff ∧ t.coeff < 2 ^ 62 := by
  unfold periodMatrix at h
  rw [Res.bind_eq_ok] at h
  obtain ⟨om', h1, -⟩ := h
  exact periodRows_coeff h1 hlen

/-- the parameters of the edges visited by `integrals_tree_gc` are computed -/
theorem treeGc_params {V : AjEnv A B C W O} {fuel : Nat} {c : Shape} {flag : Nat} {prec : Int} {data : List (YData A)} : ∀ {ks : List Nat} {gc : GcInt A} {I I' : Nat → Nat → A},
    treeGc V fuel c flag prec data ks gc I = .ok I' → ∀ k ∈ ks, ∀ yd, data[k]? = some yd → ∃ p, gcParams V.par V.dbl fuel (pointsOf c.n yd) c.g prec = .ok p
  | [], _, _, _, _, k, hk, _, _ => by cases hk
  | l :: ks, gc, I, I', h, k, hk, yd, hd => by
    unfold treeGc at h
    cases hl : data[l]? with
    | none => rw [hl] at h; cases h
    | some ye =>
    rw [hl] at h
    simp only [Res.bind_eq_ok] at h
    obtain ⟨p, h1, h2⟩ := h
    rcases List.mem_cons.1 hk with rfl | hk
    · obtain rfl := Option.some.inj (hl.symm.trans hd)
      exact ⟨p, h1⟩
    · split at h2
      · cases h2
      · rw [Res.bind_eq_ok] at h2
        obtain ⟨s, -, h3⟩ := h2
        exact treeGc_params h3 k hk yd hd

/-- `integrals_tree_gc` with the parameters it computes -/
theorem treeGc_run {V : AjEnv A B C W O} {fuel : Nat} {c : Shape} {flag : Nat} {prec : Int} {data : List (YData A)} {par : Nat → GcPar} :
    ∀ {ks : List Nat} {gc : GcInt A} {I I' : Nat → Nat → A}, treeGc V fuel c flag prec data ks gc I = .ok I' →
    (∀ k ∈ ks, ∀ yd, data[k]? = some yd → gcParams V.par V.dbl fuel (pointsOf c.n yd) c.g prec = .ok (par k)) →
    integralsTreeGc (V.ar prec) (V.tests prec) (V.fns prec) c flag data (fun k => (par k).n.toNat) (fun k => V.addErr (par k).e) ks gc I = .ok I'
  | [], _, _, _, h, _ => h
  | l :: ks, gc, I, I', h, hp => by
    unfold treeGc at h
    unfold integralsTreeGc
    cases hl : data[l]? with
    | none => rw [hl] at h; cases h
    | some ye =>
    rw [hl] at h
    simp only [Res.bind_eq_ok] at h
    obtain ⟨p, h1, h2⟩ := h
    obtain rfl : p = par l := Res.ok.inj (h1.symm.trans (hp l List.mem_cons_self ye hl))
    split at h2
    · cases h2
    · rw [Res.bind_eq_ok] at h2 ⊢
      obtain ⟨s, h3, h4⟩ := h2
      exact ⟨s, h3, treeGc_run h4 fun k hk => hp k (List.mem_cons_of_mem _ hk)⟩

/-- conversely, the run with given parameters is the one of `integrals_tree_gc` when they are those computed -/
theorem treeGc_of_run {V : AjEnv A B C W O} {fuel : Nat} {c : Shape} {flag : Nat} {prec : Int} {data : List (YData A)} {par : Nat → GcPar} {err : Nat → A → A} :
    ∀ {ks : List Nat} {gc : GcInt A} {I I' : Nat → Nat → A},
    integralsTreeGc (V.ar prec) (V.tests prec) (V.fns prec) c flag data (fun k => (par k).n.toNat) err ks gc I = .ok I' →
    (∀ k ∈ ks, ∀ yd, data[k]? = some yd → gcParams V.par V.dbl fuel (pointsOf c.n yd) c.g prec = .ok (par k) ∧ 0 ≤ (par k).n ∧ err k = V.addErr (par k).e) →
    treeGc V fuel c flag prec data ks gc I = .ok I'
  | [], _, _, _, h, _ => h
  | l :: ks, gc, I, I', h, hp => by
    unfold integralsTreeGc at h
    unfold treeGc
    cases hl : data[l]? with
    | none => rw [hl] at h; cases h
    | some ye =>
    rw [hl] at h
    obtain ⟨h1, h2, h3⟩ := hp l List.mem_cons_self ye hl
    simp only [Res.bind_eq_ok] at h ⊢
    refine ⟨par l, h1, ?_⟩
    rw [if_neg (by omega), Res.bind_eq_ok]
    obtain ⟨s, h4, h5⟩ := h
    rw [h3] at h4
    exact ⟨s, h4, treeGc_of_run h5 fun k hk => hp k (List.mem_cons_of_mem _ hk)⟩

/-- Every row of `integrals_tree_de` is computed with the scheme made from the parameters of one of the edges. -/
theorem treeDe_rows {V : AjEnv A B C W O} {c : Shape} {flag : Nat} {prec : Int} {data : List (YData A)} {ks : List Nat} (hnd : ks.Nodup) {de0 : DeInt A} (h0 : de0.n = 0)
    {I I' : Nat → Nat → A} (h : treeDe V c flag prec data ks de0 I = .ok I') :
    (∀ k ∉ ks, I' k = I k) ∧ ∀ k ∈ ks, ∃ (ye yj : YData A) (j : Nat) (p : DePar A) (de : DeInt A) (r : Nat → A), data[k]? = some ye ∧ j ∈ ks ∧ data[j]? = some yj ∧
      V.dePar (pointsOf c.n yj) (c.n - 1) c.j1 c.m prec = .ok p ∧ deIntInit (V.ar prec) (V.fns prec) p.h p.lam p.n p.err c.m = .ok de ∧
      deIntegralsPrecomp (V.ar prec) (V.tests prec) (c.n + 3) ye.u ye.n1 (c.n - 2) c de flag (decide (1000 < prec) && decide (5 < c.n - 2)) = .ok r ∧
      edgeFactors (V.ar prec) c ye.ba2 ye.ab ye.c (fun i => if i < c.g then de.err (r i) else r i) = .ok (I' k) := by
  have gen : ∀ (ls : List Nat), (∀ l ∈ ls, l ∈ ks) → ls.Nodup → ∀ (I I' : Nat → Nat → A) (de : DeInt A),
      (de.n = 0 ∨ ∃ (yj : YData A) (j : Nat) (p : DePar A), j ∈ ks ∧ data[j]? = some yj ∧ V.dePar (pointsOf c.n yj) (c.n - 1) c.j1 c.m prec = .ok p ∧
        deIntInit (V.ar prec) (V.fns prec) p.h p.lam p.n p.err c.m = .ok de) → treeDe V c flag prec data ls de I = .ok I' →
      (∀ k ∉ ls, I' k = I k) ∧ ∀ k ∈ ls, ∃ (ye yj : YData A) (j : Nat) (p : DePar A) (de : DeInt A) (r : Nat → A), data[k]? = some ye ∧ j ∈ ks ∧ data[j]? = some yj ∧
        V.dePar (pointsOf c.n yj) (c.n - 1) c.j1 c.m prec = .ok p ∧ deIntInit (V.ar prec) (V.fns prec) p.h p.lam p.n p.err c.m = .ok de ∧
        deIntegralsPrecomp (V.ar prec) (V.tests prec) (c.n + 3) ye.u ye.n1 (c.n - 2) c de flag (decide (1000 < prec) && decide (5 < c.n - 2)) = .ok r ∧
        edgeFactors (V.ar prec) c ye.ba2 ye.ab ye.c (fun i => if i < c.g then de.err (r i) else r i) = .ok (I' k) := by
    intro ls
    induction ls with
    | nil =>
      intro _ _ I I' de _ h
      simp only [treeDe, Res.ok.injEq] at h
      exact ⟨fun k _ => by rw [h], by simp⟩
    | cons l ls ih =>
      intro hks hnd I I' de hde h
      unfold treeDe at h
      cases hl : data[l]? with
      | none => rw [hl] at h; cases h
      | some ye =>
      rw [hl] at h
      simp only [Res.bind_eq_ok] at h
      obtain ⟨p, h1, ⟨de1, row⟩, h2, h3⟩ := h
      obtain ⟨hln, hnd'⟩ := List.nodup_cons.1 hnd
      unfold integralsEdgeDe at h2
      simp only [Res.bind_eq_ok] at h2
      obtain ⟨de1', h4, r, h5, row', h6, h7⟩ := h2
      obtain ⟨rfl, rfl⟩ := Prod.mk.inj (Res.ok.inj h7)
      have hinv : ∃ (yj : YData A) (j : Nat) (p : DePar A), j ∈ ks ∧ data[j]? = some yj ∧ V.dePar (pointsOf c.n yj) (c.n - 1) c.j1 c.m prec = .ok p ∧
          deIntInit (V.ar prec) (V.fns prec) p.h p.lam p.n p.err c.m = .ok de1' := by
        unfold deScheme at h4
        split at h4
        · rename_i hc
          rw [Bool.and_eq_true] at hc
          unfold deParIf at h1
          rw [if_pos hc.1] at h1
          exact ⟨ye, l, p, hks l List.mem_cons_self, hl, h1, h4⟩
        · rename_i hc
          obtain rfl := Res.ok.inj h4
          rcases hde with hde | hde
          · exfalso
            apply hc
            rw [hde]
            simp [deReplace]
          · exact hde
      obtain ⟨k1, k2⟩ := ih (fun k hk => hks k (List.mem_cons_of_mem _ hk)) hnd' _ _ _ (Or.inr hinv) h3
      refine ⟨fun k hk => ?_, fun k hk => ?_⟩
      · rw [k1 k fun h => hk (List.mem_cons_of_mem _ h)]
        exact if_neg fun h : k = l => hk (h ▸ List.mem_cons_self)
      · rcases List.mem_cons.1 hk with rfl | hk
        · obtain ⟨yj, j, q, q1, q2, q3, q4⟩ := hinv
          refine ⟨ye, yj, j, q, de1', r, hl, q1, q2, q3, q4, h5, ?_⟩
          rw [k1 k hln]
          simpa using h6
        · exact k2 k hk
  exact gen ks (fun _ h => h) hnd I I' de0 (Or.inl h0) h

/-- conversely, the run with given parameters is the one of `integrals_tree_de` when they are those computed -/
theorem treeDe_of_run {V : AjEnv A B C W O} {c : Shape} {flag : Nat} {prec : Int} {data : List (YData A)} {par : Nat → DePar A} :
    ∀ {ks : List Nat} {de : DeInt A} {I I' : Nat → Nat → A},
    integralsTreeDe (V.ar prec) (V.tests prec) (V.fns prec) c flag (decide (1000 < prec) && decide (5 < c.n - 2)) data par ks de I = .ok I' →
    (∀ k ∈ ks, ∀ yd, data[k]? = some yd → V.dePar (pointsOf c.n yd) (c.n - 1) c.j1 c.m prec = .ok (par k)) → treeDe V c flag prec data ks de I = .ok I'
  | [], _, _, _, h, _ => h
  | l :: ks, de, I, I', h, hp => by
    unfold integralsTreeDe at h
    unfold treeDe
    cases hl : data[l]? with
    | none => rw [hl] at h; cases h
    | some ye =>
    rw [hl] at h
    have h1 := hp l List.mem_cons_self ye hl
    simp only [Res.bind_eq_ok] at h ⊢
    obtain ⟨s, h4, h5⟩ := h
    unfold deParIf
    by_cases hc : (decide (de.n = 0) || !flag.testBit 8) = true
    · rw [if_pos hc]
      exact ⟨par l, h1, s, h4, treeDe_of_run h5 fun k hk => hp k (List.mem_cons_of_mem _ hk)⟩
    · rw [if_neg hc]
      refine ⟨_, rfl, s, ?_, treeDe_of_run h5 fun k hk => hp k (List.mem_cons_of_mem _ hk)⟩
      have hs : ∀ q, deScheme (V.ar prec) (V.fns prec) c flag q de = .ok de := by
        intro q
        unfold deScheme
        rw [if_neg]
        rw [Bool.and_eq_true]
        exact fun h => hc h.1
      unfold integralsEdgeDe at h4 ⊢
      rw [hs] at h4 ⊢
      exact h4

theorem arbPrec_ok {p : Int} {v : Unit} (h : arbPrec p = .ok v) : 2 ≤ p := by
  unfold arbPrec at h
  split at h
  · cases h
  · omega

theorem arbPrec_of {p : Int} (h : 2 ≤ p) : arbPrec p = .ok () := if_neg (by omega)

/-- the steps of a run which returns -/
theorem ajRun_ok {V : AjEnv A B C W O} {fuel : Nat} {c : Sec} {flag : Nat} {prec : Int} {tr0 : Tree W} {out : AjOut A W O c.shape.g} (h : ajRun V fuel c flag prec tr0 = .ok out) :
    ajTree V c flag prec tr0 = .ok (out.tree, out.intprec, out.data) ∧ out.type = intType flag c.m c.n ∧
    symplecticBasis V.xgcd fuel (shiftOracle (V.ar 64) (V.tests 64) out.data c.shape.m) out.tree.e c.shape.m c.shape.g = .ok (out.loopA, out.loopB) ∧
    (flag &&& ajNoInt = 0 → 2 ≤ out.intprec ∧ ∃ I, out.integrals = some I ∧ ajIntegrals V fuel c.shape flag out.intprec out.type out.tree.e out.data = .ok I ∧
      (flag &&& ajNoAb = 0 → ∃ om0 om1, periodMatrix (V.ar out.intprec) c.shape out.loopA out.tree.n I = .ok om0 ∧ periodMatrix (V.ar out.intprec) c.shape out.loopB out.tree.n I = .ok om1 ∧
        out.omega = some (trimIf V flag om0, trimIf V flag om1) ∧
        (flag &&& ajNoTau = 0 → ∃ t, tauMatrix O (n := c.shape.g) (m := c.shape.g) (V.mat (trimIf V flag om0)) (V.mat (trimIf V flag om1)) = .ok t ∧
          out.tau = some (if flag &&& ajTrim ≠ 0 then V.trimTau t else t)) ∧ (flag &&& ajNoTau ≠ 0 → out.tau = none)) ∧
      (flag &&& ajNoAb ≠ 0 → out.omega = none ∧ out.tau = none)) ∧
    (flag &&& ajNoInt ≠ 0 → out.integrals = none ∧ out.omega = none ∧ out.tau = none) := by
  unfold ajRun at h
  simp only [Res.bind_eq_ok] at h
  obtain ⟨⟨tr, intprec, data⟩, h1, ⟨al, be⟩, h2, h3⟩ := h
  simp only at h2 h3
  by_cases hI : flag &&& ajNoInt = 0
  swap
  · rw [if_pos hI] at h3
    obtain rfl := Res.ok.inj h3
    exact ⟨h1, rfl, h2, fun h => absurd h hI, fun _ => ⟨rfl, rfl, rfl⟩⟩
  rw [if_neg (not_not.2 hI), Res.bind_eq_ok] at h3
  obtain ⟨_, h30, h3⟩ := h3
  rw [Res.bind_eq_ok] at h3
  obtain ⟨I, h4, h5⟩ := h3
  have hip := arbPrec_ok h30
  by_cases hA : flag &&& ajNoAb = 0
  swap
  · rw [if_pos hA] at h5
    obtain rfl := Res.ok.inj h5
    exact ⟨h1, rfl, h2, fun _ => ⟨hip, I, rfl, h4, fun h => absurd h hA, fun _ => ⟨rfl, rfl⟩⟩, fun h => absurd hI h⟩
  rw [if_neg (not_not.2 hA), Res.bind_eq_ok] at h5
  obtain ⟨om0, h6, h7⟩ := h5
  rw [Res.bind_eq_ok] at h7
  obtain ⟨om1, h8, h9⟩ := h7
  by_cases hT : flag &&& ajNoTau = 0
  swap
  · rw [if_pos hT] at h9
    obtain rfl := Res.ok.inj h9
    exact ⟨h1, rfl, h2, fun _ => ⟨hip, I, rfl, h4, fun _ => ⟨om0, om1, h6, h8, rfl, fun h => absurd h hT, fun _ => rfl⟩, fun h => absurd hA h⟩, fun h => absurd hI h⟩
  rw [if_neg (not_not.2 hT), Res.bind_eq_ok] at h9
  obtain ⟨t, h10, h11⟩ := h9
  obtain rfl := Res.ok.inj h11
  exact ⟨h1, rfl, h2, fun _ => ⟨hip, I, rfl, h4, fun _ => ⟨om0, om1, h6, h8, rfl, fun _ => ⟨t, h10, rfl⟩, fun h => absurd hT h⟩, fun h => absurd hA h⟩, fun h => absurd hI h⟩

end Hcp
