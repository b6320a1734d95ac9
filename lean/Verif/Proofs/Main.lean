import Verif.Spec.Main
import Verif.Props.Cli
import Verif.Props.Compute
import Mathlib.FieldTheory.Perfect
import Mathlib.FieldTheory.Separable
import Mathlib.Algebra.Polynomial.Coeff

/-!
# Lemmas on `main`
-/

namespace Hcp
open Spec

/-- finitely many coefficients -/
def Bdd (p : IPoly) : Prop := ∃ N, ∀ k, N ≤ k → p k = 0

theorem Bdd.poly {p : IPoly} (h : Bdd p) : ∃ P : Polynomial ℤ, P.coeff = p := by
  obtain ⟨N, hN⟩ := h
  refine ⟨∑ k ∈ Finset.range N, Polynomial.monomial k (p k), funext fun k => ?_⟩
  rw [Polynomial.finsetSum_coeff]
  simp only [Polynomial.coeff_monomial]
  rw [Finset.sum_ite_eq' (Finset.range N) k]
  split
  · rfl
  · rename_i h
    exact (hN k (by simpa using h)).symm

theorem Bdd.of_eventually {p q : IPoly} (h : Bdd p) (N : Nat) (hN : ∀ k, N ≤ k → q k = p k ∨ q k = 0) : Bdd q := by
  obtain ⟨N', h'⟩ := h
  refine ⟨N + N', fun k hk => ?_⟩
  rcases hN k (by omega) with e | e
  · rw [e, h' k (by omega)]
  · exact e

theorem Bdd.set {p q : IPoly} (h : Bdd p) {e c : Int} (hq : setCoeffSi p e c = .ok q) : Bdd q := by
  unfold setCoeffSi at hq
  split at hq
  · cases hq
  · split at hq
    · cases hq
    · obtain rfl := Res.ok.inj hq
      exact h.of_eventually (e.toNat + 1) fun k hk => Or.inl (if_neg (by omega))

theorem Bdd.term {p q : IPoly} (h : Bdd p) {s t : List Char} (hq : acceptTerm p s = .ok (some (q, t))) : Bdd q := by
  unfold acceptTerm at hq
  simp only at hq
  split at hq
  · cases hq
  · simp only [Res.bind_eq_ok] at hq
    obtain ⟨c, -, q', h1, h2⟩ := hq
    obtain ⟨rfl, -⟩ := Prod.mk.inj (Option.some.inj (Res.ok.inj h2))
    exact h.set h1

theorem Bdd.parse : ∀ (fuel : Nat) (p q : IPoly) (s : List Char), Bdd p → polyParse fuel p s = .ok (some q) → Bdd q
  | _, p, q, [], h, hq => by
    unfold polyParse at hq
    obtain rfl := Option.some.inj (Res.ok.inj hq)
    exact h
  | 0, p, q, _ :: _, _, hq => by
    unfold polyParse at hq
    cases hq
  | fuel + 1, p, q, c :: r, h, hq => by
    unfold polyParse at hq
    split at hq
    · cases hq
    · rename_i p' rest h1
      exact Bdd.parse fuel p' q rest (h.term h1) hq
    all_goals cases hq

theorem Bdd.coeffs : ∀ (cnt : Nat) (p : IPoly) (cs : List (List Char)) (q : IPoly × List (List Char)), Bdd p → coeffsLoop cnt p cs = .ok q → Bdd q.1
  | 0, p, cs, q, h, hq => by
    unfold coeffsLoop at hq
    obtain rfl := Res.ok.inj hq
    exact h
  | cnt + 1, p, [], q, h, hq => by
    unfold coeffsLoop at hq
    obtain rfl := Res.ok.inj hq
    exact h
  | cnt + 1, p, a :: r, q, h, hq => by
    unfold coeffsLoop at hq
    simp only [Res.bind_eq_ok] at hq
    obtain ⟨p', h1, h2⟩ := hq
    exact Bdd.coeffs cnt p' r q (h.set h1) h2

theorem Bdd.cmd {o o' : Opts} {c : Cmd} (h : Bdd o.poly) (hr : runCmd o c = .ok o') : Bdd o'.poly := by
  cases c with
  | verbose =>
    simp only [runCmd, Res.bind_eq_ok] at hr
    obtain ⟨q, _, h1⟩ := hr
    cases h1
    exact h
  | num k v =>
    cases hr
    cases k <;> exact h
  | stoll =>
    cases hr
    refine h.of_eventually 7 fun k hk => Or.inl ?_
    simp only [setStoll]
    split <;> omega
  | pol s =>
    simp only [runCmd, Res.bind_eq_ok] at hr
    obtain ⟨q, h1, h2⟩ := hr
    cases h2
    simp only [polArg] at h1
    split at h1
    · rename_i p hp
      obtain rfl := Res.ok.inj h1
      exact Bdd.parse _ _ _ _ h hp
    all_goals cases h1
  | coeffs n cs =>
    simp only [runCmd, Res.bind_eq_ok] at hr
    obtain ⟨q, h1, h2⟩ := hr
    cases h2
    exact Bdd.coeffs _ _ _ _ h h1
  | _ => cases hr; exact h

theorem Bdd.cmds : ∀ (cmds : List Cmd) {o o' : Opts}, Bdd o.poly → runCmds o cmds = .ok o' → Bdd o'.poly
  | [], o, o', h, hr => by cases hr; exact h
  | c :: cmds, o, o', h, hr => by
    simp only [runCmds, Res.bind_eq_ok] at hr
    obtain ⟨o1, h1, h2⟩ := hr
    exact Bdd.cmds cmds (h.cmd h1) h2

theorem Bdd.numer {p q : IPoly} (h : Bdd p) (d : Int) : Bdd (polyNumer p d q) := by
  refine h.of_eventually (d + 1).toNat fun k hk => Or.inl ?_
  unfold polyNumer
  rw [if_neg (by omega)]

theorem Bdd.curve {F : Families} {o : Opts} {p : IPoly} (h : Bdd o.poly) (hp : curvePoly F o = .ok p) : Bdd p := by
  unfold curvePoly at hp
  simp only [Res.bind_eq_ok] at hp
  obtain ⟨q, h1, h2⟩ := hp
  have hq : Bdd q := by
    unfold applyFPol at h1
    split at h1
    · obtain rfl := Res.ok.inj h1
      exact h
    · simp only [Res.bind_eq_ok] at h1
      obtain ⟨q', k1, k2⟩ := h1
      exact (h.set k1).set k2
    · obtain rfl := Res.ok.inj h1
      exact h.numer _
    · obtain rfl := Res.ok.inj h1
      exact h.numer _
  obtain rfl := Res.ok.inj h2
  split
  · exact ⟨o.n.toNat, fun k hk => if_neg (by omega)⟩
  · exact hq

/-- an accepted curve has at least two branch points -/
theorem initPoly_degree {m n : Int} {sq : Bool} {c : Sec} (h : initPoly m n sq = .ok c) : secInit m n = .ok c ∧ 2 ≤ m ∧ 2 ≤ n ∧ 1 ≤ c.shape.g ∧ sq = true := by
  unfold initPoly at h
  simp only [Res.bind_eq_ok] at h
  obtain ⟨c', h1, h2⟩ := h
  split at h2
  · cases h2
  · rename_i hg
    split at h2
    · cases h2
    · rename_i hsq
      obtain rfl := Res.ok.inj h2
      have hg1 : 1 ≤ c'.shape.g := by unfold Sec.shape; simp only; omega
      have hsq' : sq = true := by simpa using hsq
      unfold secInit at h1
      split at h1
      · cases h1
      · rename_i hm
        refine ⟨by unfold secInit; rw [if_neg hm]; exact h1, by omega, ?_, hg1, hsq'⟩
        by_contra hn
        simp only [Res.bind_eq_ok] at h1
        obtain ⟨m1, k1, n1, k2, p, k3, q, k4, r, k5, g, k6, _, _, _, _, _, _, _, _, k7⟩ := h1
        obtain ⟨-, rfl⟩ := chk_eq_ok.1 k1
        obtain ⟨-, rfl⟩ := chk_eq_ok.1 k2
        obtain ⟨-, rfl⟩ := chk_eq_ok.1 k3
        obtain ⟨-, rfl⟩ := chk_eq_ok.1 k4
        obtain ⟨-, rfl⟩ := chk_eq_ok.1 k5
        obtain rfl := Res.ok.inj k7
        simp only at hg
        unfold cdiv at k6
        have hp : (m - 1) * (n - 1) ≤ 0 := by nlinarith
        have hd : (0 : Int) ≤ ((Nat.gcd (toUlong m) (toUlong n) : Nat) : Int) := Int.natCast_nonneg _
        generalize ((Nat.gcd (toUlong m) (toUlong n) : Nat) : Int) = d at *
        generalize (m - 1) * (n - 1) = P at *
        split at k6
        · cases k6
        · obtain ⟨-, rfl⟩ := chk_eq_ok.1 k6
          have : Int.tdiv (P - d + 1) 2 ≤ 0 := by
            rcases le_or_gt (P - d + 1) 0 with h | h
            · have h1 := Int.tdiv_nonneg (a := -(P - d + 1)) (b := 2) (by omega) (by norm_num)
              rw [Int.neg_tdiv] at h1
              omega
            · rw [show P - d + 1 = 1 by omega]
              decide
          omega

theorem roots_inj {P : Polynomial ℤ} (hs : Squarefree (P.map (Int.castRingHom ℚ))) {x : Nat → ℂ} (hx : RootsOf P x) : Set.InjOn x (Set.Iio P.natDegree) := by
  have h1 : (P.map (Int.castRingHom ℚ)).Separable := PerfectField.separable_iff_squarefree.2 hs
  have h2 := h1.map (f := algebraMap ℚ ℂ)
  rw [Polynomial.map_map, show (algebraMap ℚ ℂ).comp (Int.castRingHom ℚ) = Int.castRingHom ℂ from RingHom.ext_int _ _, hx] at h2
  have h3 := Polynomial.separable_prod_X_sub_C_iff'.1 h2.of_mul_right
  intro a ha b hb e
  exact h3 a (by simpa using ha) b (by simpa using hb) e

/-- the operand of the last `-m` and of the last `--prec` -/
theorem runCmds_last : ∀ (cmds : List Cmd) {o o' : Opts}, runCmds o cmds = .ok o' →
    (((∀ v, Cmd.num .m v ∉ cmds) → o'.m = o.m) ∧ ∀ pre v post, cmds = pre ++ .num .m v :: post → (∀ w, Cmd.num .m w ∉ post) → o'.m = atol v) ∧
    (((∀ v, Cmd.num .prec v ∉ cmds) → o'.prec = o.prec) ∧ ∀ pre v post, cmds = pre ++ .num .prec v :: post → (∀ w, Cmd.num .prec w ∉ post) → o'.prec = atol v) ∧
    ((∀ v, Cmd.num .bench v ∉ cmds) → o'.print = o.print)
  | [], o, o', h => by
    cases h
    simp
  | c :: cmds, o, o', h => by
    simp only [runCmds, Res.bind_eq_ok] at h
    obtain ⟨o1, h1, h2⟩ := h
    obtain ⟨⟨i1, i2⟩, ⟨i3, i4⟩, i5⟩ := runCmds_last cmds h2
    have key : ((∀ v, c ≠ .num .m v) → o1.m = o.m) ∧ (∀ v, c = .num .m v → o1.m = atol v) ∧ ((∀ v, c ≠ .num .prec v) → o1.prec = o.prec) ∧ (∀ v, c = .num .prec v → o1.prec = atol v) ∧
        ((∀ v, c ≠ .num .bench v) → o1.print = o.print) := by
      cases c with
      | num k v =>
        cases h1
        cases k <;> simp [setNum]
      | verbose =>
        simp only [runCmd, Res.bind_eq_ok] at h1
        obtain ⟨q, _, h1⟩ := h1
        cases h1
        simp
      | pol s =>
        simp only [runCmd, Res.bind_eq_ok] at h1
        obtain ⟨q, _, h1⟩ := h1
        cases h1
        simp
      | coeffs n cs =>
        simp only [runCmd, Res.bind_eq_ok] at h1
        obtain ⟨q, _, h1⟩ := h1
        cases h1
        simp
      | _ => cases h1; simp
    obtain ⟨k1, k2, k3, k4, k5⟩ := key
    refine ⟨⟨fun h => ?_, fun pre v post e hp => ?_⟩, ⟨fun h => ?_, fun pre v post e hp => ?_⟩, fun h => ?_⟩
    · rw [i1 fun v hv => h v (List.mem_cons_of_mem _ hv), k1 fun v hv => h v (hv ▸ List.mem_cons_self ..)]
    · cases pre with
      | nil =>
        obtain ⟨rfl, rfl⟩ := List.cons.inj e
        rw [i1 hp, k2 v rfl]
      | cons d pre =>
        obtain ⟨rfl, rfl⟩ := List.cons.inj e
        exact i2 pre v post rfl hp
    · rw [i3 fun v hv => h v (List.mem_cons_of_mem _ hv), k3 fun v hv => h v (hv ▸ List.mem_cons_self ..)]
    · cases pre with
      | nil =>
        obtain ⟨rfl, rfl⟩ := List.cons.inj e
        rw [i3 hp, k4 v rfl]
      | cons d pre =>
        obtain ⟨rfl, rfl⟩ := List.cons.inj e
        exact i4 pre v post rfl hp
    · rw [i5 fun v hv => h v (List.mem_cons_of_mem _ hv), k5 fun v hv => h v (hv ▸ List.mem_cons_self ..)]

end Hcp
