import Verif.Props.Rank
import Verif.Proofs.PlaneMinor
import Verif.Proofs.StripMinor

/-!
# C49: the homology basis of a hyperelliptic curve

The intersection matrix is principally unimodular, so the reduction needs one pass per block, gives the standard form with the right orientation, and small coefficients.
-/

namespace Hcp
open Spec

/-- **C06 (principally unimodular forms).** If all principal minors of an antisymmetric matrix of rank `2g` are `0` or `±1`, then the reduction, allowed one pass per block or more,
returns the standard form with its orientation, and the first `2g` rows of the base change have coefficients `0` and `±1`. -/
theorem C06_unimodular_minors {r g : Nat} (xg : XGcd) {M : Mat r} (ha : Antisymm M) (hr : rankQ M = 2 * g) (hpu : PrincipallyUnimodular M) :
    ∃ st : St r, (∀ fuel, 1 ≤ fuel → symplecticReduction xg fuel M g = .ok st) ∧ Unimodular st.P ∧ IsCongruence st.P M st.M ∧ st.M = stdJ r g ∧
      ∀ a j : Fin r, (st.P a j).natAbs ≤ 1 := by
  obtain ⟨st, len, h, hf, hu, hs, hp⟩ := reduceLoop_pu xg g 0 r _ (Fr.init M ha) (TailPU.init ha hpu) (fun a b h => by omega) (fun a b h => by omega) (by omega)
  rw [Nat.zero_add] at hf hu hs hp
  have hz := hf.zeroTail hr.le
  refine ⟨st, fun fuel hfu => ?_, hf.inv.uni, hf.inv.cong, ?_, ?_⟩
  · obtain ⟨k, rfl⟩ : ∃ k, fuel = k + 1 := ⟨fuel - 1, by omega⟩
    exact h k
  · funext a b
    unfold stdJ
    split
    · rename_i h1; exact hu a b h1.1 h1.2.1 h1.2.2
    · rename_i h1
      split
      · rename_i h2; rw [hf.inv.anti, hu b a h2.1 h2.2.1 h2.2.2]
      · rename_i h2
        by_cases ha' : a.val < 2 * g
        · by_contra hne
          have := (hf.blk a b ha').1 hne
          unfold partner at this
          split at this
          · rename_i h3; exact h1 ⟨ha', h3, this⟩
          · exact h2 ⟨by omega, by omega, by omega⟩
        · exact hz a b (by omega)
  · intro a j
    by_cases ha' : a.val < 2 * g
    · exact hs a j ha'
    · exact hp.coeff hf.inv.anti (by omega) j

/-- the pairings of the dual loops are `+1` -/
def PositiveDual (I : Nat × Nat → Nat × Nat → Int) (al be : List (List Gamma)) : Prop :=
  ∀ (i : Nat) (x y : List Gamma), al[i]? = some x → be[i]? = some y → Chain.pair I (toChain x) (toChain y) = 1

/-- all coefficients of the loops are `±1` -/
def SignCoeffs (ls : List (List Gamma)) : Prop := ∀ l ∈ ls, ∀ t ∈ l, t.coeff = 1 ∨ t.coeff = -1

theorem forest_of_plainTree {N : Nat} {a b : Nat → Nat} {d Ya Yb : Nat → ℂ} {c : IMat} (h : PlainTree 2 N a b d Ya Yb c) : Forest N a b d Ya Yb c where
  ab k l hkl hl e := by
    rcases h.start k (by omega) with g | ⟨j, hj, g⟩
    · exact (h.new l hl).1 (e.symm.trans g)
    · exact (h.new l hl).2 j (by omega) (e.symm.trans g)
  bb k l hkl hl := ((h.new l hl).2 k hkl).symm
  hd := h.hd
  hYa := h.hYa
  hYb := h.hYb
  self k hk := by
    have := h.self k hk 0 (by omega) 0 (by omega)
    have e : Spec.selfNumber ((0 : Nat) : ℤ) ((0 : Nat) : ℤ) = 0 := rfl
    rw [e] at this
    simpa using this
  anti k l hk hl := h.anti k l (by omega) (by omega)
  h1 k l hkl hl e := by
    obtain ⟨S, h1, h2⟩ := h.h1 k l hkl hl e
    exact ⟨S, h1, by simpa using h2 0 (by omega) 0 (by omega)⟩
  h2 k l hkl hl e := by
    obtain ⟨S, h1, h2⟩ := h.h2 k l hkl hl e
    exact ⟨S, h1, by simpa using h2 0 (by omega) 0 (by omega)⟩
  h3 k l hkl hl e e' := by simpa using h.h3 k l hkl hl e e' 0 (by omega) 0 (by omega)

/-- the matrix of a tree of a hyperelliptic curve is principally unimodular -/
theorem pu_of_plainTree {N : Nat} {c : IMat} (h : 0 < N → ∃ a b d Ya Yb, PlainTree 2 N a b d Ya Yb c) : PrincipallyUnimodular (c.toMat (N * (2 - 1))) := by
  rcases Nat.eq_zero_or_pos N with h0 | hpos
  · intro κ _ _ f
    have : IsEmpty κ := ⟨fun z => by have := (f z).isLt; omega⟩
    rw [Matrix.det_isEmpty]; decide
  · obtain ⟨a, b, d, Ya, Yb, p⟩ := h hpos
    have hf := (forest_of_plainTree p).pu
    have e : N * (2 - 1) = N := by omega
    rw [e]; exact hf

/-- the matrix of a tree of a curve `y^3 = f(x)` is principally unimodular -/
theorem pu_three_of_plainTree {N : Nat} {c : IMat} (h : 0 < N → ∃ a b d Ya Yb, PlainTree 3 N a b d Ya Yb c) : PrincipallyUnimodular (c.toMat (N * (3 - 1))) := by
  intro κ _ _ f
  rcases Nat.eq_zero_or_pos N with h0 | hpos
  · have : IsEmpty κ := ⟨fun z => by have := (f z).isLt; omega⟩
    rw [Matrix.det_isEmpty]; decide
  by_cases hf : Function.Injective f
  · obtain ⟨a, b, d, Ya, Yb, p⟩ := h hpos
    obtain ⟨pe, hg, hE⟩ := exists_planeTree (by norm_num) p.start p.new p.hd p.hYa p.hYb p.self p.anti p.h1 p.h2 p.h3
    have e : (c.toMat (N * (3 - 1))).submatrix f f = Matrix.of fun i j => PlaneTree.Ent pe ((f i).val / 2) ((f j).val / 2) ((((f j).val % 2 : Nat) : ZMod 3) - (((f i).val % 2 : Nat) : ZMod 3)) := by
      ext i j
      have hi := (f i).isLt
      have hj := (f j).isLt
      rw [Matrix.of_apply, ← hE _ (by omega) _ (by omega) _ (by omega) _ (by omega)]
      change c _ _ = _
      congr 1 <;> omega
    rw [e]
    have hlt : ∀ i, ((f i).val % 2 : Nat) < 3 := fun i => by omega
    refine hg.minor_three (f := fun i => ((f i).val / 2, (((f i).val % 2 : Nat) : ZMod 3))) (fun i j hij => hf ?_) (fun i => ?_) fun i hi => ?_
    · rw [Prod.mk.injEq] at hij
      have := congrArg ZMod.val hij.2
      rw [ZMod.val_cast_of_lt (hlt i), ZMod.val_cast_of_lt (hlt j)] at this
      exact Fin.ext (by omega)
    · have := (f i).isLt
      dsimp only; omega
    · have := congrArg ZMod.val hi
      rw [ZMod.val_cast_of_lt (hlt i)] at this
      have e2 : (2 : ZMod 3).val = 2 := rfl
      omega
  · obtain ⟨i, j, hij, hne⟩ := Function.not_injective_iff.1 hf
    rw [Matrix.det_zero_of_row_eq hne (by funext k; simp only [Matrix.submatrix_apply, hij])]
    decide

/-- the matrix of a tree of a curve of degree two or three in `y` is principally unimodular -/
theorem pu_small_of_plainTree {m N : Nat} (hm : m = 2 ∨ m = 3) {c : IMat} (h : 0 < N → ∃ a b d Ya Yb, PlainTree m N a b d Ya Yb c) : PrincipallyUnimodular (c.toMat (N * (m - 1))) := by
  rcases hm with rfl | rfl
  · exact pu_of_plainTree h
  · exact pu_three_of_plainTree h

/-- the reduction and the loops, for a principally unimodular matrix -/
theorem basis_of_pu {W : Type} (xg : XGcd) {o : ShiftOracle} {es : List (Edge W)} {m g : Nat} (hm : 2 ≤ m) {c : IMat} (hc : intersectionTree o es m = .ok c)
    (hanti : Antisymm (c.toMat (es.length * (m - 1)))) (hrk : rankQ (c.toMat (es.length * (m - 1))) = 2 * g) (hpu : PrincipallyUnimodular (c.toMat (es.length * (m - 1)))) :
    ∃ P : Mat (es.length * (m - 1)), Unimodular P ∧
        P * c.toMat (es.length * (m - 1)) * P.transpose = stdJ (es.length * (m - 1)) g ∧ ∃ al be,
          (∀ fuel, 1 ≤ fuel → symplecticBasis xg fuel o es m g = .ok (al, be)) ∧
          IsSymplecticBasis es.length (m - 1) g (fun s t => c (s.1 * (m - 1) + s.2) (t.1 * (m - 1) + t.2)) P al be ∧
          PositiveDual (fun s t => c (s.1 * (m - 1) + s.2) (t.1 * (m - 1) + t.2)) al be ∧ SignCoeffs (al ++ be) := by
  obtain ⟨st, hred, hU, hcong, hstd, hsm⟩ := C06_unimodular_minors xg hanti hrk hpu
  obtain ⟨hbf, -⟩ := C05_block_form hanti hrk.ge (hred 1 le_rfl)
  have hg2 := hbf.1
  have hcong' : st.P * c.toMat (es.length * (m - 1)) * st.P.transpose = stdJ (es.length * (m - 1)) g := by
    have : st.M = st.P * c.toMat (es.length * (m - 1)) * st.P.transpose := hcong
    rw [← this, hstd]
  rw [hstd, ← hcong'] at hbf
  refine ⟨st.P, hU, hcong', ?_⟩
  have hI : ∀ a b : Fin (es.length * (m - 1)), c (a.val / (m - 1) * (m - 1) + a.val % (m - 1)) (b.val / (m - 1) * (m - 1) + b.val % (m - 1)) =
      c.toMat (es.length * (m - 1)) a b := by
    intro a b
    simp only [Nat.mul_comm _ (m - 1), Nat.div_add_mod]
    rfl
  obtain ⟨al, be, e1, e2, e3, e4⟩ := basisLoops_ok st.P (by omega : 0 < m - 1) g 0 (by omega) (fun a j _ ha => by
    have := hsm a j
    unfold FitsSlong slongMin slongMax
    omega)
  refine ⟨al, be, fun fuel hf => ?_, isSymplecticBasis_of (by omega) hbf e2 e3 e4 hI, ?_, ?_⟩
  · simp only [symplecticBasis, hc, Res.ok_bind, hred fuel hf]
    exact e1
  · intro i u v hu hv
    have hi : i < g := by
      have := (List.getElem?_eq_some_iff.1 hu).1; omega
    obtain ⟨q1, q2⟩ := e4 i hi (by omega)
    rw [hu] at q1
    rw [hv] at q2
    obtain rfl := Option.some.inj q1
    obtain rfl := Option.some.inj q2
    rw [pair_eq_entry st.P (c.toMat (es.length * (m - 1))) _ _ _ hI, hcong']
    unfold stdJ
    rw [if_pos ⟨by dsimp only; omega, by dsimp only; omega, rfl⟩]
  · intro l hl
    have main : ∀ a : Fin (es.length * (m - 1)), ∀ t ∈ loopOf st.P (m - 1) a, t.coeff = 1 ∨ t.coeff = -1 := by
      intro a t ht
      obtain ⟨k, hk, rfl⟩ := List.mem_map.1 ht
      obtain ⟨hk1, hk2⟩ := mem_nz.1 hk
      have hr : rowOf st.P a k = st.P a ⟨k, hk1⟩ := by unfold rowOf; rw [dif_pos hk1]
      have := hsm a ⟨k, hk1⟩
      rw [← hr] at this
      change rowOf st.P a k = 1 ∨ rowOf st.P a k = -1
      omega
    rcases List.mem_append.1 hl with h | h
    · obtain ⟨i, hi, rfl⟩ := List.getElem_of_mem h
      obtain ⟨q1, -⟩ := e4 i (by omega) (by omega)
      rw [List.getElem?_eq_getElem hi] at q1
      rw [Option.some.inj q1]; exact main _
    · obtain ⟨i, hi, rfl⟩ := List.getElem_of_mem h
      obtain ⟨-, q1⟩ := e4 i (by omega) (by omega)
      rw [List.getElem?_eq_getElem hi] at q1
      rw [Option.some.inj q1]; exact main _

/-- **C49.** For every hyperelliptic curve `y^2 = prod (x - x_k)` with `n ≥ 1` distinct branch points and a tree of as many edges as `abel_jacobi_init_poly` asks for, in exact arithmetic, with either method of integration, any extended gcd and
`g` the genus of the curve: the tree, the data and the intersection matrix `c` are computed, all principal minors of `c` are `0` or `±1`, and `symplectic_basis` returns `g` loops
`alpha` and `g` loops `beta` after one pass for each pair.  They are the first `2g` rows of a unimodular matrix `P` taking `c` to the standard form, so `alpha_i . beta_i = +1`; all
coefficients are `±1`. -/
theorem C49_hyperelliptic_basis (xg : XGcd) {sort : List (Edge ℝ) → List (Edge ℝ)} (hsort : SortsByR sort) {lam : ℝ} (hlam : lam ≠ 0) (type : IntType)
    {x : Nat → ℂ} {n g N : Nat} (hN : EdgeCount 2 n N) (hx : Set.InjOn x (Set.Iio n)) (hg : IsGenus 2 n g) :
    ∃ tr data c, spanningTreeOf (exactCOps lam) (WOps.ofOrder (-1)) sort x (treeInit (WOps.ofOrder (-1)) N) n type = .ok tr ∧
      treeYdataInit exact exactTests x n 2 tr.e = .ok data ∧ intersectionTree (shiftOracle exact exactTests data 2) tr.e 2 = .ok c ∧
      (∀ (κ : Type) [Fintype κ] [DecidableEq κ] (f : κ → Fin (tr.e.length * (2 - 1))),
        ((c.toMat (tr.e.length * (2 - 1))).submatrix f f).det.natAbs ≤ 1) ∧
      ∃ P : Mat (tr.e.length * (2 - 1)), Unimodular P ∧
        P * c.toMat (tr.e.length * (2 - 1)) * P.transpose = stdJ (tr.e.length * (2 - 1)) g ∧ ∃ al be,
          (∀ fuel, 1 ≤ fuel → symplecticBasis xg fuel (shiftOracle exact exactTests data 2) tr.e 2 g = .ok (al, be)) ∧
          IsSymplecticBasis tr.e.length (2 - 1) g (fun s t => c (s.1 * (2 - 1) + s.2) (t.1 * (2 - 1) + t.2)) P al be ∧
          PositiveDual (fun s t => c (s.1 * (2 - 1) + s.2) (t.1 * (2 - 1) + t.2)) al be ∧ SignCoeffs (al ++ be) := by
  obtain ⟨tr, data, c, h1, hlen, hdat, hc, hanti, hpt⟩ := plainTree_from_points hsort hlam type (edgeCount_lt hN) le_rfl (by norm_num : 2 < 2 ^ 62) hx
  have hrk := rank_of_plainTree le_rfl (hlen ▸ hN) hg hpt ℚ
  have hpu := pu_of_plainTree hpt
  exact ⟨tr, data, c, h1, hdat, hc, fun κ _ _ f => hpu κ f, basis_of_pu xg le_rfl hc hanti hrk hpu⟩

/-- **C66.** For every curve `y^3 = prod (x - x_k)` with `n ≥ 1` distinct branch points and a tree of as many edges as `abel_jacobi_init_poly` asks for, in exact arithmetic, with either method of integration, any extended gcd and
`g` the genus of the curve: the tree, the data and the intersection matrix `c` are computed, all principal minors of `c` are `0` or `±1`, and `symplectic_basis` returns `g` loops
`alpha` and `g` loops `beta` after one pass for each pair.  They are the first `2g` rows of a unimodular matrix `P` taking `c` to the standard form, so `alpha_i . beta_i = +1`; all
coefficients are `±1`. -/
theorem C66_cubic_basis (xg : XGcd) {sort : List (Edge ℝ) → List (Edge ℝ)} (hsort : SortsByR sort) {lam : ℝ} (hlam : lam ≠ 0) (type : IntType)
    {x : Nat → ℂ} {n g N : Nat} (hN : EdgeCount 3 n N) (hx : Set.InjOn x (Set.Iio n)) (hg : IsGenus 3 n g) :
    ∃ tr data c, spanningTreeOf (exactCOps lam) (WOps.ofOrder (-1)) sort x (treeInit (WOps.ofOrder (-1)) N) n type = .ok tr ∧
      treeYdataInit exact exactTests x n 3 tr.e = .ok data ∧ intersectionTree (shiftOracle exact exactTests data 3) tr.e 3 = .ok c ∧
      (∀ (κ : Type) [Fintype κ] [DecidableEq κ] (f : κ → Fin (tr.e.length * (3 - 1))),
        ((c.toMat (tr.e.length * (3 - 1))).submatrix f f).det.natAbs ≤ 1) ∧
      ∃ P : Mat (tr.e.length * (3 - 1)), Unimodular P ∧
        P * c.toMat (tr.e.length * (3 - 1)) * P.transpose = stdJ (tr.e.length * (3 - 1)) g ∧ ∃ al be,
          (∀ fuel, 1 ≤ fuel → symplecticBasis xg fuel (shiftOracle exact exactTests data 3) tr.e 3 g = .ok (al, be)) ∧
          IsSymplecticBasis tr.e.length (3 - 1) g (fun s t => c (s.1 * (3 - 1) + s.2) (t.1 * (3 - 1) + t.2)) P al be ∧
          PositiveDual (fun s t => c (s.1 * (3 - 1) + s.2) (t.1 * (3 - 1) + t.2)) al be ∧ SignCoeffs (al ++ be) := by
  obtain ⟨tr, data, c, h1, hlen, hdat, hc, hanti, hpt⟩ := plainTree_from_points hsort hlam type (edgeCount_lt hN) (by norm_num) (by norm_num : 3 < 2 ^ 62) hx
  have hrk := rank_of_plainTree (by norm_num) (hlen ▸ hN) hg hpt ℚ
  have hpu := pu_three_of_plainTree hpt
  exact ⟨tr, data, c, h1, hdat, hc, fun κ _ _ f => hpu κ f, basis_of_pu xg (by norm_num) hc hanti hrk hpu⟩

/-- an instance: `y^3 = x (x - 1) (x - 2) (x - 3) (x - 4)`, of genus 4, and the Picard curves `y^3 = f(x)` with four points, of genus 3 -/
example : IsGenus 3 5 4 ∧ IsGenus 3 4 3 ∧ EdgeCount 3 5 4 ∧ Set.InjOn (fun k : Nat => (k : ℂ)) (Set.Iio 5) :=
  ⟨by unfold IsGenus; decide, by unfold IsGenus; decide, Or.inl rfl, fun a _ b _ h => Nat.cast_injective (R := ℂ) h⟩

/-- an instance: `y^2 = x (x - 1) (x - 2) (x - 3) (x - 4)`, of genus 2 -/
example : IsGenus 2 5 2 ∧ Set.InjOn (fun k : Nat => (k : ℂ)) (Set.Iio 5) :=
  ⟨by unfold IsGenus; decide, fun a _ b _ h => Nat.cast_injective (R := ℂ) h⟩

/-- the matrix of this curve meets the hypotheses of `C06_unimodular_minors` -/
example : ∃ (r : Nat) (M : Mat r), Antisymm M ∧ rankQ M = 2 * 2 ∧ PrincipallyUnimodular M := by
  have h1 : IsGenus 2 5 2 := by unfold IsGenus; decide
  have h2 : Set.InjOn (fun k : Nat => (k : ℂ)) (Set.Iio 5) := fun a _ b _ h => Nat.cast_injective (R := ℂ) h
  obtain ⟨tr, data, c, e1, -, e2, e3, e4, e5⟩ := C48_rank (m := 2) (n := 5) (g := 2) sortByR_sorts (lam := Real.pi / 2) (by positivity) .de (by norm_num) (Or.inl rfl) (by norm_num) h2 h1
  obtain ⟨tr', data', c', f1, f2, f3, f4, -⟩ := C49_hyperelliptic_basis XGcd.std sortByR_sorts (lam := Real.pi / 2) (by positivity) .de (Or.inl rfl) h2 h1
  obtain rfl := Res.ok.inj (e1.symm.trans f1)
  obtain rfl := Res.ok.inj (e2.symm.trans f2)
  obtain rfl := Res.ok.inj (e3.symm.trans f3)
  exact ⟨_, _, e4, e5 ℚ, fun κ _ _ f => f4 κ f⟩

end Hcp
