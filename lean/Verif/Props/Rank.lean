import Verif.Proofs.TreeRank
import Verif.Proofs.UnitBlocks
import Verif.Props.SheetSpan
import Verif.Props.Homology
import Verif.Spec.Curve

/-!
# C48: the computed cycles are a symplectic basis of the homology
-/

namespace Hcp
open Spec

/-- nonvanishing of the data of an edge -/
theorem edge_ne_zero {m n a b n1 : Nat} (hm : 0 < m) {x : Nat → ℂ} (hx : Set.InjOn x (Set.Iio n)) (ha : a < n) (hb : b < n) (hab : a ≠ b)
    {y : YData ℂ} (hn : y.n = n) (h : Spec.EdgeData m n x a b n1 y.u) : y.ba2 ≠ 0 ∧ y.ya ≠ 0 ∧ y.yb ≠ 0 := by
  have hab' : x b - x a ≠ 0 := sub_ne_zero.2 fun h => hab (hx hb ha h).symm
  have hba' : x a - x b ≠ 0 := sub_ne_zero.2 fun h => hab (hx ha hb h)
  obtain ⟨p1, p2⟩ := edgeData_at hm ha hb hab h
  refine ⟨?_, ?_, ?_⟩
  · unfold YData.ba2
    rw [hn, h.ba2]; exact div_ne_zero hab' two_ne_zero
  · unfold YData.ya
    rw [hn]
    intro h0
    rw [h0, zero_pow hm.ne'] at p1
    exact mul_ne_zero (div_ne_zero hab' (by norm_num)) (fder_ne_zero ha hx) p1.symm
  · unfold YData.yb
    rw [hn]
    intro h0
    rw [h0, zero_pow hm.ne'] at p2
    exact mul_ne_zero (div_ne_zero hba' (by norm_num)) (fder_ne_zero hb hx) p2.symm

/-- the data of a tree, as plain functions of the number of the edge -/
structure PlainTree (m N : Nat) (a b : Nat → Nat) (d Ya Yb : Nat → ℂ) (c : IMat) : Prop where
  start : ∀ k < N, a k = a 0 ∨ ∃ j < k, a k = b j
  new : ∀ k < N, b k ≠ a 0 ∧ ∀ j < k, b k ≠ b j
  hd : ∀ k < N, d k ≠ 0
  hYa : ∀ k < N, Ya k ≠ 0
  hYb : ∀ k < N, Yb k ≠ 0
  self : ∀ k < N, ∀ α < m - 1, ∀ β < m - 1, c (k * (m - 1) + α) (k * (m - 1) + β) = Spec.selfNumber α β
  anti : ∀ i j, i < N * (m - 1) → j < N * (m - 1) → c i j = - c j i
  h1 : ∀ k l, k < l → l < N → a l = a k → ∃ S, Spec.SheetGap m (d k) (d l) (Ya k) (Ya l) S ∧
      ∀ α < m - 1, ∀ β < m - 1, c (k * (m - 1) + α) (l * (m - 1) + β) = Spec.localNumber m α β S
  h2 : ∀ k l, k < l → l < N → a l = b k → ∃ S, Spec.SheetGap m (-d k) (d l) (Yb k) (Ya l) S ∧
      ∀ α < m - 1, ∀ β < m - 1, c (k * (m - 1) + α) (l * (m - 1) + β) = - Spec.localNumber m α β S
  h3 : ∀ k l, k < l → l < N → a l ≠ a k → a l ≠ b k → ∀ α < m - 1, ∀ β < m - 1, c (k * (m - 1) + α) (l * (m - 1) + β) = 0

theorem plainTree_from_points {sort : List (Edge ℝ) → List (Edge ℝ)} (hsort : SortsByR sort) {lam : ℝ} (hlam : lam ≠ 0) (type : IntType)
    {x : Nat → ℂ} {n m N : Nat} (hN : N < n) (hm : 2 ≤ m) (hm' : m < 2 ^ 62) (hx : Set.InjOn x (Set.Iio n)) :
    ∃ tr data c, spanningTreeOf (exactCOps lam) (WOps.ofOrder (-1)) sort x (treeInit (WOps.ofOrder (-1)) N) n type = .ok tr ∧
      tr.e.length = N ∧ treeYdataInit exact exactTests x n m tr.e = .ok data ∧
      intersectionTree (shiftOracle exact exactTests data m) tr.e m = .ok c ∧ Antisymm (c.toMat (tr.e.length * (m - 1))) ∧
      (0 < tr.e.length → ∃ a b d Ya Yb, PlainTree m tr.e.length a b d Ya Yb c) := by
  obtain ⟨tr, data, c, h1, hlen, hgr, -, hbl, hdat, hdl, hc, hed, hself, hanti, hmeet⟩ := C14_from_points hsort hlam type hN hm hm' hx
  refine ⟨tr, data, c, h1, hlen, hdat, hc, fun a b => hanti a b a.isLt b.isLt, ?_⟩
  have h1' := h1
  unfold spanningTreeOf at h1'
  obtain ⟨t1, e1, -, -, -, g2⟩ := C09_grows_as_tree (WOps.ofOrder (-1)) sort hsort.perm _ (treeInit (WOps.ofOrder (-1 : ℝ)) N) n (Or.inl (by simp [treeInit]; omega))
  obtain rfl := Res.ok.inj (h1'.symm.trans e1)
  have hpl : tr.pairs.length = tr.e.length := by unfold Tree.pairs; rw [List.length_map]
  intro hpos
  have hpos' : 0 < tr.pairs.length := by omega
  let y : Nat → YData ℂ := fun k => data.getD k ⟨0, 0, 0, fun _ => 0⟩
  have hy : ∀ k < tr.e.length, data[k]? = some (y k) := by
    intro k hk
    simp only [y, List.getD_eq_getElem?_getD]
    rw [List.getElem?_eq_getElem (by omega)]; rfl
  let a : Nat → Nat := fun k => if h : k < tr.e.length then tr.e[k].a else 0
  let b : Nat → Nat := fun k => if h : k < tr.e.length then tr.e[k].b else 0
  have hae : ∀ k, (h : k < tr.e.length) → a k = tr.e[k].a := fun k h => dif_pos h
  have hbe : ∀ k, (h : k < tr.e.length) → b k = tr.e[k].b := fun k h => dif_pos h
  have hpa : ∀ k, (h : k < tr.e.length) → (tr.pairs[k]'(by omega)).1 = a k := fun k h => by rw [hae k h]; simp [Tree.pairs]
  have hpb : ∀ k, (h : k < tr.e.length) → (tr.pairs[k]'(by omega)).2 = b k := fun k h => by rw [hbe k h]; simp [Tree.pairs]
  have hne : ∀ k, k < tr.e.length → (y k).ba2 ≠ 0 ∧ (y k).ya ≠ 0 ∧ (y k).yb ≠ 0 := by
    intro k hk
    obtain ⟨q1, q2⟩ := hed k hk (y k) (hy k hk)
    have q3 := g2 tr.e[k] (List.getElem_mem hk)
    refine edge_ne_zero (by omega) hx q3.1 q3.2.1 ?_ q1 q2
    have := (hgr k (by omega)).1
    rwa [hpa k hk, hpb k hk, hae k hk, hbe k hk] at this
  refine ⟨a, b, fun k => (y k).ba2, fun k => (y k).ya, fun k => (y k).yb, ?_, ?_,
    fun k hk => (hne k hk).1, fun k hk => (hne k hk).2.1, fun k hk => (hne k hk).2.2, hself, hanti, ?_, ?_, ?_⟩
  · intro k hk
    rcases growsAsTree_start hgr hpos' k (by omega) with q | ⟨j, hj, q⟩
    · left; rw [← hpa k hk, ← hpa 0 hpos]; exact q
    · right; exact ⟨j, hj, by rw [← hpa k hk, ← hpb j (by omega)]; exact q⟩
  · intro k hk
    obtain ⟨q1, q2⟩ := growsAsTree_new hgr hpos' k (by omega)
    refine ⟨?_, fun j hj => ?_⟩
    · rw [← hpb k hk, ← hpa 0 hpos]; exact q1
    · rw [← hpb k hk, ← hpb j (by omega)]; exact q2 j hj
  · intro k l hkl hl e
    rw [hae l hl, hae k (by omega)] at e
    exact (hmeet k l _ _ hkl hl (hy k (by omega)) (hy l hl)).1 e
  · intro k l hkl hl e
    rw [hae l hl, hbe k (by omega)] at e
    exact (hmeet k l _ _ hkl hl (hy k (by omega)) (hy l hl)).2.1 e
  · intro k l hkl hl e e'
    rw [hae l hl, hae k (by omega)] at e
    rw [hae l hl, hbe k (by omega)] at e'
    exact (hmeet k l _ _ hkl hl (hy k (by omega)) (hy l hl)).2.2 e e'

theorem edgeCount_lt {m n N : Nat} (h : EdgeCount m n N) : N < n := by
  unfold EdgeCount at h; omega

theorem rank_of_plainTree {m n N g : Nat} (hm : 2 ≤ m) (hN : EdgeCount m n N) (hg : IsGenus m n g) {c : IMat}
    (h : 0 < N → ∃ a b d Ya Yb, PlainTree m N a b d Ya Yb c) (F : Type) [Field F] :
    ((c.toMat (N * (m - 1))).map (Int.cast : ℤ → F)).rank = 2 * g := by
  have hgen : 2 * g + Nat.gcd m n = (n - 1) * (m - 1) + 1 := by
    have hn : 1 ≤ n := by have := edgeCount_lt hN; omega
    unfold IsGenus at hg
    rw [Int.gcd_natCast_natCast] at hg
    zify [hn, (by omega : 1 ≤ m)]
    linarith
  have key : ((c.toMat (N * (m - 1))).map (Int.cast : ℤ → F)).rank + Nat.gcd m (N + 1) = N * (m - 1) + 1 := by
    rcases Nat.eq_zero_or_pos N with h0 | hpos
    · have hz : N * (m - 1) = 0 := by rw [h0, Nat.zero_mul]
      have : ((c.toMat (N * (m - 1))).map (Int.cast : ℤ → F)).rank ≤ 0 := (Matrix.rank_le_card_height _).trans (by rw [Fintype.card_fin, hz])
      have hgcd : Nat.gcd m (N + 1) = 1 := by rw [h0, Nat.zero_add, Nat.gcd_one_right]
      omega
    · obtain ⟨a, b, d, Ya, Yb, p⟩ := h hpos
      exact matrix_rank hm p.start p.new p.hd p.hYa p.hYb p.self p.anti p.h1 p.h2 p.h3 F
  rcases hN with hN1 | ⟨hdvd, hN2⟩
  · rw [hN1] at key
    have : n - 1 = N := by omega
    rw [this] at hgen
    omega
  · have e1 : Nat.gcd m n = m := Nat.gcd_eq_left hdvd
    have e2 : Nat.gcd m (N + 1) = 1 := by
      refine Nat.dvd_one.1 ?_
      have q1 : Nat.gcd m (N + 1) ∣ N + 1 + 1 := (Nat.gcd_dvd_left m (N + 1)).trans (hN2 ▸ hdvd)
      exact (Nat.dvd_add_right (Nat.gcd_dvd_right m (N + 1))).1 q1
    have e3 : n - 1 = N + 1 := by omega
    rw [e1, e3, Nat.add_mul, Nat.one_mul] at hgen
    rw [e2] at key
    omega

/-- **C48 (rank).** For every `m ≥ 2` below `2^62` and all `n ≥ 1` distinct branch points, a tree of as many edges as `abel_jacobi_init_poly` asks for, in exact arithmetic, with either method of integration: the tree, the data and
the intersection matrix are computed, and this matrix has rank `2g` over every field, `g` being the genus of the curve. -/
theorem C48_rank {sort : List (Edge ℝ) → List (Edge ℝ)} (hsort : SortsByR sort) {lam : ℝ} (hlam : lam ≠ 0) (type : IntType)
    {x : Nat → ℂ} {n m g N : Nat} (hm : 2 ≤ m) (hN : EdgeCount m n N) (hm' : m < 2 ^ 62) (hx : Set.InjOn x (Set.Iio n)) (hg : IsGenus m n g) :
    ∃ tr data c, spanningTreeOf (exactCOps lam) (WOps.ofOrder (-1)) sort x (treeInit (WOps.ofOrder (-1)) N) n type = .ok tr ∧
      tr.e.length = N ∧ treeYdataInit exact exactTests x n m tr.e = .ok data ∧
      intersectionTree (shiftOracle exact exactTests data m) tr.e m = .ok c ∧ Antisymm (c.toMat (tr.e.length * (m - 1))) ∧
      ∀ (F : Type) [Field F], ((c.toMat (tr.e.length * (m - 1))).map (Int.cast : ℤ → F)).rank = 2 * g := by
  obtain ⟨tr, data, c, h1, hlen, hdat, hc, hanti, hpt⟩ := plainTree_from_points hsort hlam type (edgeCount_lt hN) hm hm' hx
  exact ⟨tr, data, c, h1, hlen, hdat, hc, hanti, fun F _ => rank_of_plainTree hm (hlen ▸ hN) hg hpt F⟩

/-- the pairings of the dual loops are `±1` -/
def UnitDual (I : Nat × Nat → Nat × Nat → Int) (al be : List (List Gamma)) : Prop :=
  ∀ (i : Nat) (x y : List Gamma), al[i]? = some x → be[i]? = some y → (Chain.pair I (toChain x) (toChain y)).natAbs = 1

theorem unitDual_of {len m1 g : Nat} {P C : Mat (len * m1)}
    (hb : ∀ a b : Fin (len * m1), a.val < 2 * g ∧ b.val = partner a.val → ((P * C * P.transpose) a b).natAbs = 1) (hg : 2 * g ≤ len * m1)
    {al be : List (List Gamma)} (hal : al.length = g)
    (hl : ∀ k (_ : k < g) (h : 2 * (0 + k) + 1 < len * m1),
        al[k]? = some (loopOf P m1 ⟨2 * (0 + k), by omega⟩) ∧
        be[k]? = some (loopOf P m1 ⟨2 * (0 + k) + 1, h⟩))
    {I : Nat × Nat → Nat × Nat → Int}
    (hI : ∀ a b : Fin (len * m1), I (a.val / m1, a.val % m1) (b.val / m1, b.val % m1) = C a b) : UnitDual I al be := by
  intro i x y hx hy
  have hi : i < g := by
    have := (List.getElem?_eq_some_iff.1 hx).1; omega
  obtain ⟨h1, h2⟩ := hl i hi (by omega)
  rw [hx] at h1
  rw [hy] at h2
  obtain rfl := Option.some.inj h1
  obtain rfl := Option.some.inj h2
  rw [pair_eq_entry P C _ _ I hI]
  refine hb _ _ ⟨by simp only; omega, ?_⟩
  simp only [partner]
  rw [if_pos (by omega)]

/-- the reduction and the loops, for any antisymmetric matrix of rank `2g` over every field -/
theorem basis_of_rank {W : Type} (xg : XGcd) {o : ShiftOracle} {es : List (Edge W)} {m g : Nat} (hm : 2 ≤ m) {c : IMat} (hc : intersectionTree o es m = .ok c)
    (hanti : Antisymm (c.toMat (es.length * (m - 1)))) (hrk : ∀ (F : Type) [Field F], ((c.toMat (es.length * (m - 1))).map (Int.cast : ℤ → F)).rank = 2 * g) :
    ∃ P : Mat (es.length * (m - 1)), Unimodular P ∧ 2 * g ≤ es.length * (m - 1) ∧
      (∀ a b, 2 * g ≤ a.val → (P * c.toMat (es.length * (m - 1)) * P.transpose) a b = 0) ∧ ∃ N, ∀ fuel, N ≤ fuel →
        ((∀ a j : Fin (es.length * (m - 1)), a.val < 2 * g → FitsSlong (P a j)) →
          ∃ al be, symplecticBasis xg fuel o es m g = .ok (al, be) ∧
            IsSymplecticBasis es.length (m - 1) g (fun s t => c (s.1 * (m - 1) + s.2) (t.1 * (m - 1) + t.2)) P al be ∧
            UnitDual (fun s t => c (s.1 * (m - 1) + s.2) (t.1 * (m - 1) + t.2)) al be) ∧
        (¬ (∀ a j : Fin (es.length * (m - 1)), a.val < 2 * g → FitsSlong (P a j)) →
          symplecticBasis xg fuel o es m g = .abort "coefficient too large in basis") := by
  obtain ⟨st, ⟨N, hN⟩, hU, hcong, hent⟩ := reduces_units xg hanti (hrk ℚ) (fun p _ => hrk (ZMod p))
  obtain ⟨hbf, -⟩ := C05_block_form hanti (hrk ℚ).ge (hN N le_rfl)
  have hpos : 0 < m - 1 := by omega
  have hg2 := hbf.1
  rw [hcong] at hbf hent
  refine ⟨st.P, hU, hg2, fun a b ha => (hent a b).2 (by omega), N, fun fuel hf => ?_⟩
  have e0 : symplecticBasis xg fuel o es m g = basisLoops st.P (m - 1) g 0 := by
    simp only [symplecticBasis, hc, Res.ok_bind, hN fuel hf]
  rw [e0]
  have hI : ∀ a b : Fin (es.length * (m - 1)), c (a.val / (m - 1) * (m - 1) + a.val % (m - 1)) (b.val / (m - 1) * (m - 1) + b.val % (m - 1)) =
      c.toMat (es.length * (m - 1)) a b := by
    intro a b
    simp only [Nat.mul_comm _ (m - 1), Nat.div_add_mod]
    rfl
  constructor
  · intro hfit
    obtain ⟨al, be, e1, e2, e3, e4⟩ := basisLoops_ok st.P hpos g 0 (by omega)
      (fun a j _ ha => hfit a j (by omega))
    exact ⟨al, be, e1, isSymplecticBasis_of hpos hbf e2 e3 e4 hI, unitDual_of (fun a b h => (hent a b).1 h) hg2 e2 e4 hI⟩
  · intro hfit
    exact basisLoops_abort st.P hpos g 0 (by omega)
      (fun h => hfit fun a j ha => h a j (by omega) (by omega))

/-- **C48.** For every `m ≥ 2` below `2^62` and all `n ≥ 1` distinct branch points, a tree of as many edges as `abel_jacobi_init_poly` asks for, in exact arithmetic, with either method of integration, any extended gcd
and `g` the genus of the curve: the tree, the data and the intersection matrix `c` are computed, and `symplectic_basis` terminates.  There is a unimodular matrix
`P` such that, if the first `2g` rows of `P` fit machine integers, the `g` loops `alpha` and the `g` loops `beta` returned are these rows and form a symplectic
basis for the intersection numbers `c`, dual loops having intersection number `±1`; otherwise the program aborts with a message. -/
theorem C48_symplectic_basis (xg : XGcd) {sort : List (Edge ℝ) → List (Edge ℝ)} (hsort : SortsByR sort) {lam : ℝ} (hlam : lam ≠ 0) (type : IntType)
    {x : Nat → ℂ} {n m g N : Nat} (hm : 2 ≤ m) (hN : EdgeCount m n N) (hm' : m < 2 ^ 62) (hx : Set.InjOn x (Set.Iio n)) (hg : IsGenus m n g) :
    ∃ tr data c, spanningTreeOf (exactCOps lam) (WOps.ofOrder (-1)) sort x (treeInit (WOps.ofOrder (-1)) N) n type = .ok tr ∧
      treeYdataInit exact exactTests x n m tr.e = .ok data ∧ intersectionTree (shiftOracle exact exactTests data m) tr.e m = .ok c ∧
      ∃ P : Mat (tr.e.length * (m - 1)), Unimodular P ∧ 2 * g ≤ tr.e.length * (m - 1) ∧
      (∀ a b, 2 * g ≤ a.val → (P * c.toMat (tr.e.length * (m - 1)) * P.transpose) a b = 0) ∧ ∃ N, ∀ fuel, N ≤ fuel →
        ((∀ a j : Fin (tr.e.length * (m - 1)), a.val < 2 * g → FitsSlong (P a j)) →
          ∃ al be, symplecticBasis xg fuel (shiftOracle exact exactTests data m) tr.e m g = .ok (al, be) ∧
            IsSymplecticBasis tr.e.length (m - 1) g (fun s t => c (s.1 * (m - 1) + s.2) (t.1 * (m - 1) + t.2)) P al be ∧
            UnitDual (fun s t => c (s.1 * (m - 1) + s.2) (t.1 * (m - 1) + t.2)) al be) ∧
        (¬ (∀ a j : Fin (tr.e.length * (m - 1)), a.val < 2 * g → FitsSlong (P a j)) →
          symplecticBasis xg fuel (shiftOracle exact exactTests data m) tr.e m g = .abort "coefficient too large in basis") := by
  obtain ⟨tr, data, c, h1, -, h2, hc, hanti, hrk⟩ := C48_rank hsort hlam type hm hN hm' hx hg
  exact ⟨tr, data, c, h1, h2, hc, basis_of_rank xg hm hc hanti hrk⟩

/-- an instance: `y^3 = x (x - 1) (x - 2) (x - 3)`, of genus 3 -/
example : IsGenus 3 4 3 ∧ Set.InjOn (fun k : Nat => (k : ℂ)) (Set.Iio 4) ∧
    ∃ tr data c, spanningTreeOf (exactCOps (Real.pi / 2)) (WOps.ofOrder (-1)) sortByR (fun k => (k : ℂ)) (treeInit (WOps.ofOrder (-1)) 3) 4 .de = .ok tr ∧
      treeYdataInit exact exactTests (fun k => (k : ℂ)) 4 3 tr.e = .ok data ∧ intersectionTree (shiftOracle exact exactTests data 3) tr.e 3 = .ok c ∧
      rankQ (c.toMat (tr.e.length * 2)) = 6 := by
  have h1 : IsGenus 3 4 3 := by unfold IsGenus; decide
  have h2 : Set.InjOn (fun k : Nat => (k : ℂ)) (Set.Iio 4) := fun a _ b _ h => Nat.cast_injective (R := ℂ) h
  refine ⟨h1, h2, ?_⟩
  obtain ⟨tr, data, c, e1, -, e2, e3, -, e4⟩ := C48_rank (m := 3) (n := 4) (g := 3) sortByR_sorts (lam := Real.pi / 2) (by positivity) .de (by norm_num) (Or.inl rfl) (by norm_num) h2 h1
  exact ⟨tr, data, c, e1, e2, e3, e4 ℚ⟩

/-- an instance with one edge less: `y^3 = x (x - 1) (x - 2)`, of genus 1, where `abel_jacobi_init_poly` asks for one edge -/
example : IsGenus 3 3 1 ∧ EdgeCount 3 3 1 ∧
    ∃ tr data c, spanningTreeOf (exactCOps (Real.pi / 2)) (WOps.ofOrder (-1)) sortByR (fun k => (k : ℂ)) (treeInit (WOps.ofOrder (-1)) 1) 3 .de = .ok tr ∧
      treeYdataInit exact exactTests (fun k => (k : ℂ)) 3 3 tr.e = .ok data ∧ intersectionTree (shiftOracle exact exactTests data 3) tr.e 3 = .ok c ∧
      rankQ (c.toMat (tr.e.length * 2)) = 2 := by
  have h1 : IsGenus 3 3 1 := by unfold IsGenus; decide
  have h2 : Set.InjOn (fun k : Nat => (k : ℂ)) (Set.Iio 3) := fun a _ b _ h => Nat.cast_injective (R := ℂ) h
  have h3 : EdgeCount 3 3 1 := Or.inr ⟨by norm_num, rfl⟩
  refine ⟨h1, h3, ?_⟩
  obtain ⟨tr, data, c, e1, -, e2, e3, -, e4⟩ := C48_rank (m := 3) (n := 3) (g := 1) sortByR_sorts (lam := Real.pi / 2) (by positivity) .de (by norm_num) h3 (by norm_num) h2 h1
  exact ⟨tr, data, c, e1, e2, e3, e4 ℚ⟩

end Hcp
