import Verif.Proofs.NonDeg
import Verif.Props.HyperBasis
import Verif.Proofs.TreeChain

/-!
# C06, C48: orientation of the basis
-/

namespace Hcp
open Spec

/-- the reduction of a matrix invertible over every field -/
theorem reduces_nondeg {r g : Nat} (hr : r = 2 * g) (xg : XGcd) {M : Mat r} (ha : Antisymm M) (hrk : ∀ (F : Type) [Field F], (M.map (Int.cast : ℤ → F)).rank = 2 * g) :
    ∃ st : St r, (∀ fuel, 1 ≤ fuel → symplecticReduction xg fuel M g = .ok st) ∧ Unimodular st.P ∧ IsCongruence st.P M st.M ∧ st.M = stdJ r g := by
  have hq : rankQ M = 2 * g := hrk ℚ
  obtain ⟨st, h⟩ := reduceLoop_one hr (fun p _ => hrk (ZMod p)) hq xg g 0 r _ (Fr.init M ha) (by omega)
  have h' : symplecticReduction xg 1 M g = .ok st := h
  have hpos := C06_orientation_partial ha hq.ge h'
  obtain ⟨len, hf⟩ := Reduces.fr ha hq.ge h'
  obtain ⟨st', ⟨N, hN⟩, hU, hcong, hent⟩ := reduces_units xg ha hq (fun p _ => hrk (ZMod p))
  have e := reduceLoop_mono xg (Nat.le_add_right 1 N) h
  rw [show reduceLoop xg (1 + N) g 0 r _ = .ok st' from hN (1 + N) (by omega)] at e
  obtain rfl := Res.ok.inj e
  refine ⟨st', fun fuel hfu => reduceLoop_mono xg hfu h, hU, hcong, ?_⟩
  have hu : ∀ a b : Fin r, a.val < 2 * g → a.val % 2 = 0 → b.val = a.val + 1 → st'.M a b = 1 := by
    intro a b h1 h2 h3
    have k1 := hpos a b h1 h2 h3
    have k2 := (hent a b).1 ⟨h1, by unfold partner; rw [if_pos h2]; exact h3⟩
    omega
  funext a b
  unfold stdJ
  split
  · rename_i h1; exact hu a b h1.1 h1.2.1 h1.2.2
  · rename_i h1
    split
    · rename_i h2; rw [hf.inv.anti, hu b a h2.1 h2.2.1 h2.2.2]
    · rename_i h2
      have ha' : a.val < 2 * g := by have := a.isLt; omega
      by_contra hne
      have := (hf.blk a b ha').1 hne
      unfold partner at this
      split at this
      · rename_i h3; exact h1 ⟨ha', h3, this⟩
      · exact h2 ⟨by omega, by omega, by omega⟩

/-- **C06 (non degenerate forms).** For every antisymmetric integer matrix with an integer inverse, whatever the extended gcd, the reduction needs one pass for each block and returns the standard form with its orientation. -/
theorem C06_nondegenerate {r g : Nat} (hr : r = 2 * g) (xg : XGcd) {M : Mat r} (ha : Antisymm M) (hM : Unimodular M) :
    ∃ st : St r, (∀ fuel, 1 ≤ fuel → symplecticReduction xg fuel M g = .ok st) ∧ Unimodular st.P ∧ IsCongruence st.P M st.M ∧ st.M = stdJ r g := by
  refine reduces_nondeg hr xg ha fun F _ => ?_
  obtain ⟨Q, h1, -⟩ := hM
  have hd : (M * Q).map (Int.cast : ℤ → F) = M.map Int.cast * Q.map Int.cast := by
    have := Matrix.map_mul (L := M) (M := Q) (f := Int.castRingHom F)
    simpa using this
  have h2 : M.map (Int.cast : ℤ → F) * Q.map Int.cast = 1 := by
    rw [← hd, h1]; simp
  rw [Matrix.rank_of_isUnit _ (IsUnit.of_mul_eq_one _ h2), Fintype.card_fin, hr]

/-- a matrix with no `±1` in its first row, which needs a Bezout step: the conditions of `C06_nondegenerate` hold -/
example : ∃ M : Mat 4, Antisymm M ∧ Unimodular M ∧ M 0 1 = 2 ∧ M 0 2 = 3 ∧ M 0 3 = 0 := by
  refine ⟨![![0, 2, 3, 0], ![-2, 0, 0, 1], ![-3, 0, 0, 1], ![0, -1, -1, 0]], ?_, ⟨![![0, 1, -1, 0], ![-1, 0, 0, -3], ![1, 0, 0, 2], ![0, 3, -2, 0]], ?_, ?_⟩, rfl, rfl, rfl⟩
  · intro a b
    fin_cases a <;> fin_cases b <;> rfl
  · decide
  · decide

theorem edgeCount_of_size {m n N : Nat} (h : TreeSize m n N) : EdgeCount m n N := by
  by_cases hd : m ∣ n
  · exact Or.inr ⟨hd, h.1 hd⟩
  · exact Or.inl (h.2 hd)

/-- for these curves the intersection form is non degenerate -/
theorem edges_genus {m n N g : Nat} (hm : 2 ≤ m) (hN : TreeSize m n N) (hg : IsGenus m n g) (h : Nat.Coprime m n ∨ m ∣ n) : N * (m - 1) = 2 * g := by
  have hgen : 2 * g + Nat.gcd m n = (n - 1) * (m - 1) + 1 := by
    have hn : 1 ≤ n := by have := edgeCount_lt (edgeCount_of_size hN); omega
    unfold IsGenus at hg
    rw [Int.gcd_natCast_natCast] at hg
    zify [hn, (by omega : 1 ≤ m)]
    linarith
  by_cases hd : m ∣ n
  · have hN2 := hN.1 hd
    have e1 : Nat.gcd m n = m := Nat.gcd_eq_left hd
    have e3 : n - 1 = N + 1 := by omega
    rw [e1, e3, Nat.add_mul, Nat.one_mul] at hgen
    omega
  · have hN2 := hN.2 hd
    have e : n - 1 = N := by omega
    rw [e, (h.resolve_right hd).gcd_eq_one] at hgen
    omega

/-- the prefixes of the matrix of a tree -/
theorem loc_of_plainTree {m N : Nat} (hm : 2 ≤ m) {c : IMat} (h : 0 < N → ∃ a b d Ya Yb, PlainTree m N a b d Ya Yb c) : Loc (PlaneTree.chainE m N) 0 (c.toMat (N * (m - 1))) := by
  rcases Nat.eq_zero_or_pos N with h0 | hpos
  · have he : ∀ {κ : Type}, (κ → Fin (N * (m - 1))) → IsEmpty κ := fun f => ⟨fun z => absurd (f z).isLt (by have h2 : N * (m - 1) = 0 := (by rw [h0, Nat.zero_mul]); omega)⟩
    constructor
    · intro k κ _ _ f _ _
      have := he f
      rw [Matrix.det_isEmpty]
      decide
    · intro k κ _ _ f _ _ _
      have := he f
      rw [Matrix.det_isEmpty]
      rfl
  · obtain ⟨a, b, d, Ya, Yb, p⟩ := h hpos
    obtain ⟨pe, hg, hE⟩ := exists_planeTree hm p.start p.new p.hd p.hYa p.hYb p.self p.anti p.h1 p.h2 p.h3
    have : NeZero m := ⟨by omega⟩
    refine hg.loc hm fun i j => ?_
    have hlt : ∀ i : Fin (N * (m - 1)), i.val / (m - 1) < N ∧ i.val % (m - 1) < m - 1 := fun i =>
      ⟨Nat.div_lt_of_lt_mul (lt_of_lt_of_eq i.isLt (Nat.mul_comm _ _)), Nat.mod_lt _ (by omega)⟩
    have := hE _ (hlt i).1 _ (hlt j).1 _ (hlt i).2 _ (hlt j).2
    simp only [Nat.mul_comm _ (m - 1), Nat.div_add_mod] at this
    exact this

/-- number of loops of a tree and genus -/
theorem edges_genus_gcd {m n N g : Nat} (hm : 2 ≤ m) (hN : EdgeCount m n N) (hg : IsGenus m n g) : 2 * g + Nat.gcd m (N + 1) = N * (m - 1) + 1 := by
  have hgen : 2 * g + Nat.gcd m n = (n - 1) * (m - 1) + 1 := by
    have hn : 1 ≤ n := by have := edgeCount_lt hN; omega
    unfold IsGenus at hg
    rw [Int.gcd_natCast_natCast] at hg
    zify [hn, (by omega : 1 ≤ m)]
    linarith
  rcases hN with hN1 | ⟨hdvd, hN2⟩
  · rw [hN1]
    have : n - 1 = N := by omega
    rw [this] at hgen
    exact hgen
  · have e1 : Nat.gcd m n = m := Nat.gcd_eq_left hdvd
    have e2 : Nat.gcd m (N + 1) = 1 := by
      refine Nat.dvd_one.1 ?_
      have q1 : Nat.gcd m (N + 1) ∣ N + 1 + 1 := (Nat.gcd_dvd_left m (N + 1)).trans (hN2 ▸ hdvd)
      exact (Nat.dvd_add_right (Nat.gcd_dvd_right m (N + 1))).1 q1
    have e3 : n - 1 = N + 1 := by omega
    rw [e1, e3, Nat.add_mul, Nat.one_mul] at hgen
    rw [e2]
    omega

/-- the reduction and the loops, for the matrix of a tree -/
theorem basis_of_chain {W : Type} (xg : XGcd) {o : ShiftOracle} {es : List (Edge W)} {m n g : Nat} (hm : 2 ≤ m) (hN : EdgeCount m n es.length) (hgen : IsGenus m n g) {c : IMat} (hc : intersectionTree o es m = .ok c)
    (hanti : Antisymm (c.toMat (es.length * (m - 1)))) (hpt : 0 < es.length → ∃ a b d Ya Yb, PlainTree m es.length a b d Ya Yb c) :
    ∃ P : Mat (es.length * (m - 1)), Unimodular P ∧ P * c.toMat (es.length * (m - 1)) * P.transpose = stdJ (es.length * (m - 1)) g ∧ 2 * g ≤ es.length * (m - 1) ∧
      ((∀ a j : Fin (es.length * (m - 1)), a.val < 2 * g → FitsSlong (P a j)) → ∃ al be, (∀ fuel, 1 ≤ fuel → symplecticBasis xg fuel o es m g = .ok (al, be)) ∧
        IsSymplecticBasis es.length (m - 1) g (fun s t => c (s.1 * (m - 1) + s.2) (t.1 * (m - 1) + t.2)) P al be ∧
        PositiveDual (fun s t => c (s.1 * (m - 1) + s.2) (t.1 * (m - 1) + t.2)) al be) ∧
      (¬ (∀ a j : Fin (es.length * (m - 1)), a.val < 2 * g → FitsSlong (P a j)) → ∀ fuel, 1 ≤ fuel → symplecticBasis xg fuel o es m g = .abort "coefficient too large in basis") := by
  have hrk := rank_of_plainTree hm hN hgen hpt ℚ
  have hcount := edges_genus_gcd hm hN hgen
  have hgcd := (PlaneTree.gcd_facts hm es.length).1
  have hE : PlaneTree.chainE m es.length (2 * es.length) = 2 * g := by
    rw [PlaneTree.chainE_even le_rfl]
    omega
  obtain ⟨st, hred, hU, hcong, hstd⟩ := reduces_chain xg hanti hrk (PlaneTree.chainE_mono hm) PlaneTree.chainE_zero (PlaneTree.chainE_le hm) hE (by omega) (loc_of_plainTree hm hpt)
  obtain ⟨hbf, -⟩ := C05_block_form hanti hrk.ge (hred 1 le_rfl)
  have hg2 := hbf.1
  have hcong' : st.P * c.toMat (es.length * (m - 1)) * st.P.transpose = stdJ (es.length * (m - 1)) g := by
    have : st.M = st.P * c.toMat (es.length * (m - 1)) * st.P.transpose := hcong
    rw [← this, hstd]
  rw [hstd, ← hcong'] at hbf
  refine ⟨st.P, hU, hcong', hg2, ?_⟩
  have e0 : ∀ fuel, 1 ≤ fuel → symplecticBasis xg fuel o es m g = basisLoops st.P (m - 1) g 0 := by
    intro fuel hf
    simp only [symplecticBasis, hc, Res.ok_bind, hred fuel hf]
  have hI : ∀ a b : Fin (es.length * (m - 1)), c (a.val / (m - 1) * (m - 1) + a.val % (m - 1)) (b.val / (m - 1) * (m - 1) + b.val % (m - 1)) =
      c.toMat (es.length * (m - 1)) a b := by
    intro a b
    simp only [Nat.mul_comm _ (m - 1), Nat.div_add_mod]
    rfl
  constructor
  · intro hfit
    obtain ⟨al, be, e1, e2, e3, e4⟩ := basisLoops_ok st.P (by omega : 0 < m - 1) g 0 (by omega) (fun a j _ ha => hfit a j (by omega))
    refine ⟨al, be, fun fuel hf => by rw [e0 fuel hf]; exact e1, isSymplecticBasis_of (by omega) hbf e2 e3 e4 hI, ?_⟩
    intro i u v hu hv
    have hi : i < g := by
      have := (List.getElem?_eq_some_iff.1 hu).1; omega
    obtain ⟨q1, q2⟩ := e4 i hi (by omega)
    rw [hu] at q1
    rw [hv] at q2
    obtain rfl := Option.some.inj q1
    obtain rfl := Option.some.inj q2
    rw [pair_eq_entry st.P (c.toMat (es.length * (m - 1))) _ _ _ hI, hcong']
    unfold stdJ
    rw [if_pos ⟨by dsimp only; omega, by dsimp only; omega, rfl⟩]
  · intro hfit fuel hf
    rw [e0 fuel hf]
    exact basisLoops_abort st.P (by omega) g 0 (by omega) (fun h => hfit fun a j ha => h a j (by omega) (by omega))

/-- **C48 (orientation).** For every `m ≥ 2` below `2^62` and all `n ≥ 1` distinct branch points, with a tree of as many edges as `abel_jacobi_init_poly` asks for, in exact arithmetic, with either method of integration and any extended gcd: the reduction needs one pass for each
pair; the loops it finds are the first `2g` rows of a unimodular matrix `P` which takes the intersection matrix to the standard form, so `alpha_i . beta_i = +1` for all `i`.  They are returned if these coefficients fit machine integers; otherwise the program aborts with a message. -/
theorem C48_oriented (xg : XGcd) {sort : List (Edge ℝ) → List (Edge ℝ)} (hsort : SortsByR sort) {lam : ℝ} (hlam : lam ≠ 0) (type : IntType)
    {x : Nat → ℂ} {n m g N : Nat} (hm : 2 ≤ m) (hN : EdgeCount m n N) (hm' : m < 2 ^ 62) (hx : Set.InjOn x (Set.Iio n)) (hg : IsGenus m n g) :
    ∃ tr data c, spanningTreeOf (exactCOps lam) (WOps.ofOrder (-1)) sort x (treeInit (WOps.ofOrder (-1)) N) n type = .ok tr ∧
      treeYdataInit exact exactTests x n m tr.e = .ok data ∧ intersectionTree (shiftOracle exact exactTests data m) tr.e m = .ok c ∧
      ∃ P : Mat (tr.e.length * (m - 1)), Unimodular P ∧ P * c.toMat (tr.e.length * (m - 1)) * P.transpose = stdJ (tr.e.length * (m - 1)) g ∧ 2 * g ≤ tr.e.length * (m - 1) ∧
        ((∀ a j : Fin (tr.e.length * (m - 1)), a.val < 2 * g → FitsSlong (P a j)) → ∃ al be, (∀ fuel, 1 ≤ fuel → symplecticBasis xg fuel (shiftOracle exact exactTests data m) tr.e m g = .ok (al, be)) ∧
          IsSymplecticBasis tr.e.length (m - 1) g (fun s t => c (s.1 * (m - 1) + s.2) (t.1 * (m - 1) + t.2)) P al be ∧
          PositiveDual (fun s t => c (s.1 * (m - 1) + s.2) (t.1 * (m - 1) + t.2)) al be) ∧
        (¬ (∀ a j : Fin (tr.e.length * (m - 1)), a.val < 2 * g → FitsSlong (P a j)) → ∀ fuel, 1 ≤ fuel → symplecticBasis xg fuel (shiftOracle exact exactTests data m) tr.e m g = .abort "coefficient too large in basis") := by
  obtain ⟨tr, data, c, h1, hlen, hdat, hc, hanti, hpt⟩ := plainTree_from_points hsort hlam type (edgeCount_lt hN) hm hm' hx
  exact ⟨tr, data, c, h1, hdat, hc, basis_of_chain xg hm (hlen ▸ hN) hg hc hanti hpt⟩

/-- instances: `m = 3, n = 4`, `m = 3, n = 6`, and `m = 4, n = 6`, where the intersection matrix of size `15` has rank `14` -/
example : (EdgeCount 3 4 3 ∧ IsGenus 3 4 3) ∧ (EdgeCount 3 6 4 ∧ IsGenus 3 6 4) ∧ EdgeCount 4 6 5 ∧ IsGenus 4 6 7 := by
  refine ⟨⟨Or.inl rfl, by unfold IsGenus; decide⟩, ⟨Or.inr ⟨by norm_num, rfl⟩, by unfold IsGenus; decide⟩, Or.inl rfl, by unfold IsGenus; decide⟩

end Hcp
