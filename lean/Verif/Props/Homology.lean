import Verif.Proofs.Homology

/-!
# C15: the homology basis
-/

namespace Hcp
open Spec

variable {W : Type}

theorem loopOf_terms {r : Nat} (p : Mat r) {m1 : Nat} (hm : 0 < m1) {len : Nat} (hr : r = len * m1)
    (i : Fin r) :
    (∀ t ∈ loopOf p m1 i, t.coeff ≠ 0 ∧ t.index < len ∧ t.shift < m1) ∧
    ((loopOf p m1 i).map fun t => (t.index, t.shift)).Nodup := by
  constructor
  · intro t ht
    obtain ⟨k, hk, rfl⟩ := List.mem_map.1 ht
    obtain ⟨h1, h2⟩ := mem_nz.1 hk
    refine ⟨h2, ?_, Nat.mod_lt _ hm⟩
    exact Nat.div_lt_of_lt_mul (by rw [Nat.mul_comm, ← hr]; exact h1)
  · unfold loopOf
    rw [List.map_map]
    apply List.Nodup.map
    · intro a b h
      have h1 : a / m1 = b / m1 := (Prod.mk.inj h).1
      have h2 : a % m1 = b % m1 := (Prod.mk.inj h).2
      rw [← Nat.div_add_mod a m1, ← Nat.div_add_mod b m1, h1, h2]
    · exact List.Nodup.filter _ List.nodup_range'

theorem loopOf_coeff {r : Nat} (p : Mat r) {m1 : Nat} {len : Nat} (hr : r = len * m1)
    (i : Fin r) {k s : Nat} (hk : k < len) (hs : s < m1) :
    (toChain (loopOf p m1 i)).coeff k s = p i ⟨k * m1 + s, by
      have : (k + 1) * m1 ≤ len * m1 := Nat.mul_le_mul_right _ hk
      rw [Nat.add_mul, Nat.one_mul] at this; omega⟩ := by
  unfold Chain.coeff
  rw [sum_loopOf p i (fun c l => if l = (k, s) then c else 0) (fun k => by simp)]
  have hlt : k * m1 + s < r := by
    have : (k + 1) * m1 ≤ len * m1 := Nat.mul_le_mul_right _ hk
    rw [Nat.add_mul, Nat.one_mul] at this; omega
  rw [Finset.sum_eq_single (⟨k * m1 + s, hlt⟩ : Fin r)]
  · rw [if_pos]
    have h1 : (k * m1 + s) / m1 = k := by
      rw [Nat.mul_comm, Nat.mul_add_div (by omega), Nat.div_eq_of_lt hs]; rfl
    have h2 : (k * m1 + s) % m1 = s := by
      rw [Nat.mul_comm, Nat.mul_add_mod, Nat.mod_eq_of_lt hs]
    simp only [h1, h2]
  · intro b _ hb
    rw [if_neg]
    intro h
    apply hb
    have h1 : b.val / m1 = k := (Prod.mk.inj h).1
    have h2 : b.val % m1 = s := (Prod.mk.inj h).2
    apply Fin.ext
    simp only
    rw [← h1, ← h2, Nat.mul_comm]
    exact (Nat.div_add_mod _ _).symm
  · simp

theorem pair_eq_entry {r : Nat} (p C : Mat r) {m1 : Nat} (i i' : Fin r)
    (I : Nat × Nat → Nat × Nat → Int)
    (hI : ∀ a b : Fin r, I (a.val / m1, a.val % m1) (b.val / m1, b.val % m1) = C a b) :
    Chain.pair I (toChain (loopOf p m1 i)) (toChain (loopOf p m1 i')) = (p * C * p.transpose) i i' := by
  rw [pair_loopOf]
  simp only [hI, Matrix.mul_apply, Matrix.transpose_apply, Finset.sum_mul]
  rw [Finset.sum_comm]
  apply Finset.sum_congr rfl
  intro b _
  apply Finset.sum_congr rfl
  intro a _
  ring

/-- what C15 promises about the loops `al`, `be` on `len` edges with `m - 1` sheets each, for the
intersection number `I` of lifted edge loops: well-formed terms without repetition, coefficients given by the
rows of a unimodular matrix, and the symplectic relations with non-zero `d_i`. -/
structure IsSymplecticBasis (len m1 g : Nat) (I : Nat × Nat → Nat × Nat → Int)
    (P : Mat (len * m1)) (al be : List (List Gamma)) : Prop where
  lengths : al.length = g ∧ be.length = g
  terms : ∀ l ∈ al ++ be, (∀ t ∈ l, t.coeff ≠ 0 ∧ t.index < len ∧ t.shift < m1) ∧
    (l.map fun t => (t.index, t.shift)).Nodup
  rows : ∀ (i k s : Nat) (x y : List Gamma), al[i]? = some x → be[i]? = some y → k < len → s < m1 →
    ∃ (a b j : Fin (len * m1)), a.val = 2 * i ∧ b.val = 2 * i + 1 ∧ j.val = k * m1 + s ∧
      (toChain x).coeff k s = P a j ∧ (toChain y).coeff k s = P b j
  isotropic : ∀ (i j : Nat) (x y : List Gamma), (al[i]? = some x ∧ al[j]? = some y) ∨
    (be[i]? = some x ∧ be[j]? = some y) → Chain.pair I (toChain x) (toChain y) = 0
  dual : ∀ (i j : Nat) (x y : List Gamma), al[i]? = some x → be[j]? = some y →
    (Chain.pair I (toChain x) (toChain y) ≠ 0 ↔ i = j)

theorem isSymplecticBasis_of {len m1 g : Nat} (hm : 0 < m1) {P C : Mat (len * m1)}
    (hb : BlockForm g (P * C * P.transpose)) {al be : List (List Gamma)}
    (hal : al.length = g) (hbe : be.length = g)
    (hl : ∀ k (_ : k < g) (h : 2 * (0 + k) + 1 < len * m1),
        al[k]? = some (loopOf P m1 ⟨2 * (0 + k), by omega⟩) ∧
        be[k]? = some (loopOf P m1 ⟨2 * (0 + k) + 1, h⟩))
    {I : Nat × Nat → Nat × Nat → Int}
    (hI : ∀ a b : Fin (len * m1), I (a.val / m1, a.val % m1) (b.val / m1, b.val % m1) = C a b) :
    IsSymplecticBasis len m1 g I P al be := by
  obtain ⟨hg, hbf⟩ := hb
  have geta : ∀ i x, al[i]? = some x → ∃ h : 2 * i < len * m1, i < g ∧ x = loopOf P m1 ⟨2 * i, h⟩ := by
    intro i x hx
    have hi : i < g := by
      have := (List.getElem?_eq_some_iff.1 hx).1; omega
    obtain ⟨h1, -⟩ := hl i hi (by omega)
    rw [hx] at h1
    simp only [Nat.zero_add] at h1
    exact ⟨by omega, hi, Option.some.inj h1⟩
  have getb : ∀ i x, be[i]? = some x →
      ∃ h : 2 * i + 1 < len * m1, i < g ∧ x = loopOf P m1 ⟨2 * i + 1, h⟩ := by
    intro i x hx
    have hi : i < g := by
      have := (List.getElem?_eq_some_iff.1 hx).1; omega
    obtain ⟨-, h1⟩ := hl i hi (by omega)
    rw [hx] at h1
    simp only [Nat.zero_add] at h1
    exact ⟨by omega, hi, Option.some.inj h1⟩
  refine ⟨⟨hal, hbe⟩, ?_, ?_, ?_, ?_⟩
  · intro l hmem
    rcases List.mem_append.1 hmem with h | h
    · obtain ⟨i, hi, rfl⟩ := List.getElem_of_mem h
      obtain ⟨h1, -, h3⟩ := geta i _ (List.getElem?_eq_getElem hi)
      rw [h3]; exact loopOf_terms P hm rfl _
    · obtain ⟨i, hi, rfl⟩ := List.getElem_of_mem h
      obtain ⟨h1, -, h3⟩ := getb i _ (List.getElem?_eq_getElem hi)
      rw [h3]; exact loopOf_terms P hm rfl _
  · intro i k s x y hx hy hk hs
    obtain ⟨h1, -, rfl⟩ := geta i x hx
    obtain ⟨h2, -, rfl⟩ := getb i y hy
    have hlt : k * m1 + s < len * m1 := by
      have : (k + 1) * m1 ≤ len * m1 := Nat.mul_le_mul_right _ hk
      rw [Nat.add_mul, Nat.one_mul] at this; omega
    exact ⟨⟨2 * i, h1⟩, ⟨2 * i + 1, h2⟩, ⟨k * m1 + s, hlt⟩, rfl, rfl, rfl,
      loopOf_coeff P rfl _ hk hs, loopOf_coeff P rfl _ hk hs⟩
  · rintro i j x y (⟨hx, hy⟩ | ⟨hx, hy⟩)
    · obtain ⟨h1, hi, rfl⟩ := geta i x hx
      obtain ⟨h2, hj, rfl⟩ := geta j y hy
      rw [pair_eq_entry P C _ _ I hI]
      by_contra hne
      have := (hbf ⟨2 * i, h1⟩ ⟨2 * j, h2⟩ (by simp only; omega)).1 hne
      simp only [partner] at this
      rw [if_pos (by omega)] at this
      omega
    · obtain ⟨h1, hi, rfl⟩ := getb i x hx
      obtain ⟨h2, hj, rfl⟩ := getb j y hy
      rw [pair_eq_entry P C _ _ I hI]
      by_contra hne
      have := (hbf ⟨2 * i + 1, h1⟩ ⟨2 * j + 1, h2⟩ (by simp only; omega)).1 hne
      simp only [partner] at this
      rw [if_neg (by omega)] at this
      omega
  · intro i j x y hx hy
    obtain ⟨h1, hi, rfl⟩ := geta i x hx
    obtain ⟨h2, hj, rfl⟩ := getb j y hy
    rw [pair_eq_entry P C _ _ I hI, hbf ⟨2 * i, h1⟩ ⟨2 * j + 1, h2⟩ (by simp only; omega)]
    simp only [partner]
    rw [if_pos (by omega)]
    omega

/-- **C15.** Let `c` be the intersection matrix computed for the tree `e` and let its rank be at least
`2g`.  Then `symplectic_basis` terminates; with `P` the unimodular base change, it aborts exactly
when some coefficient of the first `2g` rows of `P` does not fit a machine integer, and otherwise
returns loops which are the rows of `P` and form a symplectic family for the intersection numbers `c`. -/
theorem C15_symplectic_basis (xg : XGcd) (o : ShiftOracle) (e : List (Edge W)) {m g : Nat} (hm : 2 ≤ m)
    {sab sbd : Nat → Nat → Int} (hs : Shifts o e sab sbd) {c : IMat} (hc : intersectionTree o e m = .ok c)
    (hr : 2 * g ≤ rankQ (c.toMat (e.length * (m - 1)))) :
    ∃ P : Mat (e.length * (m - 1)), Unimodular P ∧ ∃ N, ∀ fuel, N ≤ fuel →
      ((∀ a j : Fin (e.length * (m - 1)), a.val < 2 * g → FitsSlong (P a j)) →
        ∃ al be, symplecticBasis xg fuel o e m g = .ok (al, be) ∧
          IsSymplecticBasis e.length (m - 1) g
            (fun s t => c (s.1 * (m - 1) + s.2) (t.1 * (m - 1) + t.2)) P al be) ∧
      (¬ (∀ a j : Fin (e.length * (m - 1)), a.val < 2 * g → FitsSlong (P a j)) →
        symplecticBasis xg fuel o e m g = .abort "coefficient too large in basis") := by
  obtain ⟨c', h1, h2⟩ := C13_antisymmetric_small o e hm hs
  rw [hc] at h1
  obtain rfl : c = c' := Res.ok.inj h1
  have hanti : Antisymm (c.toMat (e.length * (m - 1))) := fun a b => (h2 a b a.isLt b.isLt).1
  obtain ⟨st, N, hN⟩ := C04_terminates xg _ g hanti hr
  obtain ⟨hU, hcong, -⟩ := C04_unimodular_congruence hanti hr (hN N le_rfl)
  obtain ⟨hbf, -⟩ := C05_block_form hanti hr (hN N le_rfl)
  rw [hcong] at hbf
  refine ⟨st.P, hU, N, fun fuel hf => ?_⟩
  have e0 : symplecticBasis xg fuel o e m g = basisLoops st.P (m - 1) g 0 := by
    simp only [symplecticBasis, hc, Res.ok_bind, hN fuel hf]
  rw [e0]
  have hpos : 0 < m - 1 := by omega
  constructor
  · intro hfit
    obtain ⟨al, be, e1, e2, e3, e4⟩ := basisLoops_ok st.P hpos g 0 (by have := hbf.1; omega)
      (fun a j _ ha => hfit a j (by omega))
    refine ⟨al, be, e1, isSymplecticBasis_of hpos hbf e2 e3 e4 ?_⟩
    intro a b
    simp only [Nat.mul_comm _ (m - 1), Nat.div_add_mod]
    rfl
  · intro hfit
    exact basisLoops_abort st.P hpos g 0 (by have := hbf.1; omega)
      (fun h => hfit fun a j ha => h a j (by omega) (by omega))

theorem two_le_rank {r : Nat} {M : Mat r} (ha : Antisymm M) {a b : Fin r} (h : M a b ≠ 0) :
    2 ≤ rankQ M := by
  have haa : M a a = 0 := by have := ha a a; omega
  have hbb : M b b = 0 := by have := ha b b; omega
  have hba : M b a ≠ 0 := by have := ha a b; omega
  have hli : LinearIndependent ℚ
      ((M.map (Int.cast : ℤ → ℚ)).submatrix (![a, b] : Fin 2 → Fin r) id).row := by
    rw [Fintype.linearIndependent_iff]
    intro c hc
    have h0 := congrFun hc a
    have h1 := congrFun hc b
    rw [Fin.sum_univ_two] at h0 h1
    have h0' : c 0 * (M a a : ℚ) + c 1 * (M b a : ℚ) = 0 := h0
    have h1' : c 0 * (M a b : ℚ) + c 1 * (M b b : ℚ) = 0 := h1
    rw [haa] at h0'
    rw [hbb] at h1'
    simp [h, hba] at h0' h1'
    intro i
    fin_cases i
    · exact h1'
    · exact h0'
  have h1 := hli.rank_matrix
  have h2 := Matrix.rank_submatrix_le (M.map (Int.cast : ℤ → ℚ)) (![a, b] : Fin 2 → Fin r) id
  rw [h1] at h2
  simpa [rankQ] using h2

/-- The hypotheses of C15 are met by the tree `(0,1), (1,2)` with `m = 3` and `g = 1`. -/
example : ∃ c, intersectionTree ⟨fun _ _ => .ok 2, fun _ _ => .ok 1, fun _ _ => true⟩
      ([⟨0, 1, 5⟩, ⟨1, 2, 4⟩] : List (Edge Nat)) 3 = .ok c ∧ 2 * 1 ≤ rankQ (c.toMat (2 * (3 - 1))) := by
  obtain ⟨c, e, h⟩ := C13_antisymmetric_small (m := 3)
    ⟨fun _ _ => .ok 2, fun _ _ => .ok 1, fun _ _ => true⟩ ([⟨0, 1, 5⟩, ⟨1, 2, 4⟩] : List (Edge Nat))
    (by omega) (sab := fun _ _ => 2) (sbd := fun _ _ => 1)
    ⟨fun _ _ _ _ _ _ _ _ => rfl, fun _ _ _ _ _ _ _ _ _ => rfl⟩
  refine ⟨c, e, two_le_rank (a := ⟨0, by omega⟩) (b := ⟨1, by omega⟩)
    (fun a b => (h a b a.isLt b.isLt).1) ?_⟩
  obtain rfl := Res.ok.inj e
  decide +kernel

/-- ... and the result is a pair of loops. -/
example : ∃ (al be : List (List Gamma)),
    symplecticBasis XGcd.std 3 ⟨fun _ _ => .ok 2, fun _ _ => .ok 1, fun _ _ => true⟩
      ([⟨0, 1, 5⟩, ⟨1, 2, 4⟩] : List (Edge Nat)) 3 1 = .ok (al, be) ∧
      al = [[⟨1, 0, 0⟩]] ∧ be = [[⟨1, 1, 0⟩]] :=
  ⟨_, _, rfl, by decide +kernel, by decide +kernel⟩

end Hcp
