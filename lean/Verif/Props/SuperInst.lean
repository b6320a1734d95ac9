import Verif.Props.SuperPeriods
import Verif.Props.CurveInst

/-!
# An instance of the hypotheses of C52

The curve `y^3 = (x + 1) (x - 1) (x - i √3)` of genus 1, the tree of two sides of the triangle, computed in the arithmetic of sets.
-/

namespace Hcp

open Set Spec

theorem triEdges_free : FreeEdges tri 3 triEdges := by
  have key : ∀ a b k : Nat, ((a = 0 ∧ b = 1) ∨ (a = 1 ∧ b = 2)) → k < 3 → k ≠ a → k ≠ b → ∀ t : ℝ, tri k ≠ edgePt (tri a) (tri b) t := by
    intro a b k hab hk ha hb t e
    have hc : a < 3 ∧ b < 3 ∧ a ≠ b := by omega
    obtain ⟨y, -, -, hE⟩ := tri_data (m := 2) (by norm_num) hc.1 hc.2.1 hc.2.2
    have hu := tri_u hab hE
    obtain ⟨τ, hτ, hx⟩ := hE.pts
    have h0 := hx 0 (by norm_num)
    obtain ⟨k1, k2, k3⟩ := hτ.mapsTo (show (0 : Nat) ∈ Set.Iio (3 - 2) by simp)
    have : τ 0 = k := by omega
    rw [this, e, hu] at h0
    have hne : (tri b - tri a) / 2 ≠ 0 := div_ne_zero (sub_ne_zero.2 fun h => hc.2.2 (tri_inj hc.1 hc.2.1 h.symm)) two_ne_zero
    unfold edgePt at h0
    have h1 := congrArg Complex.im (mul_right_cancel₀ hne (add_left_cancel h0))
    simp at h1
  intro f hf k hk ha hb t _ _
  simp only [triEdges, List.mem_cons, List.not_mem_nil, or_false] at hf
  rcases hf with rfl | rfl
  · exact key 0 1 k (Or.inl ⟨rfl, rfl⟩) hk ha hb t
  · exact key 1 2 k (Or.inr ⟨rfl, rfl⟩) hk ha hb t

/-- **Instance of `C52_periods_partial`**: all its hypotheses hold together, for a curve of genus 1 (`m = 3`; also `m = 2`). -/
theorem super_inst {m : Nat} (hm : m = 2 ∨ m = 3) {f : Nat} (hf : f.testBit 5 = true) : ∃ (c : Sec) (data : List (YData (Set ℂ))) (p : DePar (Set ℂ)) (h lam e : ℝ) (I' : Nat → Nat → Set ℂ) (cc : IMat),
    secInit m 3 = .ok c ∧ c.shape.g = 1 ∧ (∀ ed ∈ triEdges, ed.a < 3 ∧ ed.b < 3) ∧ EdgeCount m 3 triEdges.length ∧
    treeYdataInit setArith sndTests (fun k => {tri k}) 3 m triEdges = .ok data ∧
    ((h : ℝ) : ℂ) ∈ p.h ∧ ((lam : ℝ) : ℂ) ∈ p.lam ∧ p.n = 10 ∧
    (∀ (v : Set ℂ) (z z' : ℂ), z ∈ v → ‖z - z'‖ ≤ e → z' ∈ p.err v) ∧
    RadiusCovers (fun s z => z ∈ s) c.shape m 3 tri triEdges data (fun _ => p) (fun _ => h) (fun _ => lam) (fun _ => e) ∧
    integralsTreeDe setArith sndTests setFns c.shape f false data (fun _ => p) [0, 1] { n := 0, factor := {0}, x := fun _ => {0}, dx := fun _ => {0}, ch2m := fun _ => {0}, err := id }
      (fun _ _ => {0}) = .ok I' ∧
    Resolved setArith sndTests tri triEdges data ∧ intersectionTree (shiftOracle setArith sndTests data m) triEdges m = .ok cc := by
  have hm0 : 0 < m := by omega
  have hm2 : 2 ≤ m := by omega
  obtain ⟨c, hc, hg⟩ : ∃ c, secInit m 3 = .ok c ∧ c.shape.g = 1 := by
    rcases hm with rfl | rfl
    · refine ⟨_, rfl, ?_⟩
      decide +kernel
    · refine ⟨_, rfl, ?_⟩
      decide +kernel
  obtain ⟨-, em, en, -⟩ := secInit_fields hc (by norm_num)
  have hcn : c.shape.n = 3 := by
    unfold Sec.shape
    simp [en]
  have hcm : c.shape.m = m := by
    unfold Sec.shape
    simp [em]
  obtain ⟨y0, d0, n0, E0⟩ := tri_data (m := m) (a := 0) (b := 1) hm0 (by norm_num) (by norm_num) (by norm_num)
  obtain ⟨y1, d1, n1, E1⟩ := tri_data (m := m) (a := 1) (b := 2) hm0 (by norm_num) (by norm_num) (by norm_num)
  let i0 := (diffOf c.shape.ni c.shape.j1 0).1
  let j0 := (diffOf c.shape.ni c.shape.j1 0).2
  let e : ℝ := max ‖trapSum m y0.n1 1 y0.u 1 i0 j0 (1 / 4 : ℝ) 10 - edgeIntegral m y0.n1 1 y0.u i0 j0‖ ‖trapSum m y1.n1 1 y1.u 1 i0 j0 (1 / 4 : ℝ) 10 - edgeIntegral m y1.n1 1 y1.u i0 j0‖
  have he : 0 ≤ e := (norm_nonneg _).trans (le_max_left _ _)
  let err : Set ℂ → Set ℂ := fun v => {z' | ∃ z ∈ v, ‖z - z'‖ ≤ e}
  let p : DePar (Set ℂ) := ⟨10, {((1 / 4 : ℝ) : ℂ)}, {((1 : ℝ) : ℂ)}, err⟩
  -- the row of an edge
  have row : ∀ (y : YData ℂ), y.n1 ≤ 1 → (∀ k < 1, ∀ t : ℝ, -1 ≤ t → t ≤ 1 → y.u k ≠ t) → ∃ de r row, deIntInit setArith setFns p.h p.lam p.n p.err m = .ok de ∧ de.n = 10 ∧
      deIntegralsPrecomp setArith sndTests 6 (ptData y).u y.n1 1 c.shape de f false = .ok r ∧
      edgeFactors setArith c.shape (ptData y).ba2 (ptData y).ab (ptData y).c (fun i => if i < 1 then de.err (r i) else r i) = .ok row := by
    intro y hn1 hfr
    obtain ⟨de, r, hde, hr, hr1, -⟩ := de_sums setArith_encloses setFns_encloses sndTests (by norm_num) hc (sz := 6) (d1 := y.n1) (d := 1) (by norm_num) hn1
      (u := (ptData y).u) (u' := y.u) (fun k => rfl) hfr (p := p) (by norm_num [p]) (h' := 1 / 4) (lam' := 1) rfl rfl (flag := f) (big := false) (Or.inl hf)
    choose r' hr' using hr1
    have hz : ∀ i, r' i ∈ (if i < 1 then de.err (r i) else r i) := by
      intro i
      rw [deIntInit_err hde]
      split
      · exact ⟨r' i, hr' i, by simpa using he⟩
      · exact hr' i
    obtain ⟨row, row', hrow, -, -⟩ := C19_encloses setArith_encloses (by norm_num) hc (ba2 := (ptData y).ba2) (ab := (ptData y).ab) (cab := (ptData y).c) (ba2' := y.ba2)
      (ab' := y.ab) (cab' := y.c) rfl rfl rfl hz
    rw [hcm] at hde
    exact ⟨de, r, row, hde, deIntInit_n hde, hr, hrow⟩
  have fr : ∀ (a b : Nat) (y : YData ℂ), ((a = 0 ∧ b = 1) ∨ (a = 1 ∧ b = 2)) → EdgeData m 3 tri a b y.n1 y.u → ∀ k < 1, ∀ t : ℝ, -1 ≤ t → t ≤ 1 → y.u k ≠ t := by
    intro a b y hab hE k hk t _ _ h
    obtain rfl : k = 0 := by omega
    rw [tri_u hab hE] at h
    have := congrArg Complex.im h
    simp at this
  obtain ⟨de, r0, w0, s0, sn, a0, b0⟩ := row y0 E0.n1_le (fr 0 1 y0 (Or.inl ⟨rfl, rfl⟩) E0)
  obtain ⟨de', r1, w1, s1, -, a1, b1⟩ := row y1 E1.n1_le (fr 1 2 y1 (Or.inr ⟨rfl, rfl⟩) E1)
  obtain rfl := Res.ok.inj (s0.symm.trans s1)
  have hs0 : deScheme setArith setFns c.shape f p { n := 0, factor := {0}, x := fun _ => {0}, dx := fun _ => {0}, ch2m := fun _ => {0}, err := id } = .ok de := by
    unfold deScheme
    rw [if_pos (by simp [deReplace]), hcm, s0]
  have hs1 : deScheme setArith setFns c.shape f p de = .ok de := by
    unfold deScheme
    split
    · rw [hcm, s0]
    · rfl
  obtain ⟨S, hS⟩ := shiftBD_exact_ok (m := m) (n := 3) hm0 (by omega) tri_inj (by norm_num) (by norm_num) (by norm_num) (by norm_num) (by norm_num) n0 n1 E0 E1
  have hget : ∀ (k l : Nat) (ek el : Edge Unit), k < l → triEdges[k]? = some ek → triEdges[l]? = some el → k = 0 ∧ l = 1 ∧ ek.a = 0 ∧ ek.b = 1 ∧ el.a = 1 := by
    intro k l ek el hkl hk hl
    have h1 := (List.getElem?_eq_some_iff.1 hl).1
    have h2 : l < 2 := h1
    obtain rfl : l = 1 := by omega
    obtain rfl : k = 0 := by omega
    obtain rfl := Option.some.inj hk
    obtain rfl := Option.some.inj hl
    exact ⟨rfl, rfl, rfl, rfl, rfl⟩
  obtain ⟨cc, hcc, -⟩ := C13_intersection_table (shiftOracle setArith sndTests [ptData y0, ptData y1] m) triEdges (m := m) hm2 (sab := fun _ _ => 0) (sbd := fun _ _ => S)
    ⟨fun k l ek el hkl hk hl h => by
      obtain ⟨-, -, q1, -, q3⟩ := hget k l ek el hkl hk hl
      omega, fun k l ek el hkl hk hl h _ => by
      obtain ⟨rfl, rfl, -⟩ := hget k l ek el hkl hk hl
      exact (snd_shiftBD y0 y1 m).trans hS⟩
  refine ⟨c, [ptData y0, ptData y1], p, 1 / 4, 1, e, fun i => if i = 1 then w1 else if i = 0 then w0 else fun _ => {0}, cc, hc, hg, ?_, Or.inl rfl, ?_,
    rfl, rfl, rfl, fun v z z' h h' => ⟨z, h, h'⟩, ?_, ?_, ?_, hcc⟩
  · intro ed hed
    simp only [triEdges, List.mem_cons, List.not_mem_nil, or_false] at hed
    rcases hed with rfl | rfl <;> exact ⟨by norm_num, by norm_num⟩
  · simp only [triEdges, treeYdataInit, d0, d1, Res.ok_bind]
  · intro k j ed yd u hk hd _ hu _ r i l hr hil
    rw [hg] at hr
    obtain rfl : r = 0 := by omega
    have hi : i = i0 := by simp only [i0, hil]
    have hl : l = j0 := by simp only [j0, hil]
    subst hi hl
    rcases k with _ | _ | k
    · obtain rfl := Option.some.inj hd
      obtain rfl : u = y0.u := funext fun i => mem_singleton_iff.1 (hu i)
      exact le_max_left _ _
    · obtain rfl := Option.some.inj hd
      obtain rfl : u = y1.u := funext fun i => mem_singleton_iff.1 (hu i)
      exact le_max_right _ _
    · cases hd
  · have q0 : (ptData y0).n1 = y0.n1 := rfl
    have q1 : (ptData y1).n1 = y1.n1 := rfl
    simp only [integralsTreeDe, List.getElem?_cons_zero, List.getElem?_cons_succ, integralsEdgeDe, hs0, Res.ok_bind, hcn, hg, q0, a0, b0, hs1, q1, a1, b1]
  · constructor
    · intro k l ek el yk yl hkl hk hl _ _ h
      obtain ⟨-, -, q1, -, q3⟩ := hget k l ek el hkl hk hl
      omega
    · intro k l ek el yk yl hkl hk hl gk gl _ _
      obtain ⟨rfl, rfl, -⟩ := hget k l ek el hkl hk hl
      obtain rfl := Option.some.inj hk
      obtain rfl := Option.some.inj hl
      obtain rfl := Option.some.inj gk
      obtain rfl := Option.some.inj gl
      have e1 : setArith.div (ptData y0).ba2 (ptData y1).ba2 = {exact.div y0.ba2 y1.ba2} := setArith_pt.div rfl rfl
      have e2 : setArith.neg {exact.div y0.ba2 y1.ba2} = {exact.neg (exact.div y0.ba2 y1.ba2)} := setArith_pt.neg rfl
      rw [e1, e2, snd_arg, snd_reNonneg]
      have z0 : y0.ba2 = (tri 1 - tri 0) / 2 := by unfold YData.ba2; rw [n0]; exact E0.ba2
      have z1 : y1.ba2 = (tri 2 - tri 1) / 2 := by unfold YData.ba2; rw [n1]; exact E1.ba2
      have z2 : exact.neg (exact.div y0.ba2 y1.ba2) = (tri 0 - tri 1) / (tri 2 - tri 1) := by
        change -(y0.ba2 / y1.ba2) = _
        rw [z0, z1, div_div_div_cancel_right₀ two_ne_zero, ← neg_div, neg_sub]
      rw [z2]
      simp [exactTests]

/-- `C52_periods_partial` applied to the instance. -/
example : ∃ (c : Sec) (data : List (YData (Set ℂ))) (Y : Nat → ℝ → ℂ) (ca cb : Nat → ℂ) (cc : IMat) (N : Nat), secInit 3 3 = .ok c ∧
    Branches 3 3 tri triEdges Y ca cb ∧ HoldsNumbers 3 triEdges ca cb cc ∧ ∀ fuel, N ≤ fuel →
      (symplecticBasis XGcd.std fuel (shiftOracle setArith sndTests data 3) triEdges 3 c.shape.g = .abort "coefficient too large in basis" ∨
      ∃ al be, symplecticBasis XGcd.std fuel (shiftOracle setArith sndTests data 3) triEdges 3 c.shape.g = .ok (al, be)) := by
  obtain ⟨c, data, p, h, lam, e, I', cc, h1, hg, h2, h3, h4, h5, h5', -, h6, h7, h8, h9, h10⟩ := super_inst (m := 3) (Or.inr rfl) (f := 2 ^ 5) (by decide)
  obtain ⟨Y, ca, cb, N, k1, k2, k3⟩ := C52_periods_partial XGcd.std setArith_encloses setFns_encloses sndTests_sound (m := 3) (n := 3) (by norm_num : 2 ≤ 3) (by norm_num) h1
    (x := fun k => {tri k}) (x' := tri) (fun k => mem_singleton _) tri_inj h2 h3 triEdges_grow triEdges_free h4 (flag := 2 ^ 5) (big := false) (par := fun _ => p) (fun _ => ⟨h5, h5'⟩) (fun _ => h6) h7 (ks := [0, 1]) (List.Perm.refl _)
    (fun _ _ _ _ _ => Or.inl (by decide)) (I := fun _ _ => {0}) (fun _ _ => mem_singleton _) rfl h8 h9 h10
  refine ⟨c, data, Y, ca, cb, cc, N, h1, k1, k2, fun fuel hf => (k3 fuel hf).imp id ?_⟩
  rintro ⟨-, al, be, k, -⟩
  exact ⟨al, be, k⟩

end Hcp
