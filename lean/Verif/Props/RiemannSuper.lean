import Verif.Props.RiemannHyper
import Verif.Proofs.SuperCurve

/-!
# C61: superelliptic curves with real branch points
-/

namespace Hcp
open Spec Set HalfPlane

variable {A B C W : Type} {O : MatOps} {R : A → ℂ → Prop}

/-- the differentials of the list are holomorphic and distinct -/
theorem diffOf_bounds {m n : Nat} {c : Sec} (hn : 2 ≤ n) (h : secInit m n = .ok c) {r : Nat} (hr : r < c.shape.g) :
    0 < (diffOf c.shape.ni c.shape.j1 r).2 ∧ (diffOf c.shape.ni c.shape.j1 r).2 < m ∧ ((diffOf c.shape.ni c.shape.j1 r).1 + 1) * m < n * (diffOf c.shape.ni c.shape.j1 r).2 := by
  have hn' : (2 : ℤ) ≤ n := by exact_mod_cast hn
  have hg := shape_good hn' h
  obtain ⟨k, nij, i, h1, h2, h3, h4⟩ := diffOf_spec c.shape.ni c.shape.j1 r (by rw [hg.sum]; exact hr)
  rw [h4]
  simp only [Sec.shape, List.getElem?_map, Option.map_eq_some_iff] at h1
  obtain ⟨l, hl, rfl⟩ := h1
  obtain ⟨hk, rfl⟩ := List.getElem?_eq_some_iff.1 hl
  have hb := (C02_enumerates_holomorphic hn' h ((i : ℤ) + 1) (c.j1 + k)).1 ⟨k, hk, rfl, by omega, by omega⟩
  unfold Spec.IsHolomorphic at hb
  obtain ⟨b1, b2, b3, b4⟩ := hb
  have hj1 := hg.j1
  have e : ((c.shape.j1 + k : ℕ) : ℤ) = c.j1 + k := by
    simp only [Sec.shape] at hj1 ⊢
    omega
  have hd : 0 < (Int.gcd m n : ℤ) := by
    exact_mod_cast Nat.gcd_pos_of_pos_right m (by omega : 0 < n)
  refine ⟨by omega, by omega, ?_⟩
  zify
  push_cast at e
  rw [e]
  nlinarith

theorem diffOf_inj {c : Shape} (hc : c.Good) {r s : Nat} (hr : r < c.g) (hs : s < c.g) (h : diffOf c.ni c.j1 r = diffOf c.ni c.j1 s) : r = s := by
  obtain ⟨k, nij, i, h1, h2, h3, h4⟩ := diffOf_spec c.ni c.j1 r (by rw [hc.sum]; exact hr)
  obtain ⟨k', nij', i', h1', h2', h3', h4'⟩ := diffOf_spec c.ni c.j1 s (by rw [hc.sum]; exact hs)
  rw [h4, h4'] at h
  obtain ⟨e1, e2⟩ := Prod.mk.inj h
  rw [h3, h3', e1, show k = k' by omega]

section
variable {m n : Nat} {ξ : Nat → ℝ} {V : AjEnv A B C W O} {RC : {n m : Nat} → O.C n m → Matrix (Fin n) (Fin m) ℂ → Prop} {c : Sec} {out : AjOut A W O c.shape.g}
  {Y : Nat → ℝ → ℂ} {ca cb : Nat → ℂ} {cc : IMat} {Q : Mat (out.tree.e.length * (m - 1))}

/-- **The bilinear relations of Riemann** for `y^m = ∏ (x - ξ_k)` with real `ξ_k`, the differentials `x^i dx / y^j` and the closed paths over the edges of the tree. -/
theorem relations_super_real (hm : 2 ≤ m) (hn : 2 ≤ n) (h : secInit m n = .ok c) (hξ : InjOn ξ (Iio n)) (hr : AjRight V R RC m n (fun k => (ξ k : ℂ)) c out Y ca cb cc Q)
    (hfree : FreeEdges (fun k => (ξ k : ℂ)) n out.tree.e) :
    RiemannRelations (cyclePeriods m (fun k => (ξ k : ℂ)) out.tree.e Y c.shape) (cc.toMat (out.tree.e.length * (m - 1))) := by
  obtain ⟨ζ, ρ, ho⟩ := order_exists hξ
  obtain ⟨htree, hsize, hin⟩ := hr.tree
  set es := out.tree.e with hes
  have hm1 : 0 < m - 1 := by omega
  have hmR : (0 : ℝ) < m := by exact_mod_cast (by omega : 0 < m)
  -- the edges
  have hne : ∀ k (hk : k < es.length), es[k].a ≠ es[k].b := by
    intro k hk
    have := (htree k (by simpa using hk)).1
    simpa using this
  have hfr : ∀ k (hk : k < es.length), FreeR n ξ es[k].a es[k].b := fun k hk =>
    freeR_of hξ hfree (List.getElem_mem hk) (hin _ (List.getElem_mem hk)).1 (hin _ (List.getElem_mem hk)).2 (hne k hk)
  have hold : ∀ k (hk : k < es.length), k ≠ 0 → ∃ j, ∃ hj : j < k, es[k].a = (es[j]'(hj.trans hk)).a ∨ es[k].a = (es[j]'(hj.trans hk)).b := by
    intro k hk h0
    obtain ⟨e, he, q⟩ := (htree k (by simpa using hk)).2.2 h0
    obtain ⟨j, hj, rfl⟩ := List.getElem_of_mem he
    rw [List.length_take, List.length_map] at hj
    refine ⟨j, by omega, ?_⟩
    simpa using q
  have hnew : ∀ k (hk : k < es.length), ∀ j (hj : j < k), es[k].b ≠ (es[j]'(hj.trans hk)).a ∧ es[k].b ≠ (es[j]'(hj.trans hk)).b := by
    intro k hk j hj
    have h2 := (htree k (by simpa using hk)).2.1
    have hmem : ((es[j]'(hj.trans hk)).a, (es[j]'(hj.trans hk)).b) ∈ (es.map fun f => (f.a, f.b)).take k := List.mem_take_iff_getElem.2 ⟨j, by simp; omega, by simp⟩
    have e2 : ((es.map fun f => (f.a, f.b))[k]'(by simpa using hk)).2 = es[k].b := by simp
    rw [e2] at h2
    exact ⟨fun e => h2 ⟨_, hmem, Or.inl e⟩, fun e => h2 ⟨_, hmem, Or.inr e⟩⟩
  -- positions
  set α : Nat → Nat := fun k => if hk : k < es.length then ρ es[k].a else 0 with hα
  set β : Nat → Nat := fun k => if hk : k < es.length then ρ es[k].b else 0 with hβ
  have eα : ∀ k (hk : k < es.length), α k = ρ es[k].a := fun k hk => by rw [hα]; exact dif_pos hk
  have eβ : ∀ k (hk : k < es.length), β k = ρ es[k].b := fun k hk => by rw [hβ]; exact dif_pos hk
  have hadj : ∀ k < es.length, β k = α k + 1 ∨ α k = β k + 1 := fun k hk => by
    rw [eα k hk, eβ k hk]
    exact ho.adj (hfr k hk)
  have hold' : ∀ k < es.length, k ≠ 0 → ∃ j < k, α k = α j ∨ α k = β j := by
    intro k hk h0
    obtain ⟨j, hj, q⟩ := hold k hk h0
    refine ⟨j, hj, ?_⟩
    rw [eα k hk, eα j (by omega), eβ j (by omega)]
    rcases q with q | q
    · exact Or.inl (by rw [q])
    · exact Or.inr (by rw [q])
  have hnew' : ∀ k < es.length, ∀ j < k, β k ≠ α j ∧ β k ≠ β j := by
    intro k hk j hj
    obtain ⟨q1, q2⟩ := hnew k hk j hj
    rw [eβ k hk, eα j (by omega), eβ j (by omega)]
    have fk := hfr k hk
    have fj := hfr j (hj.trans hk)
    exact ⟨fun e => q1 (ho.inj hξ fk.hb fj.ha e), fun e => q2 (ho.inj hξ fk.hb fj.hb e)⟩
  set pos : Nat → Nat := fun k => min (α k) (β k) + 1 with hpos
  obtain ⟨s, hsl, hrange⟩ : ∃ s, s + es.length < n ∧ ∀ k < es.length, s < pos k ∧ pos k < s + es.length + 1 := by
    by_cases h0 : es.length = 0
    · exact ⟨0, by omega, fun p h1 => by omega⟩
    · obtain ⟨s, t1, t2⟩ := tree_interval hadj hold' hnew' es.length le_rfl h0
      refine ⟨s, ?_, fun k hk => ?_⟩
      · obtain ⟨j, hj, q⟩ := (t1 (s + es.length)).2 ⟨by omega, le_rfl⟩
        rw [eα j hj, eβ j hj] at q
        rcases q with q | q <;> rw [q]
        · exact ho.lt _ (hfr j hj).ha
        · exact ho.lt _ (hfr j hj).hb
      · have := (t2 (min (α k) (β k))).1 ⟨k, hk, rfl⟩
        simp only [hpos]
        omega
  have hinj : ∀ k l, k < es.length → l < es.length → pos k = pos l → k = l := by
    have key : ∀ k l, k < l → l < es.length → pos k ≠ pos l := by
      intro k l hkl hl e
      have h1 := hadj k (hkl.trans hl)
      have h2 := hadj l hl
      have h3 := hnew' l hl k hkl
      simp only [hpos] at e
      omega
    intro k l hk hl e
    rcases lt_trichotomy k l with q | q | q
    · exact absurd e (key k l q hl)
    · exact q
    · exact absurd e.symm (key l k q hk)
  -- the determinations
  have hdir : ∀ k : Fin es.length, ∃ ε t, EdgeM m n ξ ζ ρ es[k.val].a es[k.val].b (Y k) (ca k) (cb k) (pos k) ε t := by
    intro k
    obtain ⟨b1, b2, b3⟩ := hr.branches k es[k.val] (List.getElem?_eq_getElem k.isLt)
    simp only [hpos, eα k k.isLt, eβ k k.isLt]
    exact (hfr k k.isLt).edgeM hm ho hξ b1 b2 b3
  choose ε0 t0 hE0 using hdir
  let ε : Nat → ℤ := fun k => if hk : k < es.length then ε0 ⟨k, hk⟩ else 0
  let t : Nat → ℤ := fun k => if hk : k < es.length then t0 ⟨k, hk⟩ else 0
  have hE : ∀ k (hk : k < es.length), EdgeM m n ξ ζ ρ es[k].a es[k].b (Y k) (ca k) (cb k) (pos k) (ε k) (t k) := by
    intro k hk
    have e1 : ε k = ε0 ⟨k, hk⟩ := dif_pos hk
    have e2 : t k = t0 ⟨k, hk⟩ := dif_pos hk
    rw [e1, e2]
    exact hE0 ⟨k, hk⟩
  -- the differentials
  let I : Fin c.shape.g → Nat := fun r => (diffOf c.shape.ni c.shape.j1 r).1
  let J : Fin c.shape.g → Nat := fun r => (diffOf c.shape.ni c.shape.j1 r).2
  have hIJ : ∀ r, 0 < J r ∧ J r < m ∧ (I r + 1) * m < n * J r := fun r => diffOf_bounds hn h r.isLt
  have hκ : ∀ r, 0 < (J r : ℝ) / m ∧ (J r : ℝ) / m < 1 ∧ ((I r + 1 : ℕ) : ℝ) < (J r : ℝ) / m * n := by
    intro r
    obtain ⟨h1, h2, h3⟩ := hIJ r
    refine ⟨div_pos (by exact_mod_cast h1) hmR, ?_, ?_⟩
    · rw [div_lt_one hmR]
      exact_mod_cast h2
    · rw [div_mul_eq_mul_div, lt_div_iff₀ hmR]
      have : ((I r + 1) * m : ℝ) < n * J r := by exact_mod_cast h3
      push_cast
      linarith
  have hn0 : 0 < n := by omega
  have hcut : ∀ r, (s = 0 ∧ s + es.length + 1 = n) ∨ (Real.sin ((J r : ℝ) / m * Real.pi * n) = 0 ∧ ((s = 0 ∧ s + es.length + 1 + 1 = n) ∨ (s = 1 ∧ s + es.length + 1 = n))) := by
    intro r
    by_cases hd : m ∣ n
    · have := hsize.1 hd
      obtain ⟨k, hk⟩ := hd
      refine Or.inr ⟨?_, by omega⟩
      rw [show (J r : ℝ) / m * Real.pi * n = ((J r * k : ℕ) : ℝ) * Real.pi by rw [hk]; push_cast; field_simp]
      exact Real.sin_nat_mul_pi _
    · have := hsize.2 hd
      exact Or.inl (by omega)
  have htee := fun r => PowPlane.tee_exists (hκ r).1 (hκ r).2.1 hn0 (r := PowPlane.mon ((J r : ℝ) / m) n ζ (I r)) (PowPlane.total_part (a := PowPlane.mono1 (I r)) (hκ r).1 (hκ r).2.1 ho.mono hn0 (hκ r).2.2) (hcut r)
  choose C0 hC1 hC2 hC3 hC4 using htee
  have hdiv : ∀ a : Fin (es.length * (m - 1)), a.val / (m - 1) < es.length := fun a => Nat.div_lt_of_lt_mul (a.isLt.trans_eq (Nat.mul_comm _ _))
  have hmod : ∀ a : Fin (es.length * (m - 1)), a.val % (m - 1) < m - 1 := fun a => Nat.mod_lt _ hm1
  have hangle : ∀ r, Real.pi * J r / m = (J r : ℝ) / m * Real.pi := fun r => by ring
  refine Super.ChainData.relations (m := m) (n := n) (lo := s) ⟨pos, ε, t, J, fun r => PowPlane.mon ((J r : ℝ) / m) n ζ (I r), fun r => PowPlane.tee ((J r : ℝ) / m) (PowPlane.mon ((J r : ℝ) / m) n ζ (I r)) (C0 r), hinj, hrange, ?_,
    fun r => ⟨(hIJ r).1, (hIJ r).2.1⟩, ?_, ?_, hC2, hC3, ?_, ?_, ?_⟩ hm
  · intro k hk
    rcases (hE k hk).side with ⟨e, -⟩ | ⟨e, -⟩ <;> rw [e] <;> norm_num
  · intro a b
    have ha := hdiv a
    have hb := hdiv b
    have hnum : ((cc a b : ℤ) : ℚ) = pathNumber (passages m es[a.val / (m - 1)].a es[a.val / (m - 1)].b (ca (a / (m - 1))) (cb (a / (m - 1))) (a % (m - 1))) (passages m es[b.val / (m - 1)].a es[b.val / (m - 1)].b (ca (b / (m - 1))) (cb (b / (m - 1))) (b % (m - 1))) := by
      have := hr.numbers (a / (m - 1)) (b / (m - 1)) es[a.val / (m - 1)] es[b.val / (m - 1)] (a % (m - 1)) (b % (m - 1)) (List.getElem?_eq_getElem ha) (List.getElem?_eq_getElem hb) (hmod a) (hmod b)
      rw [Nat.div_add_mod', Nat.div_add_mod'] at this
      exact this
    show cc a b = _
    have da := hE _ ha
    have db := hE _ hb
    split_ifs with h1 h2 h3
    · have e := hinj _ _ ha hb h1
      have := EdgeM.number_self hm (hne _ ha) da.na da.nb (hmod a) (hmod b)
      simp only [← e] at hnum
      rw [this] at hnum
      exact_mod_cast hnum
    · rw [da.number hm ho hξ (hfr _ ha).ha (hfr _ ha).hb (hfr _ hb).ha (hfr _ hb).hb db (S := t (b / (m - 1)) - t (a / (m - 1))) (by rw [h2]; push_cast; ring) (Or.inl h2)] at hnum
      exact_mod_cast hnum
    · rw [da.number hm ho hξ (hfr _ ha).ha (hfr _ ha).hb (hfr _ hb).ha (hfr _ hb).hb db (S := t (b / (m - 1)) - t (a / (m - 1)) + 1) (by rw [h3]; push_cast; ring) (Or.inr h3)] at hnum
      exact_mod_cast hnum
    · rw [da.number_apart db h1 h2 h3] at hnum
      exact_mod_cast hnum
  · intro r a
    simp only [cyclePeriods, Matrix.of_apply, List.getElem?_eq_getElem (hdiv a)]
    exact (hE _ (hdiv a)).cyc _ _ _
  · intro r q h1 h2
    rw [hangle]
    exact PowPlane.tee_rec _ _ (by omega)
  · intro r r' hrr
    have e : (J r : ℝ) / m = 1 - (J r' : ℝ) / m := by
      have : (J r : ℝ) + J r' = m := by exact_mod_cast hrr
      field_simp
      linarith
    simp only [e]
    refine PowPlane.tee_two (hκ r').1 (hκ r').2.1 ho.mono hn0 (hκ r').2.2 ?_ (hC1 r') (by omega) (hC4 r')
    rw [← e]
    exact (hκ r).2.2
  · intro K a ha ha0
    obtain ⟨r0, hr0⟩ := Function.ne_iff.1 ha0
    have hJK : ∀ r, a r ≠ 0 → J r = K := fun r h => by
      by_contra hc
      exact h (ha r hc)
    have hK := hJK r0 hr0
    obtain ⟨G, hG1, hG2⟩ : ∃ G : Nat, (G : ℝ) < (K : ℝ) / m * n ∧ ∀ r, a r ≠ 0 → I r < G := by
      refine ⟨(Finset.univ.filter fun r => a r ≠ 0).sup fun r => I r + 1, ?_, fun r h => ?_⟩
      · obtain ⟨r1, h1, h2⟩ := Finset.exists_mem_eq_sup (Finset.univ.filter fun r => a r ≠ 0) ⟨r0, by simpa using hr0⟩ fun r => I r + 1
        rw [h2, ← hJK r1 (by simpa using h1)]
        exact (hκ r1).2.2
      · exact Finset.le_sup (f := fun r => I r + 1) (by simpa using h)
    have hp := PowPlane.tee_pos (κ := (K : ℝ) / m) (by rw [← hK]; exact (hκ r0).1) (by rw [← hK]; exact (hκ r0).2.1) ho.mono hn0 hG1 I a C0 hG2 (fun r r' h1 h2 e => ?_) ha0 (fun r h => by rw [← hJK r h]; exact hC1 r) (lo := s) (hi := s + es.length + 1) (by omega) (fun r h => by rw [← hJK r h]; exact hC4 r)
    · refine lt_of_lt_of_eq hp ?_
      refine Finset.sum_congr rfl fun q _ => ?_
      congr 1
      · refine Finset.sum_congr rfl fun r _ => ?_
        by_cases h : a r = 0
        · rw [h, zero_mul, zero_mul]
        · rw [hJK r h]
      · refine Finset.sum_congr rfl fun r _ => ?_
        by_cases h : a r = 0
        · rw [h, zero_mul, zero_mul]
        · rw [hJK r h]
    · refine Fin.ext (diffOf_inj (shape_good (by exact_mod_cast hn) h) r.isLt r'.isLt (Prod.ext e ?_))
      exact (hJK r h1).trans (hJK r' h2).symm

/-- **C61 (superelliptic curves with real branch points).** Curve `y^m = ∏ (x - ξ_k)` with at least two distinct real branch points, any exponent and any genus.  If the output is right in the sense of C56, no edge of
the tree passes through a third branch point, then the exact matrix of the periods over the loops `alpha` is invertible and the matrix `tau` with
`omega0 tau = omega1` is symmetric with a positive definite imaginary part. -/
theorem C61_super_real (hm : 2 ≤ m) (hn : 2 ≤ n) (h : secInit m n = .ok c) (hξ : InjOn ξ (Iio n)) (hr : AjRight V R RC m n (fun k => (ξ k : ℂ)) c out Y ca cb cc Q)
    (hfree : FreeEdges (fun k => (ξ k : ℂ)) n out.tree.e) :
    (periodsOf m (fun k => (ξ k : ℂ)) out.tree.e Y c.shape out.loopA).det ≠ 0 ∧
      ∀ tau, periodsOf m (fun k => (ξ k : ℂ)) out.tree.e Y c.shape out.loopA * tau = periodsOf m (fun k => (ξ k : ℂ)) out.tree.e Y c.shape out.loopB → IsRiemannMatrix tau :=
  C61_relations hm hr (relations_super_real hm hn h hξ hr hfree)

end

/-- Exact arithmetic, any exponent, distinct branch points: the tree and the data of the edges are returned, no edge passes through a third point, the reduction ends, and the result is right in the sense of
C56 unless a coefficient does not fit a machine integer; it always fits for `m = 2`, for `m = 3` and for a tree of one edge. -/
theorem ajRight_exactM {B C : Type} {O : MatOps} (V : AjEnv ℂ B C ℝ O) {RC : {n m : Nat} → O.C n m → Matrix (Fin n) (Fin m) ℂ → Prop} {lam : ℝ} (hlam : lam ≠ 0) (type : IntType)
    {m n : Nat} (hm : 2 ≤ m) (hm' : m < 2 ^ 62) (hn : 2 ≤ n) {c : Sec} (h : secInit m n = .ok c) {x : Nat → ℂ} (hx : InjOn x (Iio n)) {N : Nat} (hN : TreeSize m n N) :
    ∃ (tr : Tree ℝ) (data : List (YData ℂ)), spanningTreeOf (exactCOps lam) (WOps.ofOrder (-1)) sortByR x (treeInit (WOps.ofOrder (-1)) N) n type = .ok tr ∧ treeYdataInit exact exactTests x n m tr.e = .ok data ∧
      FreeEdges x n tr.e ∧ ∃ F, ∀ fuel, F ≤ fuel →
        ((∃ al be, symplecticBasis XGcd.std fuel (shiftOracle exact exactTests data m) tr.e m c.shape.g = .ok (al, be) ∧ ∃ Y ca cb cc Q, AjRight V (fun a z => a = z) RC m n x c ⟨type, tr, 0, data, al, be, none, none, none⟩ Y ca cb cc Q) ∨
          m ≠ 2 ∧ m ≠ 3 ∧ N ≠ 1 ∧ symplecticBasis XGcd.std fuel (shiftOracle exact exactTests data m) tr.e m c.shape.g = .abort "coefficient too large in basis") := by
  obtain ⟨tr, data, cc, h1, hlen, hgr, -, hbl, hdat, hdl, hc, hed, -⟩ := C14_from_points (m := m) sortByR_sorts hlam type (edgeCount_lt (edgeCount_of_size hN)) hm hm' hx
  have h1' := h1
  unfold spanningTreeOf at h1'
  obtain ⟨t1, e1, -, -, -, g2⟩ := C09_grows_as_tree (WOps.ofOrder (-1)) sortByR sortByR_sorts.perm _ (treeInit (WOps.ofOrder (-1 : ℝ)) N) n (Or.inl (by have := edgeCount_lt (edgeCount_of_size hN); simp [treeInit]; omega))
  obtain rfl := Res.ok.inj (h1'.symm.trans e1)
  have hes : ∀ ed ∈ tr.e, ed.a < n ∧ ed.b < n := fun ed h => ⟨(g2 ed h).1, (g2 ed h).2.1⟩
  have hfree : FreeEdges x n tr.e := fun f hf k hk ha hb t t1 t2 e => hbl f hf ⟨k, hk, ha, hb, t, t1, t2, e⟩
  have hres : Resolved exact exactTests x tr.e data := resolved_exact (m := m) hx hes hgr hfree fun k ed yd hk hd => by
    obtain ⟨hk', rfl⟩ := List.getElem?_eq_some_iff.1 hk
    exact hed k hk' yd hd
  have hsz : TreeSize m n tr.e.length := by rw [hlen]; exact hN
  have hg : IsGenus m n c.shape.g := isGenus_shape (by exact_mod_cast hn) h
  have hne : ∀ ed ∈ tr.e, ed.a < n ∧ ed.b < n ∧ x ed.a ≠ x ed.b := by
    intro ed hed
    obtain ⟨k, hk, rfl⟩ := List.getElem_of_mem hed
    have := (hgr k (by simpa [Tree.pairs] using hk)).1
    exact ⟨(hes _ hed).1, (hes _ hed).2, fun h => by simpa [Tree.pairs] using this (by simpa [Tree.pairs] using hx (hes _ hed).1 (hes _ hed).2 h)⟩
  obtain ⟨u, hu⟩ := exactData_exists exact_encloses exactTests (x := x) (x' := x) (fun k => rfl) (by omega) hne hdat
  have good : ∀ {fuel : Nat} {al be : List (List Gamma)}, symplecticBasis XGcd.std fuel (shiftOracle exact exactTests data m) tr.e m c.shape.g = .ok (al, be) →
      ∃ Y ca cb cc Q, AjRight V (fun a z => a = z) RC m n x c ⟨type, tr, 0, data, al, be, none, none, none⟩ Y ca cb cc Q := by
    intro fuel al be hb
    obtain ⟨cc', Q, b1, b2, bw, b3, b4, b5⟩ := basis_of_run XGcd.std exact_encloses exactTests_sound hn hm h hx hes hsz hgr hfree hdl hu hres hb
    refine ⟨storedY m n data u, _, _, cc', Q, ⟨hgr, hsz, hes⟩, branches_of (by omega) (fun ed h => (hne ed h).2.2) hfree hdl hu, b1, b2, bw, b3, b4, b5, fun I hI => ?_, fun _ _ ho => ?_, fun _ _ _ ho => ?_⟩
    · cases hI
    · cases ho
    · cases ho
  refine ⟨tr, data, h1, hdat, hfree, ?_⟩
  by_cases hm2 : m = 2 ∨ m = 3
  · obtain ⟨-, -, -, -, -, P, al, be, k1, -⟩ := C50_small_basis XGcd.std exact_encloses exactTests_sound (fun k => rfl) hm2 hx hg hes (edgeCount_of_size hsz) hgr hfree hdat hres hc
    exact ⟨1, fun fuel hf => Or.inl ⟨al, be, k1 fuel hf, good (k1 fuel hf)⟩⟩
  by_cases hN1 : N = 1
  · have hp := plainTree_balls exact_encloses exactTests_sound hm hx hes hgr hfree hdl hu hres hc
    have hpu : PrincipallyUnimodular (cc.toMat (tr.e.length * (m - 1))) := by
      rw [hlen, hN1]
      exact pu_of_edge fun α hα β hβ => by
        have := hp.self 0 (by omega) α hα β hβ
        simpa using this
    obtain ⟨Q, -, -, al, be, k1, -⟩ := basis_of_pu XGcd.std hm hc (fun a b => hp.anti a b a.isLt b.isLt) (rank_of_plainTree hm (edgeCount_of_size hsz) hg (fun _ => ⟨_, _, _, _, _, hp⟩) ℚ) hpu
    exact ⟨1, fun fuel hf => Or.inl ⟨al, be, k1 fuel hf, good (k1 fuel hf)⟩⟩
  · obtain ⟨-, -, -, -, -, P, -, -, -, F, hF⟩ := C50_symplectic_basis XGcd.std exact_encloses exactTests_sound (fun k => rfl) hm hx hg hes (edgeCount_of_size hsz) hgr hfree hdat hres hc
    refine ⟨F, fun fuel hf => ?_⟩
    obtain ⟨q1, q2⟩ := hF fuel hf
    by_cases hfit : ∀ a j : Fin (tr.e.length * (m - 1)), a.val < 2 * c.shape.g → FitsSlong (P a j)
    · obtain ⟨al, be, k1, -⟩ := q1 hfit
      exact Or.inl ⟨al, be, k1, good k1⟩
    · exact Or.inr ⟨fun e => hm2 (Or.inl e), fun e => hm2 (Or.inr e), hN1, q2 hfit⟩

/-- **C61 (from real points).** Distinct real branch points, exact arithmetic, with either method of integration, for every `m` below `2^62`: the tree, the data of its edges and the loops are computed and the matrix `tau` defined by
the exact integrals of the differentials over these loops exists, is unique and is a Riemann matrix; the only other outcome is the abort for a coefficient which does not fit a machine integer, and it does not occur for `m = 2` and `m = 3`. -/
theorem C61_real_points {B C : Type} {O : MatOps} (V : AjEnv ℂ B C ℝ O) {lam : ℝ} (hlam : lam ≠ 0) (type : IntType)
    {m n : Nat} (hm : 2 ≤ m) (hm' : m < 2 ^ 62) (hn : 2 ≤ n) {c : Sec} (h : secInit m n = .ok c) {ξ : Nat → ℝ} (hξ : InjOn ξ (Iio n)) {N : Nat} (hN : TreeSize m n N) :
    ∃ (tr : Tree ℝ) (data : List (YData ℂ)), spanningTreeOf (exactCOps lam) (WOps.ofOrder (-1)) sortByR (fun k => (ξ k : ℂ)) (treeInit (WOps.ofOrder (-1)) N) n type = .ok tr ∧ treeYdataInit exact exactTests (fun k => (ξ k : ℂ)) n m tr.e = .ok data ∧
      ∃ F, ∀ fuel, F ≤ fuel →
        ((∃ al be, symplecticBasis XGcd.std fuel (shiftOracle exact exactTests data m) tr.e m c.shape.g = .ok (al, be) ∧
          ∃ (Y : Nat → ℝ → ℂ) (ca cb : Nat → ℂ), Branches m n (fun k => (ξ k : ℂ)) tr.e Y ca cb ∧ ∃ tau, IsRiemannMatrix tau ∧
            ∀ tau', periodsOf m (fun k => (ξ k : ℂ)) tr.e Y c.shape al * tau' = periodsOf m (fun k => (ξ k : ℂ)) tr.e Y c.shape be ↔ tau' = tau) ∨
          m ≠ 2 ∧ m ≠ 3 ∧ N ≠ 1 ∧ symplecticBasis XGcd.std fuel (shiftOracle exact exactTests data m) tr.e m c.shape.g = .abort "coefficient too large in basis") := by
  have hx : InjOn (fun k : Nat => (ξ k : ℂ)) (Iio n) := fun a ha b hb e => hξ ha hb (Complex.ofReal_injective e)
  obtain ⟨tr, data, h1, h2, hfree, F, hF⟩ := ajRight_exactM V (RC := fun _ _ => True) hlam type hm hm' hn h hx hN
  refine ⟨tr, data, h1, h2, F, fun fuel hf => ?_⟩
  rcases hF fuel hf with ⟨al, be, hb, Y, ca, cb, cc, Q, hr⟩ | hF
  · obtain ⟨hdet, hall⟩ := C61_super_real hm hn h hξ hr hfree
    have hu : IsUnit (periodsOf m (fun k => (ξ k : ℂ)) tr.e Y c.shape al).det := isUnit_iff_ne_zero.2 hdet
    refine Or.inl ⟨al, be, hb, Y, ca, cb, hr.branches, (periodsOf m (fun k => (ξ k : ℂ)) tr.e Y c.shape al)⁻¹ * periodsOf m (fun k => (ξ k : ℂ)) tr.e Y c.shape be, hall _ ?_, fun tau' => ⟨fun e => ?_, fun e => ?_⟩⟩
    · exact Matrix.mul_nonsing_inv_cancel_left _ _ hu
    · rw [← e, Matrix.nonsing_inv_mul_cancel_left _ _ hu]
    · rw [e, Matrix.mul_nonsing_inv_cancel_left _ _ hu]
  · exact Or.inr hF

/-- **C61 (curves `y^3 = f(x)` with real points).** For all sets of `n ≥ 2` distinct real branch points, in exact arithmetic, with either method of integration: the tree, the data and the loops are computed and the
matrix `tau` of the exact integrals over these loops exists, is unique and is a Riemann matrix.  There is no other outcome. -/
theorem C61_real_cubic {B C : Type} {O : MatOps} (V : AjEnv ℂ B C ℝ O) {lam : ℝ} (hlam : lam ≠ 0) (type : IntType)
    {n : Nat} (hn : 2 ≤ n) {c : Sec} (h : secInit 3 n = .ok c) {ξ : Nat → ℝ} (hξ : InjOn ξ (Iio n)) {N : Nat} (hN : TreeSize 3 n N) :
    ∃ (tr : Tree ℝ) (data : List (YData ℂ)), spanningTreeOf (exactCOps lam) (WOps.ofOrder (-1)) sortByR (fun k => (ξ k : ℂ)) (treeInit (WOps.ofOrder (-1)) N) n type = .ok tr ∧ treeYdataInit exact exactTests (fun k => (ξ k : ℂ)) n 3 tr.e = .ok data ∧
      ∃ F, ∀ fuel, F ≤ fuel → ∃ al be, symplecticBasis XGcd.std fuel (shiftOracle exact exactTests data 3) tr.e 3 c.shape.g = .ok (al, be) ∧
          ∃ (Y : Nat → ℝ → ℂ) (ca cb : Nat → ℂ), Branches 3 n (fun k => (ξ k : ℂ)) tr.e Y ca cb ∧ ∃ tau, IsRiemannMatrix tau ∧
            ∀ tau', periodsOf 3 (fun k => (ξ k : ℂ)) tr.e Y c.shape al * tau' = periodsOf 3 (fun k => (ξ k : ℂ)) tr.e Y c.shape be ↔ tau' = tau := by
  obtain ⟨tr, data, h1, h2, F, hF⟩ := C61_real_points V hlam type (m := 3) (by norm_num) (by norm_num) hn h hξ hN
  refine ⟨tr, data, h1, h2, F, fun fuel hf => ?_⟩
  rcases hF fuel hf with q | ⟨-, q, -⟩
  · exact q
  · exact absurd rfl q

/-- the hypotheses of `C61_real_cubic` are met by the Picard curve `y^3 = x (x - 1) (x - 2) (x - 3)`, of genus 3 -/
example : ∃ c : Sec, secInit 3 (4 : Nat) = .ok c ∧ c.shape.g = 3 ∧ InjOn (fun k : Nat => (k : ℝ)) (Iio 4) ∧ TreeSize 3 4 3 :=
  ⟨⟨3, 4, 1, 3, 1, 2, [1, 2]⟩, by decide, rfl, fun a _ b _ h => Nat.cast_injective h, ⟨fun q => by norm_num at q, fun _ => rfl⟩⟩

/-- The hypotheses of `C61_super_real` and `C61_real_points` are met with `m = 3`: the curve `y^3 = x (x - 1) (x - 2)`, of genus 1, whose tree has one edge, so that the loops are always returned. -/
example {B C : Type} {O : MatOps} (V : AjEnv ℂ B C ℝ O) : ∃ (c : Sec) (out : AjOut ℂ ℝ O c.shape.g) (Y : Nat → ℝ → ℂ) (ca cb : Nat → ℂ) (cc : IMat) (Q : Mat (out.tree.e.length * (3 - 1))), secInit 3 (3 : Nat) = .ok c ∧ c.shape.g = 1 ∧
    AjRight V (fun a z => a = z) (fun _ _ => True) 3 3 (fun k => ((k : ℝ) : ℂ)) c out Y ca cb cc Q ∧ FreeEdges (fun k => ((k : ℝ) : ℂ)) 3 out.tree.e := by
  have hc : secInit 3 (3 : Nat) = .ok ⟨3, 3, 3, 1, 2, 1, [1]⟩ := by decide
  have hx : InjOn (fun k : Nat => ((k : ℝ) : ℂ)) (Iio 3) := fun a _ b _ h => Nat.cast_injective (Complex.ofReal_injective h)
  obtain ⟨tr, data, -, -, hf, F, hF⟩ := ajRight_exactM V (RC := fun _ _ => True) (lam := Real.pi / 2) (by positivity) .gc (m := 3) (by norm_num) (by norm_num) (by norm_num) hc hx (N := 1) ⟨fun _ => rfl, fun q => absurd (dvd_refl 3) q⟩
  rcases hF F le_rfl with ⟨al, be, -, Y, ca, cb, cc, Q, hr⟩ | ⟨-, -, q, -⟩
  · exact ⟨_, _, Y, ca, cb, cc, Q, hc, rfl, hr, hf⟩
  · exact absurd rfl q

end Hcp
