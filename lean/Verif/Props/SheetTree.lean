import Verif.Props.Sheet

/-!
# C14: the intersection matrix of the tree, on exact data
-/

namespace Hcp
open Complex

theorem arbAngle_exact (a c : ℂ) :
    ∃ φ : ℝ, arbAngle exact exactTests a c = .ok ((φ / (2 * Real.pi) : ℝ) : ℂ) ∧
      |φ| ≤ 2 * Real.pi ∧ a / c = (‖a / c‖ : ℂ) * exp (φ * I) := by
  have e : ∃ r, arbAngle exact exactTests a c = .ok r := by
    unfold arbAngle
    simp only
    rw [if_neg (by simp [exactTests])]
    exact ⟨_, rfl⟩
  obtain ⟨r, hr⟩ := e
  obtain ⟨φ, h1, h2⟩ := arbAngle_spec exact_encloses exactTests_sound rfl rfl hr
  subst h1
  have hc := angle_cases h2
  refine ⟨φ, hr, ?_, angle_turns φ hc⟩
  have hpi := Real.pi_pos
  have b1 := abs_le.1 (abs_arg_le_pi (a / c))
  have b2 := abs_le.1 (abs_arg_le_pi (-(a / c)))
  rw [abs_le]
  rcases hc with h | h | h <;> rw [h] <;> constructor <;> linarith [b1.1, b1.2, b2.1, b2.2]

theorem uniqueInt_exact (S : Int) : exactTests.uniqueInt (S : ℂ) = some S := by
  have hex : ∃ k : Int, (S : ℂ) = k := ⟨S, rfl⟩
  simp only [exactTests, dif_pos hex, Option.some.injEq]
  exact_mod_cast hex.choose_spec.symm

theorem arbGetSi_exact {S : Int} {m : Nat} (hm : m < 2 ^ 62) (h : |S| ≤ m + 2) :
    arbGetSi exactTests (S : ℂ) = .ok S := by
  unfold arbGetSi
  rw [uniqueInt_exact]
  simp only
  rw [if_pos]
  rw [abs_le] at h
  unfold FitsSlong slongMin slongMax
  omega

theorem turn_bound {m : Nat} {S : Int} {φ ψ : ℝ} (h1 : |φ| ≤ 2 * Real.pi) (h2 : |ψ| ≤ 2 * Real.pi)
    (c : ℝ) (hc : |c| ≤ 2 * Real.pi) (h : φ + c + m * ψ = 2 * Real.pi * S) : |S| ≤ m + 2 := by
  have hpi := Real.pi_pos
  have hS : |(S : ℝ)| ≤ m + 2 := by
    have e : 2 * Real.pi * |(S : ℝ)| ≤ 2 * Real.pi * (m + 2) := by
      calc 2 * Real.pi * |(S : ℝ)| = |2 * Real.pi * S| := by
            rw [abs_mul, abs_of_pos (show 0 < 2 * Real.pi by positivity)]
        _ = |φ + c + m * ψ| := by rw [h]
        _ ≤ |φ + c| + |m * ψ| := abs_add_le _ _
        _ ≤ |φ| + |c| + m * |ψ| := by
            have := abs_add_le φ c
            rw [abs_mul, Nat.abs_cast]
            linarith
        _ ≤ 2 * Real.pi + 2 * Real.pi + m * (2 * Real.pi) := by
            have := mul_le_mul_of_nonneg_left h2 (Nat.cast_nonneg (α := ℝ) m)
            linarith
        _ = _ := by ring
    exact le_of_mul_le_mul_left e (by positivity)
  exact_mod_cast hS

/-- `shift_number` returns on exact data of edges with a common start -/
theorem shiftAD_exact_ok {m n a b d n1 n1' : Nat} (hm : 0 < m) (hm' : m < 2 ^ 62) {x : Nat → ℂ}
    (hx : Set.InjOn x (Set.Iio n)) (ha : a < n) (hb : b < n) (hd : d < n) (hab : a ≠ b) (had : a ≠ d)
    {yk yl : YData ℂ} (hyk : yk.n = n) (hyl : yl.n = n)
    (hk : Spec.EdgeData m n x a b n1 yk.u) (hl : Spec.EdgeData m n x a d n1' yl.u) :
    ∃ s, shiftAD exact exactTests yk yl m = .ok s := by
  have hab' : x b - x a ≠ 0 := sub_ne_zero.2 fun h => hab (hx hb ha h).symm
  have had' : x d - x a ≠ 0 := sub_ne_zero.2 fun h => had (hx hd ha h).symm
  have hdk : yk.u (n - 2) ≠ 0 := by rw [hk.ba2]; exact div_ne_zero hab' two_ne_zero
  have hdl : yl.u (n - 2) ≠ 0 := by rw [hl.ba2]; exact div_ne_zero had' two_ne_zero
  have pk := (edgeData_at hm ha hb hab hk).1
  have pl := (edgeData_at hm ha hd had hl).1
  have hYk : yk.u (n + 1) ≠ 0 := by
    intro h
    rw [h, zero_pow hm.ne'] at pk
    exact mul_ne_zero (div_ne_zero hab' (by norm_num)) (fder_ne_zero ha hx) pk.symm
  have hp : yl.u (n + 1) ^ m * yk.u (n - 2) = yk.u (n + 1) ^ m * yl.u (n - 2) := by
    rw [pk, pl, hk.ba2, hl.ba2]; ring
  obtain ⟨φ, e1, b1, t1⟩ := arbAngle_exact yk.ba2 yl.ba2
  obtain ⟨ψ, e2, b2, t2⟩ := arbAngle_exact yl.ya yk.ya
  have q1 : yk.ba2 = yk.u (n - 2) := by unfold YData.ba2; rw [hyk]
  have q2 : yl.ba2 = yl.u (n - 2) := by unfold YData.ba2; rw [hyl]
  have q3 : yk.ya = yk.u (n + 1) := by unfold YData.ya; rw [hyk]
  have q4 : yl.ya = yl.u (n + 1) := by unfold YData.ya; rw [hyl]
  rw [q1, q2] at t1
  rw [q3, q4] at t2
  obtain ⟨S, hS, -⟩ := gap_of_angles hm hdk hdl hYk hp t1 t2
  have hval := shift_value exact_encloses (m := m) (φ := φ) (ψ := ψ) rfl rfl
  have hval' : (φ + m * ψ) / (2 * Real.pi) = ((S : Int) : ℝ) := by
    have := Real.pi_pos
    rw [div_eq_iff (by positivity)]
    linarith
  rw [hval'] at hval
  refine ⟨S, ?_⟩
  unfold shiftAD
  rw [e1, Res.ok_bind, e2, Res.ok_bind, hval]
  have := arbGetSi_exact hm' (turn_bound b1 b2 0 (by simp [Real.pi_pos.le]) (by linarith))
  simpa using this

/-- `shift_number` returns on exact data, end of the first edge = start of the second -/
theorem shiftBD_exact_ok {m n a b d n1 n1' : Nat} (hm : 0 < m) (hm' : m < 2 ^ 62) {x : Nat → ℂ}
    (hx : Set.InjOn x (Set.Iio n)) (ha : a < n) (hb : b < n) (hd : d < n) (hab : a ≠ b) (hbd : b ≠ d)
    {yk yl : YData ℂ} (hyk : yk.n = n) (hyl : yl.n = n)
    (hk : Spec.EdgeData m n x a b n1 yk.u) (hl : Spec.EdgeData m n x b d n1' yl.u) :
    ∃ s, shiftBD exact exactTests yk yl m = .ok s := by
  have hab' : x a - x b ≠ 0 := sub_ne_zero.2 fun h => hab (hx ha hb h)
  have hbd' : x d - x b ≠ 0 := sub_ne_zero.2 fun h => hbd (hx hd hb h).symm
  have ek : -yk.u (n - 2) = (x a - x b) / 2 := by rw [hk.ba2]; ring
  have hdk : -yk.u (n - 2) ≠ 0 := by rw [ek]; exact div_ne_zero hab' two_ne_zero
  have hdl : yl.u (n - 2) ≠ 0 := by rw [hl.ba2]; exact div_ne_zero hbd' two_ne_zero
  have pk := (edgeData_at hm ha hb hab hk).2
  have pl := (edgeData_at hm hb hd hbd hl).1
  have hYk : yk.u (n + 2) ≠ 0 := by
    intro h
    rw [h, zero_pow hm.ne'] at pk
    exact mul_ne_zero (div_ne_zero hab' (by norm_num)) (fder_ne_zero hb hx) pk.symm
  have hp : yl.u (n + 1) ^ m * (-yk.u (n - 2)) = yk.u (n + 2) ^ m * yl.u (n - 2) := by
    rw [pk, pl, ek, hl.ba2]; ring
  obtain ⟨φ, e1, b1, t1⟩ := arbAngle_exact yk.ba2 yl.ba2
  obtain ⟨ψ, e2, b2, t2⟩ := arbAngle_exact yl.ya yk.yb
  have q1 : yk.ba2 = yk.u (n - 2) := by unfold YData.ba2; rw [hyk]
  have q2 : yl.ba2 = yl.u (n - 2) := by unfold YData.ba2; rw [hyl]
  have q3 : yk.yb = yk.u (n + 2) := by unfold YData.yb; rw [hyk]
  have q4 : yl.ya = yl.u (n + 1) := by unfold YData.ya; rw [hyl]
  rw [q1, q2] at t1
  rw [q3, q4] at t2
  have hturn : Spec.Turns (-yk.u (n - 2)) (yl.u (n - 2)) (φ + Real.pi) := by
    unfold Spec.Turns
    rw [neg_div, norm_neg]
    push_cast
    rw [add_mul, exp_add, exp_pi_mul_I]
    linear_combination -t1
  obtain ⟨S, hS, -⟩ := gap_of_angles hm hdk hdl hYk hp hturn t2
  have hpi := Real.pi_pos
  have hval : exact.add (exact.add ((φ / (2 * Real.pi) : ℝ) : ℂ)
      (exact.mul ((ψ / (2 * Real.pi) : ℝ) : ℂ) (exact.ofInt m))) (exact.mul2exp exact.one (-1)) = (S : ℂ) := by
    have hS' : ((φ : ℂ) + Real.pi + m * ψ) = 2 * Real.pi * S := by exact_mod_cast hS
    show ((φ / (2 * Real.pi) : ℝ) : ℂ) + ((ψ / (2 * Real.pi) : ℝ) : ℂ) * ((m : Int) : ℂ) +
      1 * (2 : ℂ) ^ (-1 : Int) = _
    have hpi' : ((Real.pi : ℝ) : ℂ) ≠ 0 := by exact_mod_cast Real.pi_ne_zero
    rw [zpow_neg_one]
    push_cast
    field_simp
    linear_combination hS'
  refine ⟨S, ?_⟩
  unfold shiftBD
  rw [e1, Res.ok_bind, e2, Res.ok_bind, hval]
  exact arbGetSi_exact hm' (turn_bound b1 b2 Real.pi (by rw [abs_of_pos hpi]; linarith) hS)

/-- the data of the tree, edge by edge -/
theorem treeYdataInit_exact {W : Type} {x : Nat → ℂ} {n m : Nat} (hm : 0 < m) (hx : Set.InjOn x (Set.Iio n)) :
    ∀ e : List (Edge W), (∀ f ∈ e, f.a < n ∧ f.b < n ∧ f.a ≠ f.b) →
      ∃ data, treeYdataInit exact exactTests x n m e = .ok data ∧
        List.Forall₂ (fun f y => y.m = m ∧ y.n = n ∧ Spec.EdgeData m n x f.a f.b y.n1 y.u) e data
  | [], _ => ⟨[], rfl, .nil⟩
  | f :: e, h => by
    obtain ⟨h1, h2, h3⟩ := h f (by simp)
    obtain ⟨y, e1, e2, e3, e4, -⟩ := C20_exact h1 h2 h3 hm fun g => h3 (hx h1 h2 g)
    obtain ⟨d, g1, g2⟩ := treeYdataInit_exact hm hx e fun f' hf' => h f' (by simp [hf'])
    refine ⟨y :: d, ?_, .cons ⟨e2, e3, e4⟩ g2⟩
    unfold treeYdataInit
    rw [e1, Res.ok_bind, g1, Res.ok_bind]

theorem edgePt_ratio {a b d : ℂ} {r : ℝ} (h : d ≠ a) (hr : (b - a) / (d - a) = r) :
    b = Spec.edgePt a d ((2 * r - 1 : ℝ) : ℂ) := by
  rw [div_eq_iff (sub_ne_zero.2 h)] at hr
  unfold Spec.edgePt
  push_cast
  linear_combination hr

/-- two segments from the same point, none of which contains the end of the other, do not overlap -/
theorem no_overlap {a b d : ℂ} (hb : b ≠ a) (hd : d ≠ a)
    (h1 : ∀ t : ℝ, -1 ≤ t → t ≤ 1 → b ≠ Spec.edgePt a d t) (h2 : ∀ t : ℝ, -1 ≤ t → t ≤ 1 → d ≠ Spec.edgePt a b t) :
    ¬ ∃ r : ℝ, 0 < r ∧ (b - a) / (d - a) = r := by
  rintro ⟨r, h0, hr⟩
  rcases le_total r 1 with h | h
  · exact h1 (2 * r - 1) (by linarith) (by linarith) (edgePt_ratio hd hr)
  · have hi : (d - a) / (b - a) = ((r⁻¹ : ℝ) : ℂ) := by
      rw [ofReal_inv, ← hr, inv_div]
    have h3 : r⁻¹ ≤ 1 := inv_le_one_of_one_le₀ h
    have h4 : 0 < r⁻¹ := inv_pos.2 h0
    exact h2 (2 * r⁻¹ - 1) (by linarith) (by linarith) (edgePt_ratio hb hi)

theorem edgePt_swap (a b t : ℂ) : Spec.edgePt a b t = Spec.edgePt b a (-t) := by
  unfold Spec.edgePt; ring

/-- **C14 (tree).** For every `m ≥ 2` (below `2^62`), all distinct branch points and every list of distinct edges between them whose
segments contain no other branch point, on exact data: the data of the tree are computed, each edge satisfying its local equation,
all shift numbers exist, and the entries of the matrix returned by `intersection_tree` for two different edges are the
local intersection numbers determined by the sheet gap `S` between the two stored branches at the
common point; edges without a common start or end-start point give `0`; the entries of one edge
are the self intersections of its lifts, and the matrix is antisymmetric. -/
theorem C14_tree {W : Type} {x : Nat → ℂ} {n m : Nat} (hm : 2 ≤ m) (hm' : m < 2 ^ 62)
    (hx : Set.InjOn x (Set.Iio n)) (e : List (Edge W)) (he : ∀ f ∈ e, f.a < n ∧ f.b < n ∧ f.a ≠ f.b)
    (hseg : ∀ f ∈ e, ∀ k < n, k ≠ f.a → k ≠ f.b → ∀ t : ℝ, -1 ≤ t → t ≤ 1 → x k ≠ Spec.edgePt (x f.a) (x f.b) t)
    (hdis : ∀ k l, (hkl : k < l) → (hl : l < e.length) →
      (e[l].a = e[k].a → e[l].b ≠ e[k].b) ∧ (e[l].a = e[k].b → e[l].b ≠ e[k].a)) :
    ∃ data c, treeYdataInit exact exactTests x n m e = .ok data ∧ data.length = e.length ∧
      intersectionTree (shiftOracle exact exactTests data m) e m = .ok c ∧
      (∀ k, (hk : k < e.length) → ∀ y, data[k]? = some y →
        y.n = n ∧ Spec.EdgeData m n x e[k].a e[k].b y.n1 y.u) ∧
      (∀ k < e.length, ∀ α < m - 1, ∀ β < m - 1, c (k * (m - 1) + α) (k * (m - 1) + β) = Spec.selfNumber α β) ∧
      (∀ i j, i < e.length * (m - 1) → j < e.length * (m - 1) → c i j = - c j i) ∧
      ∀ k l yk yl, (hkl : k < l) → (hl : l < e.length) → data[k]? = some yk → data[l]? = some yl →
        (e[l].a = e[k].a → ∃ S, Spec.SheetGap m yk.ba2 yl.ba2 yk.ya yl.ya S ∧
          ∀ α < m - 1, ∀ β < m - 1, c (k * (m - 1) + α) (l * (m - 1) + β) = Spec.localNumber m α β S) ∧
        (e[l].a = e[k].b → ∃ S, Spec.SheetGap m (-yk.ba2) yl.ba2 yk.yb yl.ya S ∧
          ∀ α < m - 1, ∀ β < m - 1, c (k * (m - 1) + α) (l * (m - 1) + β) = - Spec.localNumber m α β S) ∧
        (e[l].a ≠ e[k].a → e[l].a ≠ e[k].b →
          ∀ α < m - 1, ∀ β < m - 1, c (k * (m - 1) + α) (l * (m - 1) + β) = 0) := by
  have hm0 : 0 < m := by omega
  obtain ⟨data, hd, hf⟩ := treeYdataInit_exact hm0 hx e he
  have hlen := hf.length_eq
  have hdat : ∀ k, (hk : k < e.length) → ∀ y, data[k]? = some y →
      y.n = n ∧ Spec.EdgeData m n x e[k].a e[k].b y.n1 y.u := by
    intro k hk y hy
    have hk' : k < data.length := by omega
    have := List.forall₂_iff_get.1 hf
    have h2 := this.2 k hk hk'
    rw [List.getElem?_eq_getElem hk'] at hy
    cases hy
    exact ⟨h2.2.1, h2.2.2⟩
  have hget : ∀ k, k < e.length → ∃ y, data[k]? = some y := fun k hk =>
    ⟨data[k]'(by omega), List.getElem?_eq_getElem (by omega)⟩
  -- common start
  have key1 : ∀ k l yk yl, (hkl : k < l) → (hl : l < e.length) → data[k]? = some yk → data[l]? = some yl →
      e[l].a = e[k].a → ∃ s, shiftAD exact exactTests yk yl m = .ok s ∧
        ∃ S, Spec.SheetGap m yk.ba2 yl.ba2 yk.ya yl.ya S ∧
        ∀ α β, (if isNegAbad exact exactTests yk.ba2 yl.ba2 then Spec.Meet.startNeg s else Spec.Meet.startPos s).number m α β =
          Spec.localNumber m α β S := by
    intro k l yk yl hkl hl gk gl heq
    obtain ⟨n1, d1⟩ := hdat k (by omega) yk gk
    obtain ⟨n2, d2⟩ := hdat l hl yl gl
    obtain ⟨v1, v2, v3⟩ := he e[k] (List.getElem_mem _)
    obtain ⟨w1, w2, w3⟩ := he e[l] (List.getElem_mem _)
    rw [heq] at d2 w3
    have hne := (hdis k l hkl hl).1 heq
    have hov : ¬ ∃ r : ℝ, 0 < r ∧ (x e[k].b - x e[k].a) / (x e[l].b - x e[k].a) = r := by
      refine no_overlap (fun h => v3 (hx v2 v1 h).symm) (fun h => w3 (hx w2 v1 h).symm) ?_ ?_
      · have := hseg e[l] (List.getElem_mem _) e[k].b v2 (by rw [heq]; exact v3.symm) hne.symm
        rwa [heq] at this
      · exact hseg e[k] (List.getElem_mem _) e[l].b w2 w3.symm hne
    obtain ⟨s, hs⟩ := shiftAD_exact_ok hm0 hm' hx v1 v2 w2 v3 w3 n1 n2 d1 d2
    have hz : yk.ba2 / yl.ba2 = (x e[k].b - x e[k].a) / (x e[l].b - x e[k].a) := by
      unfold YData.ba2
      rw [n1, n2, d1.ba2, d2.ba2]; field_simp
    obtain ⟨S, h1, h2⟩ := C14_common_start exact_encloses exactTests_sound hm0 hx v1 v2 w2 v3 w3 n1 n2
      (fun _ => rfl) (fun _ => rfl) d1 d2 hov
      (by
        intro _
        show decide (0 ≤ ((arg (-(yk.ba2 / yl.ba2)) : ℝ) : ℂ).re) = true ↔ decide ((yk.ba2 / yl.ba2).im ≤ 0) = true
        rw [decide_eq_true_iff, decide_eq_true_iff, ofReal_re, arg_nonneg_iff, neg_im]
        constructor <;> intro h <;> linarith)
      (by
        intro h0
        have h0' : ¬ (yk.ba2 / yl.ba2).re ≤ 0 := by
          change decide ((yk.ba2 / yl.ba2).re ≤ 0) = false at h0
          exact of_decide_eq_false h0
        show decide ((yk.ba2 / yl.ba2).im ≤ 0) = true ↔ _
        rw [decide_eq_true_iff, hz]
        rw [hz] at h0'
        constructor
        · intro h
          refine lt_of_le_of_ne h fun h3 => hov ⟨_, not_le.1 h0', Complex.ext rfl (by rw [h3, ofReal_im])⟩
        · exact le_of_lt) hs
    refine ⟨s, hs, S, ?_, h2⟩
    unfold YData.ba2 YData.ya
    rw [n1, n2]
    exact h1
  have key2 : ∀ k l yk yl, (hkl : k < l) → (hl : l < e.length) → data[k]? = some yk → data[l]? = some yl →
      e[l].a = e[k].b → ∃ s, shiftBD exact exactTests yk yl m = .ok s ∧
        ∃ S, Spec.SheetGap m (-yk.ba2) yl.ba2 yk.yb yl.ya S ∧
        ∀ α β, (Spec.Meet.endStart s).number m α β = - Spec.localNumber m α β S := by
    intro k l yk yl hkl hl gk gl heq
    obtain ⟨n1, d1⟩ := hdat k (by omega) yk gk
    obtain ⟨n2, d2⟩ := hdat l hl yl gl
    obtain ⟨v1, v2, v3⟩ := he e[k] (List.getElem_mem _)
    obtain ⟨w1, w2, w3⟩ := he e[l] (List.getElem_mem _)
    rw [heq] at d2 w3
    have hne := (hdis k l hkl hl).2 heq
    have hov : ¬ ∃ r : ℝ, 0 < r ∧ (x e[k].a - x e[k].b) / (x e[l].b - x e[k].b) = r := by
      refine no_overlap (fun h => v3 (hx v1 v2 h)) (fun h => w3 (hx w2 v2 h).symm) ?_ ?_
      · have := hseg e[l] (List.getElem_mem _) e[k].a v1 (by rw [heq]; exact v3) hne.symm
        rwa [heq] at this
      · intro t h1 h2
        have := hseg e[k] (List.getElem_mem _) e[l].b w2 hne w3.symm (-t) (by linarith) (by linarith)
        rw [edgePt_swap]
        simpa using this
    obtain ⟨s, hs⟩ := shiftBD_exact_ok hm0 hm' hx v1 v2 w2 v3 w3 n1 n2 d1 d2
    have hz : -(yk.ba2 / yl.ba2) = (x e[k].a - x e[k].b) / (x e[l].b - x e[k].b) := by
      unfold YData.ba2
      rw [n1, n2, d1.ba2, d2.ba2, ← neg_div, ← neg_div, neg_sub]; field_simp
    obtain ⟨S, h1, h2⟩ := C14_end_start exact_encloses exactTests_sound hm hx v1 v2 w2 v3 w3 n1 n2
      (fun _ => rfl) (fun _ => rfl) d1 d2 hov
      (by
        intro _
        show decide (0 ≤ ((arg (-(yk.ba2 / yl.ba2)) : ℝ) : ℂ).re) = true ↔ _
        rw [decide_eq_true_iff, ofReal_re, hz]) hs
    refine ⟨s, hs, S, ?_, h2⟩
    unfold YData.ba2 YData.ya YData.yb
    rw [n1, n2]
    exact h1
  let o := shiftOracle exact exactTests data m
  have hs : Shifts o e (fun k l => match o.abad k l with | .ok v => v | _ => 0)
      (fun k l => match o.abbd k l with | .ok v => v | _ => 0) := by
    constructor
    · intro k l ek el hkl h1 h2 heq
      obtain ⟨hl, h2⟩ := List.getElem?_eq_some_iff.1 h2
      obtain ⟨hk, h1⟩ := List.getElem?_eq_some_iff.1 h1
      obtain ⟨yk, gk⟩ := hget k hk
      obtain ⟨yl, gl⟩ := hget l hl
      obtain ⟨s, hs, -⟩ := key1 k l yk yl hkl hl gk gl (by rw [h1, h2]; exact heq)
      have : o.abad k l = .ok s := by simp only [o, shiftOracle, gk, gl]; exact hs
      simp only [this]
    · intro k l ek el hkl h1 h2 _ heq
      obtain ⟨hl, h2⟩ := List.getElem?_eq_some_iff.1 h2
      obtain ⟨hk, h1⟩ := List.getElem?_eq_some_iff.1 h1
      obtain ⟨yk, gk⟩ := hget k hk
      obtain ⟨yl, gl⟩ := hget l hl
      obtain ⟨s, hs, -⟩ := key2 k l yk yl hkl hl gk gl (by rw [h1, h2]; exact heq)
      have : o.abbd k l = .ok s := by simp only [o, shiftOracle, gk, gl]; exact hs
      simp only [this]
  obtain ⟨c, hc, hcc⟩ := C13_intersection_table o e hm hs
  refine ⟨data, c, hd, hlen.symm, hc, hdat, fun k hk α hα β hβ => by rw [hcc k k α β hk hk hα hβ, if_pos rfl], ?_, ?_⟩
  · obtain ⟨c', hc', ha⟩ := C13_antisymmetric_small o e hm hs
    obtain rfl := Res.ok.inj (hc.symm.trans hc')
    exact fun i j hi hj => (ha i j hi hj).1
  intro k l yk yl hkl hl gk gl
  have hv1 := (he e[k] (List.getElem_mem _)).2.2
  refine ⟨?_, ?_, ?_⟩
  · intro heq
    obtain ⟨s, hs', S, g1, g2⟩ := key1 k l yk yl hkl hl gk gl heq
    refine ⟨S, g1, fun α hα β hβ => ?_⟩
    rw [hcc k l α β (by omega) hl hα hβ, if_neg (by omega), if_pos hkl]
    have ho : o.abad k l = .ok s := by simp only [o, shiftOracle, gk, gl]; exact hs'
    have hn : o.neg k l = isNegAbad exact exactTests yk.ba2 yl.ba2 := by simp only [o, shiftOracle, gk, gl]
    simp only [ho, hn, Spec.meetOf, if_pos heq]
    exact g2 α β
  · intro heq
    obtain ⟨s, hs', S, g1, g2⟩ := key2 k l yk yl hkl hl gk gl heq
    refine ⟨S, g1, fun α hα β hβ => ?_⟩
    rw [hcc k l α β (by omega) hl hα hβ, if_neg (by omega), if_pos hkl]
    have ho : o.abbd k l = .ok s := by simp only [o, shiftOracle, gk, gl]; exact hs'
    have hne : ¬ e[l].a = e[k].a := by rw [heq]; exact hv1.symm
    simp only [ho, Spec.meetOf, if_neg hne, if_pos heq]
    exact g2 α β
  · intro h1 h2 α hα β hβ
    rw [hcc k l α β (by omega) hl hα hβ, if_neg (by omega), if_pos hkl]
    simp only [Spec.meetOf, if_neg h1, if_neg h2]
    rfl

/-- Instance: branch points `0, 1, i`, edges `(0,1)` and `(0,2)`, `m = 3`. -/
example : ∃ x : Nat → ℂ, Set.InjOn x (Set.Iio 3) ∧
    (∀ f ∈ ([⟨0, 1, ()⟩, ⟨0, 2, ()⟩] : List (Edge Unit)), ∀ k < 3, k ≠ f.a → k ≠ f.b →
      ∀ t : ℝ, -1 ≤ t → t ≤ 1 → x k ≠ Spec.edgePt (x f.a) (x f.b) t) := by
  refine ⟨fun k => if k = 0 then 0 else if k = 1 then 1 else I, ?_, ?_⟩
  · intro i hi j hj h
    simp only [Set.mem_Iio] at hi hj
    interval_cases i <;> interval_cases j <;> simp_all [Complex.ext_iff]
  · intro f hf k hk h0 h1 t _ _ h
    simp only [List.mem_cons, List.not_mem_nil, or_false] at hf
    rcases hf with rfl | rfl
    · have : k = 2 := by simp only at h0 h1; omega
      subst this
      have := congrArg Complex.im h
      simp [Spec.edgePt] at this
    · have : k = 1 := by simp only at h0 h1; omega
      subst this
      have := congrArg Complex.re h
      simp [Spec.edgePt] at this

end Hcp
