import Verif.Model.DeTree
import Verif.Props.DeError
import Verif.Props.ComputeIdeal
import Verif.Props.Meet

/-!
# C83: one double-exponential scheme for a tree
-/

open Set

namespace Hcp
open Spec

variable {x : Nat → ℂ} {n : Nat}

theorem deHeight_neg (lam : ℝ) (w : ℂ) : deHeight lam (-w) = deHeight lam w := by
  have h1 : catanh (-w) / lam = -(catanh w / lam) := by
    unfold catanh
    rw [show (1 : ℂ) + -w = 1 - w by ring, show (1 : ℂ) - -w = 1 + w by ring]
    ring
  unfold deHeight
  rw [h1]
  set z := catanh w / lam
  unfold casinh
  set q := (z ^ 2 + 1) ^ ((2 : ℂ)⁻¹) with hq
  have hq2 : q ^ 2 = z ^ 2 + 1 := by
    have := Complex.cpow_nat_inv_pow (z ^ 2 + 1) two_ne_zero
    rw [hq]
    exact_mod_cast this
  have e : -z + ((-z) ^ 2 + 1) ^ ((2 : ℂ)⁻¹) = (z + q)⁻¹ := by
    rw [neg_sq, ← hq]
    refine eq_inv_of_mul_eq_one_left ?_
    linear_combination hq2
  rw [e, Complex.log_im, Complex.log_im, Complex.abs_arg_inv]

/-- the heights of the other points for the edge `(a, b)` -/
noncomputable def edgeHs (lam : ℝ) (x : Nat → ℂ) (n a b : Nat) : List ℝ := ((List.range n).filter fun k => k ≠ a ∧ k ≠ b).map fun k => stripParam lam (x a) (x b) (x k)

theorem stripParam_comm (lam : ℝ) (a b c : ℂ) : stripParam lam a b c = stripParam lam b a c := by
  have := deHeight_neg lam ((2 * c - a - b) / (b - a))
  unfold deHeight at this
  unfold stripParam
  rw [← this, show (2 * c - b - a) / (a - b) = -((2 * c - a - b) / (b - a)) by rw [← neg_sub b a, div_neg]; ring]

theorem edgeHs_comm (lam : ℝ) (x : Nat → ℂ) (n a b : Nat) : edgeHs lam x n a b = edgeHs lam x n b a := by
  unfold edgeHs
  have e : ((List.range n).filter fun k => k ≠ a ∧ k ≠ b) = (List.range n).filter fun k => k ≠ b ∧ k ≠ a := by
    congr 1
    funext k
    rw [decide_eq_decide]
    exact and_comm
  rw [e]
  exact List.map_congr_left fun k _ => stripParam_comm _ _ _ _

/-- the parameter of an edge is the smallest height -/
theorem paramEdge_leastH (lam : ℝ) (hn : 3 ≤ n) {i j : Nat} (x : Nat → ℂ) :
    IsLeastIn (paramEdge (WOps.ofOrder (-1 : ℝ)) (fun k => treeParam (exactCOps lam) .de (x i) (x j) (x k)) i j n) (edgeHs lam x n i j) := by
  have hf : ∀ k, treeParam (exactCOps lam) .de (x i) (x j) (x k) = stripParam lam (x i) (x j) (x k) := fun k => rfl
  obtain ⟨h1, h2⟩ := C42_edge_parameter (-1 : ℝ) (by norm_num) (fun k => treeParam (exactCOps lam) .de (x i) (x j) (x k)) (fun k => by rw [hf]; exact abs_nonneg _) i j n
  constructor
  · rcases h2 with ⟨k, hk, ki, kj, e⟩ | ⟨h, -⟩
    · rw [e, hf]
      exact List.mem_map.2 ⟨k, by simp [hk, ki, kj], rfl⟩
    · exfalso
      have a0 := h 0 (by omega)
      have a1 := h 1 (by omega)
      have a2 := h 2 (by omega)
      omega
  · intro s hs
    obtain ⟨k, hk, rfl⟩ := List.mem_map.1 hs
    simp only [List.mem_filter, List.mem_range, decide_eq_true_eq] at hk
    have := h1 k hk.1 hk.2.1 hk.2.2
    rwa [hf] at this

theorem edgeHs_mem {m a b n1 : Nat} {u : Nat → ℂ} {lam : ℝ} (hab : x a ≠ x b) (hE : EdgeData m n x a b n1 u) (s : ℝ) :
    s ∈ ((List.range (n - 2)).map u).map (deHeight lam) ↔ s ∈ edgeHs lam x n a b := by
  obtain ⟨τ, hτ, hp⟩ := hE.pts
  have hd : x b - x a ≠ 0 := sub_ne_zero.2 (Ne.symm hab)
  have key : ∀ i < n - 2, deHeight lam (u i) = stripParam lam (x a) (x b) (x (τ i)) := by
    intro i hi
    have : u i = (2 * x (τ i) - x a - x b) / (x b - x a) := by
      rw [← hp i hi, eq_div_iff hd]
      unfold edgePt
      ring
    rw [this]
    rfl
  simp only [edgeHs, List.map_map, List.mem_map, List.mem_range, List.mem_filter, decide_eq_true_eq, Function.comp_apply]
  constructor
  · rintro ⟨i, hi, rfl⟩
    exact ⟨τ i, hτ.mapsTo hi, (key i hi).symm⟩
  · rintro ⟨k, hk, rfl⟩
    obtain ⟨i, hi, rfl⟩ := hτ.surjOn (show k ∈ {k | k < n ∧ k ≠ a ∧ k ≠ b} from hk)
    exact ⟨i, hi, key i hi⟩

theorem deHeightLoop_attained {lam : ℝ} : ∀ {ws : List ℂ} {r r' : ℝ}, deHeightLoop lam ws r = .ok r' → r' = r ∨ ∃ w ∈ ws, r' = deHeight lam w
  | [], r, r', h => by cases h; exact .inl rfl
  | w :: ws, r, r', h => by
    unfold deHeightLoop at h
    split at h
    · cases h
    · rcases deHeightLoop_attained h with h | ⟨v, hv, h⟩
      · split at h
        · exact .inr ⟨w, by simp, h⟩
        · exact .inl h
      · exact .inr ⟨v, by simp [hv], h⟩

/-- the half width is nine tenths of the smallest height, at most `1.26` -/
theorem deRadius_eq {lam : ℝ} {ws : List ℂ} {p : ℝ} (hp : IsLeastIn p (ws.map (deHeight lam))) (h0 : 0 < p) : deRadius lam ws = .ok (min (14 / 10) p * (9 / 10)) := by
  obtain ⟨r', e⟩ := deHeightLoop_total (lam := lam) (ws := ws) (r := 14 / 10) fun w hw => h0.trans_le (hp.2 _ (List.mem_map_of_mem hw))
  obtain ⟨-, h2, h3⟩ := deHeightLoop_ok e (by norm_num)
  unfold deRadius
  rw [e]
  have : r' = min (14 / 10) p := by
    refine le_antisymm (le_min h2 ?_) ?_
    · obtain ⟨w, hw, rfl⟩ := List.mem_map.1 hp.1
      exact h3 w hw
    · rcases deHeightLoop_attained e with rfl | ⟨w, hw, rfl⟩
      · exact min_le_left _ _
      · exact (min_le_right _ _).trans (hp.2 _ (List.mem_map_of_mem hw))
  rw [this]

/-- **C83.** Take `n ≥ 3` distinct branch points known exactly, the tree of the double-exponential rule and any exponent `m ≥ 2`.  `de_params_tree` returns at every precision.  Its step, scaling, half width and number of points are also those
which `de_params` returns for any edge with the same parameter as `tree->min` (the flag which keeps the scheme of the first edge of the loop therefore gives the same points).  For every edge of the tree a strictly wider strip contains no
preimage of a branch point, and for each edge and each differential `x^i dx / y^j` there is a constant `K` such that at every precision the sum with these points is at distance at most `K 2^(-prec (m-j)/(m-1))` of the integral: the same rate as
with the parameters of the edge.  The last part says the same of the parameters of any edge with a parameter at most that of the given one (the loop of the integration runs over increasing parameters, a scheme which is kept was made for such
an edge). -/
theorem C83_one_scheme {sort : List (Edge ℝ) → List (Edge ℝ)} (hs : SortsByR sort) {lam : ℝ} (hlam : 0 < lam) (hlam2 : lam ≤ Real.pi / 2) (m2 : ℝ → ℝ) (hn : 3 ≤ n) (hx : InjOn x (Iio n)) {N : Nat} (hN : N < n) (hN0 : 0 < N)
    {m : Nat} (hm : 2 ≤ m) (j1 : Nat) :
    ∃ (tr : Tree ℝ) (data : List (YData ℂ)) (r : ℝ), spanningTreeOf (exactCOps lam) (WOps.ofOrder (-1)) sort x (treeInit (WOps.ofOrder (-1)) N) n .de = .ok tr ∧ tr.e.length = N ∧
      treeYdataInit exact exactTests x n m tr.e = .ok data ∧ data.length = N ∧ 0 < r ∧ (∀ f ∈ tr.e, tr.r ≤ f.r) ∧
      (∀ prec : Nat, ∃ o, deParamsTree lam m2 tr data n j1 m prec = .ok o ∧ o.r = r ∧ o.l = lam ∧
        ∀ (k : Nat) (f : Edge ℝ) (yd : YData ℂ), tr.e[k]? = some f → data[k]? = some yd → f.r = tr.r →
          ∃ o', deParams lam m2 (pointsOf n yd) j1 m prec = .ok o' ∧ o'.n = o.n ∧ o'.h = o.h ∧ o'.l = o.l ∧ o'.r = o.r) ∧
      (∀ (k : Nat) (f : Edge ℝ) (yd : YData ℂ), tr.e[k]? = some f → data[k]? = some yd →
        (∃ ρ, r < ρ ∧ FreeStrip lam ρ (n - 2) yd.u) ∧
        ∀ i j : Nat, 1 ≤ j → j < m → ∃ K : ℝ, ∀ (prec : Nat) (o : DeOut), 1 ≤ prec → deParamsTree lam m2 tr data n j1 m prec = .ok o →
          ‖trapSum m yd.n1 (n - 2) yd.u o.l i j o.h o.n - edgeIntegral m yd.n1 (n - 2) yd.u i j‖ ≤ K * 2 ^ (-((m - j) / (m - 1) * prec : ℝ))) ∧
      ∀ (k k' : Nat) (f g : Edge ℝ) (yd yd' : YData ℂ), tr.e[k]? = some f → data[k]? = some yd → tr.e[k']? = some g → data[k']? = some yd' → g.r ≤ f.r →
        ∀ i j : Nat, 1 ≤ j → j < m → ∃ K : ℝ, ∀ (prec : Nat) (o : DeOut), 1 ≤ prec → deParams lam m2 (pointsOf n yd') j1 m prec = .ok o →
          ‖trapSum m yd.n1 (n - 2) yd.u o.l i j o.h o.n - edgeIntegral m yd.n1 (n - 2) yd.u i j‖ ≤ K * 2 ^ (-((m - j) / (m - 1) * prec : ℝ)) := by
  have hN' : (treeInit (WOps.ofOrder (-1 : ℝ)) N).n < n ∨ (treeInit (WOps.ofOrder (-1 : ℝ)) N).n = 0 := .inl hN
  obtain ⟨tr, e1, hlen, hb⟩ := C46_no_third_point hs hlam.ne' .de (treeInit (WOps.ofOrder (-1)) N) n hN' hx
  change tr.e.length = N at hlen
  have e1' := e1
  unfold spanningTreeOf at e1'
  obtain ⟨tr', E, h1, h2, h3, h4, ⟨L, rfl⟩, h5, h6⟩ := tree_core (WOps.ofOrder (-1)) sort hs.perm (fun i j => paramEdge (WOps.ofOrder (-1)) (fun k => treeParam (exactCOps lam) .de (x i) (x j) (x k)) i j n)
    (treeInit (WOps.ofOrder (-1)) N) n hN' WorstInv (by intro _; exact ⟨fun _ => rfl, fun h => absurd rfl h⟩) (fun _ tr x h _ => worstInv_step (-1) tr x h)
  obtain rfl := Res.ok.inj (e1'.symm.trans h1)
  obtain ⟨hg, hr⟩ := steps_grow h4 h6
  have hes : ∀ ed ∈ tr.e, ed.a < n ∧ ed.b < n ∧ ed.a ≠ ed.b := by
    intro ed hed
    obtain ⟨k, hk, rfl⟩ := List.getElem_of_mem hed
    have := (hg k (by simpa using hk)).1
    simp only [List.getElem_map] at this
    exact ⟨(hr _ hed).1, (hr _ hed).2.1, this⟩
  have hnz : ∀ y ∈ tr.e, y.r ≠ 0 := fun y hy => selected_ne_zero hlam.ne' .de hx (hr y hy).1 (hr y hy).2.1 (hes y hy).2.2 (hb _ hy) (hr y hy).2.2
  have hne : tr.e ≠ [] := by
    intro h
    rw [h] at hlen
    simp at hlen
    omega
  obtain ⟨-, ⟨hmin, hrmin⟩, hle⟩ := (h5 hnz).2 hne
  have hleast : ∀ ed ∈ tr.e, IsLeastIn ed.r (edgeHs lam x n ed.a ed.b) := by
    intro ed hed
    rw [(hr ed hed).2.2]
    have := paramEdge_leastH lam hn (i := min ed.a ed.b) (j := max ed.a ed.b) x
    rcases le_total ed.a ed.b with h | h
    · rw [min_eq_left h, max_eq_right h] at this ⊢
      exact this
    · rw [min_eq_right h, max_eq_left h] at this ⊢
      rw [edgeHs_comm lam x n ed.a ed.b]
      exact this
  have hpos : ∀ ed ∈ tr.e, 0 < ed.r := by
    intro ed hed
    refine lt_of_le_of_ne ?_ (hnz ed hed).symm
    obtain ⟨k, -, e⟩ := List.mem_map.1 (hleast ed hed).1
    rw [← e]
    exact abs_nonneg _
  have hdata : ∀ es : List (Edge ℝ), (∀ ed ∈ es, ed.a < n ∧ ed.b < n ∧ ed.a ≠ ed.b) → ∃ ys, treeYdataInit exact exactTests x n m es = .ok ys := by
    intro es
    induction es with
    | nil => exact fun _ => ⟨[], rfl⟩
    | cons ed es ih =>
      intro h
      obtain ⟨ys, q⟩ := ih fun e he => h e (List.mem_cons_of_mem _ he)
      obtain ⟨q1, q2, q3⟩ := h ed List.mem_cons_self
      rcases C20_edge_data exact_encloses exactTests (x := x) (fun _ => rfl) q1 q2 q3 (m := m) (by omega) (fun h => q3 (hx q1 q2 h)) with ⟨yd, hyd, -⟩ | ⟨_, s, z, hz, h', h0⟩
      · refine ⟨yd :: ys, ?_⟩
        unfold treeYdataInit
        rw [hyd, Res.ok_bind, q, Res.ok_bind]
      · subst hz
        simp only [exactTests, decide_eq_true_eq] at h'
        exact absurd h' h0
  obtain ⟨data, hd⟩ := hdata tr.e hes
  obtain ⟨hdl, hget⟩ := treeYdataInit_get hd
  obtain ⟨u, hu⟩ := exactData_exists exact_encloses exactTests (x := x) (x' := x) (fun _ => rfl) (by omega) (fun ed hed => ⟨(hes ed hed).1, (hes ed hed).2.1, fun h => (hes ed hed).2.2 (hx (hes ed hed).1 (hes ed hed).2.1 h)⟩) hd
  have hpts : ∀ (k : Nat) (f : Edge ℝ) (yd : YData ℂ), tr.e[k]? = some f → data[k]? = some yd → EdgeData m n x f.a f.b yd.n1 yd.u := by
    intro k f yd h h'
    obtain ⟨-, q1, q2⟩ := hu k f yd h h'
    rwa [show yd.u = u k from funext q1]
  have hP : ∀ (k : Nat) (f : Edge ℝ) (yd : YData ℂ), tr.e[k]? = some f → data[k]? = some yd → IsLeastIn f.r ((pointsOf n yd).map (deHeight lam)) := by
    intro k f yd h h'
    have hm := List.mem_of_getElem? h
    obtain ⟨a1, a2, a3⟩ := hes f hm
    have hmem := edgeHs_mem (lam := lam) (fun h => a3 (hx a1 a2 h)) (hpts k f yd h h')
    exact ⟨(hmem _).2 (hleast f hm).1, fun s hs => (hleast f hm).2 s ((hmem _).1 hs)⟩
  -- the parameters of an edge
  have hoff : ∀ (k : Nat) (f : Edge ℝ) (yd : YData ℂ), tr.e[k]? = some f → data[k]? = some yd → ∀ w ∈ pointsOf n yd, ¬ (|w.re| ≤ 1 ∧ w.im = 0) := by
    rintro k f yd h h' w hw ⟨w1, w2⟩
    have h0 : 0 < deHeight lam w := (hpos f (List.mem_of_getElem? h)).trans_le ((hP k f yd h h').2 _ (List.mem_map_of_mem hw))
    have hwr : w = (w.re : ℂ) := Complex.ext rfl (by simp [w2])
    have hz : ∀ t : ℝ, |t| ≤ 1 → (casinh (catanh (t : ℂ) / lam)).im = 0 := by
      intro t ht
      rw [casinh_im, Complex.div_ofReal_im]
      have him : (catanh (t : ℂ)).im = ((1 + (t : ℂ)).arg - (1 - (t : ℂ)).arg) / 2 := by
        unfold catanh
        rw [show (2 : ℂ) = ((2 : ℝ) : ℂ) by norm_num, Complex.div_ofReal_im, Complex.sub_im, Complex.log_im, Complex.log_im]
      rw [him]
      have b := abs_le.1 ht
      have a1 : (1 + (t : ℂ)).arg = 0 := by
        have := Complex.arg_ofReal_of_nonneg (x := 1 + t) (by linarith)
        simpa using this
      have a2 : (1 - (t : ℂ)).arg = 0 := by
        have := Complex.arg_ofReal_of_nonneg (x := 1 - t) (by linarith)
        simpa using this
      rw [a1, a2]
      simp
    unfold deHeight at h0
    rw [hwr, hz _ w1, abs_zero] at h0
    exact lt_irrefl _ h0
  have hcall : ∀ (k : Nat) (f : Edge ℝ) (yd : YData ℂ), tr.e[k]? = some f → data[k]? = some yd → ∀ prec : Nat, ∃ o, deParams lam m2 (pointsOf n yd) j1 m prec = .ok o ∧ o.r = min (14 / 10) f.r * (9 / 10) ∧ o.l = lam ∧
      o.h = deStep1 lam (min (14 / 10) f.r * (9 / 10)) m prec ∧ o.n = deCount lam (deStep1 lam (min (14 / 10) f.r * (9 / 10)) m prec) m prec := by
    intro k f yd h h' prec
    have hR := deRadius_eq (hP k f yd h h') (hpos f (List.mem_of_getElem? h))
    unfold deParams
    rw [if_neg (by rintro ⟨w, hw, hc⟩; exact hoff k f yd h h' w hw hc), hR]
    exact ⟨_, rfl, rfl, rfl, rfl, rfl⟩
  set e0 := tr.e[tr.min] with he0
  have hm0 : e0 ∈ tr.e := List.getElem_mem hmin
  have hmin' : tr.e[tr.min]? = some e0 := List.getElem?_eq_getElem hmin
  obtain ⟨y0, hy0⟩ : ∃ y0, data[tr.min]? = some y0 := ⟨_, List.getElem?_eq_getElem (by omega)⟩
  have htree : ∀ prec, deParamsTree lam m2 tr data n j1 m prec = deParams lam m2 (pointsOf n y0) j1 m prec := by
    intro prec
    unfold deParamsTree
    rw [hy0]
  -- the strip of an edge with a smaller parameter
  have hstrip : ∀ (k : Nat) (f : Edge ℝ) (yd : YData ℂ), tr.e[k]? = some f → data[k]? = some yd → ∀ p : ℝ, p ≤ f.r → FreeStrip lam (min (14 / 10) p) (n - 2) yd.u := by
    intro k f yd hk hyd p hp k' hk' t ht hz
    have hpi := Real.pi_gt_d2
    have hq := deZ_ne_one lam t
    rw [hz] at hq
    have hA := de_height hlam hlam2 hq.1 hq.2 (t := t) (by linarith [min_le_left (14 / 10 : ℝ) p]) hz
    have hB : f.r ≤ deHeight lam (yd.u k') := (hP k f yd hk hyd).2 _ (List.mem_map_of_mem (List.mem_map.2 ⟨k', List.mem_range.2 hk', rfl⟩))
    have hD := min_le_right (14 / 10 : ℝ) p
    unfold deHeight at hB
    linarith
  have hserve : ∀ (k k' : Nat) (f g : Edge ℝ) (yd yd' : YData ℂ), tr.e[k]? = some f → data[k]? = some yd → tr.e[k']? = some g → data[k']? = some yd' → g.r ≤ f.r →
      ∀ i j : Nat, 1 ≤ j → j < m → ∃ K : ℝ, ∀ (prec : Nat) (o : DeOut), 1 ≤ prec → deParams lam m2 (pointsOf n yd') j1 m prec = .ok o →
        ‖trapSum m yd.n1 (n - 2) yd.u o.l i j o.h o.n - edgeIntegral m yd.n1 (n - 2) yd.u i j‖ ≤ K * 2 ^ (-((m - j) / (m - 1) * prec : ℝ)) := by
    intro k k' f g yd yd' hk hyd hk' hyd' hgf i j hj0 hj
    have hr0 : 0 < min (14 / 10) g.r := lt_min (by norm_num) (hpos g (List.mem_of_getElem? hk'))
    have hpi := Real.pi_gt_d2
    obtain ⟨K, hK⟩ := de_upper (n1 := yd.n1) (i := i) (j := j) (m := m) hm hj0 hj (hpts k f yd hk hyd).n1_le hlam hlam2 (by positivity : 0 < min (14 / 10) g.r * (9 / 10)) (by linarith : _ < min (14 / 10) g.r)
      (by linarith [min_le_left (14 / 10 : ℝ) g.r]) (hstrip k f yd hk hyd g.r hgf) (ne_one_of_list (hoff k f yd hk hyd))
    refine ⟨K, fun prec o hp ho => ?_⟩
    obtain ⟨o', o1, o2, o3, o4, o5⟩ := hcall _ _ _ hk' hyd' prec
    rw [o1] at ho
    obtain rfl := Res.ok.inj ho
    rw [o3, o4, o5, Real.rpow_def_of_pos two_pos]
    refine (hK prec hp).trans (le_of_eq ?_)
    congr 2
    ring
  have hr0 : 0 < min (14 / 10) tr.r := lt_min (by norm_num) (by rw [← hrmin]; exact hpos e0 hm0)
  refine ⟨tr, data, min (14 / 10) tr.r * (9 / 10), e1, hlen, hd, by omega, by positivity, hle, fun prec => ?_, fun k f yd hk hyd => ?_, hserve⟩
  · obtain ⟨o, o1, o2, o3, o4, o5⟩ := hcall _ _ _ hmin' hy0 prec
    refine ⟨o, by rw [htree]; exact o1, by rw [o2, hrmin], o3, fun k f yd hk hyd hfr => ?_⟩
    obtain ⟨o', q1, q2, q3, q4, q5⟩ := hcall k f yd hk hyd prec
    rw [hrmin] at o2 o4 o5
    rw [hfr] at q2 q4 q5
    exact ⟨o', q1, by rw [q5, o5], by rw [q4, o4], by rw [q3, o3], by rw [q2, o2]⟩
  · have hf := hle f (List.mem_of_getElem? hk)
    refine ⟨⟨_, by linarith, hstrip k f yd hk hyd _ hf⟩, fun i j hj0 hj => ?_⟩
    obtain ⟨K, hK⟩ := hserve k tr.min f e0 yd y0 hk hyd hmin' hy0 (by rw [hrmin]; exact hf) i j hj0 hj
    exact ⟨K, fun prec o hp ho => hK prec o hp (by rw [← htree]; exact ho)⟩

/-- The equilateral triangle with `m = 3`: the tree has two edges. -/
example (m2 : ℝ → ℝ) : ∃ (tr : Tree ℝ) (data : List (YData ℂ)), spanningTreeOf (exactCOps (Real.pi / 2)) (WOps.ofOrder (-1)) sortByR tri (treeInit (WOps.ofOrder (-1)) 2) 3 .de = .ok tr ∧ tr.e.length = 2 ∧
    ∀ prec : Nat, ∃ o, deParamsTree (Real.pi / 2) m2 tr data 3 1 3 prec = .ok o := by
  obtain ⟨tr, data, r, h1, h2, -, -, -, -, h3, -, -⟩ := C83_one_scheme (x := tri) sortByR_sorts (by positivity : 0 < Real.pi / 2) le_rfl m2 le_rfl tri_inj (N := 2) (by norm_num) (by norm_num) (m := 3) (by norm_num) 1
  exact ⟨tr, data, h1, h2, fun prec => (h3 prec).imp fun o h => h.1⟩

end Hcp
