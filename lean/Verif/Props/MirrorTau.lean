import Verif.Props.Mirror
import Verif.Props.AffineTau

/-!
# C87: periods of mirror images
-/

namespace Hcp

open Set Spec ComplexConjugate

variable {x : Nat → ℂ} {m n : Nat}

theorem edgePt_conj (a b : ℂ) (t : ℝ) : edgePt (conj a) (conj b) t = conj (edgePt a b t) := by
  unfold edgePt
  simp [Complex.conj_ofNat]

theorem segIntM_conj (a b : ℂ) (i j : Nat) (Y : ℝ → ℂ) : segIntM (conj a) (conj b) i j (fun t => conj (Y t)) = conj (segIntM a b i j Y) := by
  unfold segIntM
  have e : ∀ t : ℝ, edgePt (conj a) (conj b) t ^ i / conj (Y t) ^ j * ((conj b - conj a) / 2) = conj (edgePt a b t ^ i / Y t ^ j * ((b - a) / 2)) := fun t => by
    rw [edgePt_conj]
    simp [Complex.conj_ofNat]
  simp only [e]
  rw [intervalIntegral.integral_of_le (by norm_num), intervalIntegral.integral_of_le (by norm_num), integral_conj]

theorem zeta_conj (m : Nat) : conj (zeta m) = (zeta m)⁻¹ := by
  unfold zeta
  rw [← Complex.exp_conj, ← Complex.exp_neg]
  congr 1
  simp [Complex.conj_ofNat, neg_div]

theorem zeta_pow_conj (hm : 0 < m) {s : Nat} (hs : s ≤ m) : conj (zeta m ^ s) = zeta m ^ (m - s) := by
  rw [map_pow, zeta_conj, inv_pow, inv_eq_iff_eq_inv]
  refine eq_inv_of_mul_eq_one_left ?_
  rw [← pow_add, show s + (m - s) = m by omega, zeta_pow m hm]

theorem cycleIntM_conj (a b : ℂ) (i j : Nat) (Y : ℝ → ℂ) {s : Nat} (hs : s < m) : cycleIntM m (conj a) (conj b) i j (fun t => conj (Y t)) (m - 1 - s) = -conj (cycleIntM m a b i j Y s) := by
  unfold cycleIntM
  rw [map_sub, ← segIntM_conj, ← segIntM_conj, neg_sub]
  simp only [map_mul, zeta_pow_conj (by omega : 0 < m) hs.le, zeta_pow_conj (by omega : 0 < m) (by omega : s + 1 ≤ m)]
  rw [show m - 1 - s + 1 = m - s by omega, show m - (s + 1) = m - 1 - s by omega]

/-- the mirror image of a loop: the elementary paths go to the paths between the mirrored sheets, in the other direction -/
def mirrorLoop (m : Nat) (l : List Gamma) : List Gamma := l.map fun t => { t with coeff := -t.coeff, shift := m - 1 - t.shift }

theorem loopPeriodM_conj {es : List (Edge ℝ)} (Y : Nat → ℝ → ℂ) (i j : Nat) {l : List Gamma} (hl : ∀ t ∈ l, t.shift < m) :
    loopPeriodM m (fun k => conj (x k)) es (fun k t => conj (Y k t)) i j (mirrorLoop m l) = conj (loopPeriodM m x es Y i j l) := by
  unfold loopPeriodM mirrorLoop
  induction l with
  | nil => simp
  | cons t l ih =>
    simp only [List.map_cons, List.sum_cons, map_add] at ih ⊢
    rw [ih fun t ht => hl t (List.mem_cons_of_mem _ ht)]
    congr 1
    cases h : es[t.index]? with
    | none => simp
    | some ed =>
      dsimp only
      rw [cycleIntM_conj _ _ _ _ _ (hl t (List.mem_cons_self ..)), map_mul]
      simp

/-- **C87, periods of mirror images.** On the curve with the branch points `conj x_k` and the determinations `conj Y` of `y`, the periods of the mirror images of loops are the conjugates of the periods, so the equation `omega0 tau = omega1` of the mirrored loops has the
conjugates of the solutions of the equation of the loops. -/
theorem C87_mirror_tau {es : List (Edge ℝ)} {Y : Nat → ℝ → ℂ} (hE : GoodEdges m n x es Y) {c : Sec} {la lb : List (List Gamma)} (hla : ∀ l ∈ la, ∀ t ∈ l, t.shift < m) (hlb : ∀ l ∈ lb, ∀ t ∈ l, t.shift < m) :
    GoodEdges m n (fun k => conj (x k)) es (fun k t => conj (Y k t)) ∧
      (∀ i j, ∀ l ∈ la ++ lb, loopPeriodM m (fun k => conj (x k)) es (fun k t => conj (Y k t)) i j (mirrorLoop m l) = conj (loopPeriodM m x es Y i j l)) ∧
      ∀ tau : Matrix (Fin c.shape.g) (Fin c.shape.g) ℂ, periodsOf m (fun k => conj (x k)) es (fun k t => conj (Y k t)) c.shape (la.map (mirrorLoop m)) * tau.map conj = periodsOf m (fun k => conj (x k)) es (fun k t => conj (Y k t)) c.shape (lb.map (mirrorLoop m)) ↔
        periodsOf m x es Y c.shape la * tau = periodsOf m x es Y c.shape lb := by
  have hper : ∀ ls : List (List Gamma), (∀ l ∈ ls, ∀ t ∈ l, t.shift < m) → periodsOf m (fun k => conj (x k)) es (fun k t => conj (Y k t)) c.shape (ls.map (mirrorLoop m)) = (periodsOf m x es Y c.shape ls).map conj := by
    intro ls hls
    refine Matrix.ext fun r k => ?_
    show loopPeriodM m (fun k => conj (x k)) es (fun k t => conj (Y k t)) (diffOf c.shape.ni c.shape.j1 r).1 (diffOf c.shape.ni c.shape.j1 r).2 ((ls.map (mirrorLoop m)).getD k []) = conj (loopPeriodM m x es Y (diffOf c.shape.ni c.shape.j1 r).1 (diffOf c.shape.ni c.shape.j1 r).2 (ls.getD k []))
    have hget : (ls.map (mirrorLoop m)).getD k [] = mirrorLoop m (ls.getD k []) := by
      rw [List.getD_eq_getElem?_getD, List.getD_eq_getElem?_getD, List.getElem?_map]
      cases ls[k.val]? <;> rfl
    rw [hget]
    refine loopPeriodM_conj Y _ _ fun t ht => ?_
    rw [List.getD_eq_getElem?_getD] at ht
    cases h : ls[k.val]? with
    | none => rw [h] at ht; simp at ht
    | some l => rw [h] at ht; exact hls l (List.mem_of_getElem? h) t ht
  refine ⟨fun k ed hed => ?_, fun i j l hl => loopPeriodM_conj Y i j fun t ht => ?_, fun tau => ?_⟩
  · obtain ⟨h1, h2, h3, h4, h5⟩ := hE k ed hed
    refine ⟨h1, h2, h3, Complex.continuous_conj.comp_continuousOn h4, fun t ht => ?_⟩
    rw [← map_pow, h5 t ht, map_prod, edgePt_conj]
    simp
  · rcases List.mem_append.1 hl with h | h
    · exact hla l h t ht
    · exact hlb l h t ht
  · rw [hper la hla, hper lb hlb, ← Matrix.map_mul]
    constructor
    · intro h
      refine Matrix.ext fun r k => ?_
      exact (starRingEnd ℂ).injective (congrFun (congrFun h r) k)
    · intro h
      rw [h]

/-- the triangle and `m = 3`: the two paths over the edge of the tree and their mirror images -/
example : ∃ (es : List (Edge ℝ)) (Y : Nat → ℝ → ℂ) (c : Sec), es.length = 1 ∧ secInit (3 : Nat) (3 : Nat) = .ok c ∧ c.shape.g = 1 ∧ GoodEdges 3 3 tri es Y ∧
    ∀ tau : Matrix (Fin c.shape.g) (Fin c.shape.g) ℂ, periodsOf 3 (fun k => conj (tri k)) es (fun k t => conj (Y k t)) c.shape [[⟨-1, 2, 0⟩]] * tau.map conj = periodsOf 3 (fun k => conj (tri k)) es (fun k t => conj (Y k t)) c.shape [[⟨-1, 1, 0⟩]] ↔
      periodsOf 3 tri es Y c.shape [[⟨1, 0, 0⟩]] * tau = periodsOf 3 tri es Y c.shape [[⟨1, 1, 0⟩]] := by
  obtain ⟨c, hc, hg, hty⟩ : ∃ c, secInit (3 : Nat) (3 : Nat) = .ok c ∧ c.shape.g = 1 ∧ intType 0 c.m c.n = .de := ⟨_, rfl, by decide, by decide⟩
  obtain ⟨tr, data, Y, ht, hd, h1, hgr, hfree, htot, hbr, H⟩ := C86_tau_converges (x := tri) sortByR_sorts orderByR_orders (by positivity : 0 < Real.pi / 2) le_rfl (fun _ => 0) (by norm_num : 2 ≤ 3) le_rfl tri_inj hc hty (by decide) (by decide) (by decide)
    (Or.inr (Or.inr ⟨by decide, by decide⟩))
  exact ⟨tr.e, Y, c, by simpa [TreeSize] using h1, hc, hg, hbr, (C87_mirror_tau (c := c) (la := [[⟨1, 0, 0⟩]]) (lb := [[⟨1, 1, 0⟩]]) hbr (by simp) (by simp)).2.2⟩

end Hcp
