import Verif.Props.TauTotal

/-!
# C76 without conditions on the edges: real branch points, three branch points
-/

namespace Hcp

open Set Spec

variable {W : Type}

theorem seg_real {α β w : ℝ} (hab : α ≠ β) (h : (w - α) * (w - β) ≤ 0) : ∃ t : ℝ, -1 ≤ t ∧ t ≤ 1 ∧ (w : ℂ) = edgePt α β t := by
  have h0 : β - α ≠ 0 := sub_ne_zero.2 hab.symm
  have hsq : ((2 * w - α - β) / (β - α)) ^ 2 ≤ 1 := by
    rw [div_pow, div_le_one (by positivity)]
    nlinarith
  have habs := abs_le.1 ((sq_le_one_iff_abs_le_one _).1 hsq)
  refine ⟨(2 * w - α - β) / (β - α), habs.1, habs.2, ?_⟩
  have h0' : (β : ℂ) - α ≠ 0 := by exact_mod_cast h0
  unfold edgePt
  push_cast
  field_simp
  ring

theorem real_seg {α β t : ℝ} (h1 : -1 ≤ t) (h2 : t ≤ 1) : ∃ w : ℝ, edgePt (α : ℂ) β t = w ∧ (w - α) * (w - β) ≤ 0 ∧ w = (α + β) / 2 + t * ((β - α) / 2) := by
  refine ⟨(α + β) / 2 + t * ((β - α) / 2), by unfold edgePt; push_cast; ring, ?_, rfl⟩
  have : ((α + β) / 2 + t * ((β - α) / 2) - α) * ((α + β) / 2 + t * ((β - α) / 2) - β) = (β - α) ^ 2 / 4 * (t ^ 2 - 1) := by ring
  rw [this]
  exact mul_nonpos_of_nonneg_of_nonpos (by positivity) (by nlinarith)

theorem end_of {α β t w : ℝ} (hab : α ≠ β) (hw : w = (α + β) / 2 + t * ((β - α) / 2)) (h : w = α ∨ w = β) : t = -1 ∨ t = 1 := by
  have h0 : β - α ≠ 0 := sub_ne_zero.2 hab.symm
  rcases h with h | h
  · left
    have : (β - α) * (t + 1) = 0 := by rw [h] at hw; linarith
    rcases mul_eq_zero.1 this with h1 | h1
    · exact absurd h1 h0
    · linarith
  · right
    have : (β - α) * (t - 1) = 0 := by rw [h] at hw; linarith
    rcases mul_eq_zero.1 this with h1 | h1
    · exact absurd h1 h0
    · linarith

theorem real_fan {α β δ z : ℝ} (h1 : 0 < (δ - α) * (δ - β)) (h2 : 0 < (β - α) * (β - δ)) (z1 : (z - α) * (z - β) ≤ 0) (z2 : (z - α) * (z - δ) ≤ 0) : z = α := by
  rcases mul_pos_iff.1 h1 with ⟨a, b⟩ | ⟨a, b⟩ <;> rcases mul_pos_iff.1 h2 with ⟨c, d⟩ | ⟨c, d⟩ <;> rcases mul_nonpos_iff.1 z1 with ⟨e, f⟩ | ⟨e, f⟩ <;> rcases mul_nonpos_iff.1 z2 with ⟨g, h⟩ | ⟨g, h⟩ <;> linarith

theorem real_apart {α β γ δ z : ℝ} (h1 : 0 < (δ - α) * (δ - β)) (h2 : 0 < (γ - α) * (γ - β)) (h3 : 0 < (α - γ) * (α - δ)) (h4 : 0 < (β - γ) * (β - δ)) (z1 : (z - α) * (z - β) ≤ 0) (z2 : (z - γ) * (z - δ) ≤ 0) : False := by
  rcases mul_pos_iff.1 h1 with ⟨a, b⟩ | ⟨a, b⟩ <;> rcases mul_pos_iff.1 h2 with ⟨c, d⟩ | ⟨c, d⟩ <;> rcases mul_pos_iff.1 h3 with ⟨e, f⟩ | ⟨e, f⟩ <;> rcases mul_pos_iff.1 h4 with ⟨g, h⟩ | ⟨g, h⟩ <;>
    rcases mul_nonpos_iff.1 z1 with ⟨i, j⟩ | ⟨i, j⟩ <;> rcases mul_nonpos_iff.1 z2 with ⟨k, l⟩ | ⟨k, l⟩ <;> linarith

/-- real branch points: the edges of the tree meet only at their ends -/
theorem plainEdges_real {ξ : Nat → ℝ} {n : Nat} {es : List (Edge W)} (hg : GrowsAsTree (es.map fun f => (f.a, f.b))) (hes : ∀ ed ∈ es, ed.a < n ∧ ed.b < n) (hx : InjOn (fun k => (ξ k : ℂ)) (Iio n)) (hfree : FreeEdges (fun k => (ξ k : ℂ)) n es) :
    PlainEdges (fun k => (ξ k : ℂ)) es := by
  refine plainEdges_of hg fun f hf g hg' n1 n2 n3 n4 => ?_
  obtain ⟨f1, f2⟩ := hes f hf
  obtain ⟨g1, g2⟩ := hes g hg'
  have hne : ∀ p q, p < n → q < n → p ≠ q → ξ p ≠ ξ q := fun p q hp hq h e => h (hx hp hq (congrArg Complex.ofReal e))
  have out : ∀ e ∈ es, ∀ k < n, k ≠ e.a → k ≠ e.b → e.a ≠ e.b → 0 < (ξ k - ξ e.a) * (ξ k - ξ e.b) := by
    intro e he k hk ka kb hab
    by_contra hc
    obtain ⟨t, t1, t2, ht⟩ := seg_real (hne _ _ (hes e he).1 (hes e he).2 hab) (not_lt.1 hc)
    exact hfree e he k hk ka kb t t1 t2 ht
  intro s t s1 s2 t1 t2 e
  obtain ⟨z, ez, z1, z1'⟩ := real_seg (α := ξ f.a) (β := ξ f.b) s1 s2
  obtain ⟨z', ez', z2, z2'⟩ := real_seg (α := ξ g.a) (β := ξ g.b) t1 t2
  obtain rfl : z = z' := by
    have : (z : ℂ) = z' := by rw [← ez, ← ez']; exact e
    exact_mod_cast this
  have o1 := out f hf g.b g2 n3 n4 n1
  by_cases ha : g.a = f.a
  · have o2 := out g hg' f.b f2 (by omega) (by omega) n2
    rw [ha] at o2 z2
    have hz := real_fan o1 o2 z1 z2
    exact ⟨end_of (hne _ _ f1 f2 n1) z1' (Or.inl hz), end_of (hne _ _ g1 g2 n2) z2' (Or.inl (by rw [ha]; exact hz))⟩
  by_cases hb : g.a = f.b
  · have o2 := out g hg' f.a f1 (by omega) (by omega) n2
    rw [hb] at o2 z2
    have hz := real_fan (α := ξ f.b) (β := ξ f.a) (by rw [mul_comm]; exact o1) o2 (by rw [mul_comm]; exact z1) z2
    exact ⟨end_of (hne _ _ f1 f2 n1) z1' (Or.inr hz), end_of (hne _ _ g1 g2 n2) z2' (Or.inl (by rw [hb]; exact hz))⟩
  · exact (real_apart o1 (out f hf g.a g1 ha hb n1) (out g hg' f.a f1 (Ne.symm ha) (by omega) n2) (out g hg' f.b f2 (Ne.symm hb) (by omega) n2) z1 z2).elim

/-- **C76 for real branch points and for three branch points**: no condition on the edges. -/
theorem C76_tau_real {x : Nat → ℂ} {lam : ℝ} {sort : List (Edge ℝ) → List (Edge ℝ)} {ord : List (Edge ℝ) → List Nat} {p : DePar (Set ℂ)} (hs : SortsByR sort) (ho : OrdersByR ord) (hlam : lam ≠ 0) {n : Nat} (hn : 3 ≤ n) (hx : InjOn x (Iio n)) {c : Sec} (hc : secInit 2 n = .ok c)
    (hreal : n = 3 ∨ ∀ k, (x k).im = 0) :
    ∃ (tr : Tree ℝ) (extra : Int), spanningTreeOf (exactCOps lam) (WOps.ofOrder (-1)) sort x (treeInit (WOps.ofOrder (-1)) (treeEdges c).toNat) n .gc = .ok tr ∧
      extraprecTree setArith clampMag tr.e (fun k => {x k}) c.shape = .ok extra ∧ (TiesHarmless x n → ∃ P0 : Nat, ∀ ip : Nat, P0 ≤ ip → GcReady x n c.shape.g tr.e (ord tr.e) ip) ∧
      (∀ ε > 0, ∃ P0 : Nat, ∀ prec : Int, P0 ≤ prec → TauReady n x tr.e c.shape.g prec ε) ∧
      ∀ (prec : Int) (ip : Nat) (ε : ℝ), extra ≤ 2 ^ 61 → prec + extra = ip → 2 ≤ ip → (ip : Int) < 2 ^ 62 → GcReady x n c.shape.g tr.e (ord tr.e) ip → TauReady n x tr.e c.shape.g prec ε →
        (∀ ed ∈ tr.e, ∀ r, IsLeastIn r (edgeRs x n ed.a ed.b) → 2 * gcN (edgeRs x n ed.a ed.b) r c.shape.g ip < 2 ^ 63) →
        ∀ fuel flag : Nat, 2 ≤ fuel → intType flag c.m c.n = .gc → flag &&& ajNoInt = 0 → flag &&& ajNoAb = 0 → flag &&& ajNoTau = 0 → flag.testBit 5 = true ∨ n = 3 →
        ∃ (out : AjOut (Set ℂ) ℝ setMat c.shape.g) (t : Set (Matrix (Fin c.shape.g) (Fin c.shape.g) ℂ)) (tau : Matrix (Fin c.shape.g) (Fin c.shape.g) ℂ),
          ajRun (idealEnv x lam sort ord p) fuel c flag prec (treeInit (WOps.ofOrder (-1)) (treeEdges c).toNat) = .ok out ∧ out.tree = tr ∧ out.integrals ≠ none ∧ out.omega ≠ none ∧ out.tau = some t ∧
          ∃ (Y : Nat → ℝ → ℂ) (ca cb : Nat → ℂ) (cc : IMat) (Q : Mat (out.tree.e.length * (2 - 1))), AjRight (idealEnv x lam sort ord p) (fun s z => z ∈ s) InC 2 n x c out Y ca cb cc Q ∧ WithinGc x c prec out Y ∧
            (∀ tau', periodsOf 2 x out.tree.e Y c.shape out.loopA * tau' = periodsOf 2 x out.tree.e Y c.shape out.loopB ↔ tau' = tau) ∧ IsRiemannMatrix tau ∧ tau ∈ t ∧ ∀ T ∈ t, ∀ i k, ‖T i k - tau i k‖ ≤ ε := by
  obtain ⟨tr, extra, h1, hext, h3, h4, H⟩ := C76_tau (p := p) hs ho hlam hn hx hc
  have hlt := edgeCount_lt (edgeCount_of_size (C03_tree_size (by omega) hc))
  obtain ⟨tr', s1, -, s3⟩ := C46_no_third_point hs hlam .gc (treeInit (WOps.ofOrder (-1)) (treeEdges c).toNat) n (Or.inl hlt) hx
  obtain rfl := Res.ok.inj (s1.symm.trans h1)
  have hfree : FreeEdges x n tr'.e := fun f hf k hk ha hb t t1 t2 e => s3 f hf ⟨k, hk, ha, hb, t, t1, t2, e⟩
  have h1' := h1
  unfold spanningTreeOf at h1'
  obtain ⟨t1, e1, -, g0, g1, g2⟩ := C09_grows_as_tree (WOps.ofOrder (-1)) sort hs.perm _ (treeInit (WOps.ofOrder (-1)) (treeEdges c).toNat) n (Or.inl hlt)
  obtain rfl := Res.ok.inj (h1'.symm.trans e1)
  have hes : ∀ ed ∈ tr'.e, ed.a < n ∧ ed.b < n := fun ed hed => ⟨(g2 _ hed).1, (g2 _ hed).2.1⟩
  have hplain : PlainEdges x tr'.e := by
    rcases hreal with rfl | hr
    · exact plainEdges_three g1 hes hx hfree
    · have e : x = fun k => (((x k).re : ℝ) : ℂ) := funext fun k => Complex.ext (by simp) (by simp [hr k])
      rw [e] at hx hfree ⊢
      exact plainEdges_real g1 hes hx hfree
  exact ⟨tr', extra, h1, hext, h3, h4, fun prec ip ε => H prec ip ε hplain⟩

/-- the hypotheses hold for `y^2 = x^5 - 5 x^3 + 4 x`, branch points `-2, …, 2` -/
example : InjOn (fun k : Nat => ((k : ℂ) - 2)) (Iio 5) ∧ ∀ k : Nat, ((k : ℂ) - 2).im = 0 :=
  ⟨fun a _ b _ h => by simpa using h, fun k => by simp⟩

end Hcp
