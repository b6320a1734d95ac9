import Verif.Proofs.Nodes
import Verif.Proofs.EdgeData

/-! # Gauss-Chebyshev summation -/

namespace Hcp

variable {A : Type} {X : Arith A} {R : A → ℂ → Prop}

theorem cosPi_rel (E : Encloses X exact R) {F : Fns A} (H : EnclosesFns F exactFns R) (len n : Nat) :
    RelRes (RelV R) (cosPi X F len n) (cosPi exact exactFns len n) := by
  have hx : RelV R (fun k => X.pow (X.unitRoot (4 * n)) k) fun k => exact.pow (exact.unitRoot (4 * n)) k :=
    fun k => E.pow k (E.unitRoot _)
  unfold cosPi
  dsimp only
  refine RelRes.bind (loopUp_rel (RS := RelV R) (fun k s t h => ?_) _ _ _ _ fun _ => E.zero) fun c d h => ?_
  · exact (rdV_rel hx).bind fun _ _ h1 => (wrV_rel h (H.re h1)).bind fun _ _ h2 =>
      (rdV_rel hx).bind fun _ _ h3 => wrV_rel h2 (H.im h3)
  · by_cases h4 : n % 4 ≥ 2
    · rw [if_pos h4, if_pos h4]
      exact (rdV_rel hx).bind fun _ _ h1 => wrV_rel h (H.re h1)
    · rw [if_neg h4, if_neg h4]
      exact .ok h

/-- relation between schemes -/
structure RelGc (R : A → ℂ → Prop) (g : GcInt A) (g' : GcInt ℂ) : Prop where
  n : g.n = g'.n
  len : g.len = g'.len
  x : RelV R g.x g'.x

theorem gcIntInit_rel (E : Encloses X exact R) {F : Fns A} (H : EnclosesFns F exactFns R) (n : Nat) :
    RelRes (RelGc R) (gcIntInit X F n) (gcIntInit exact exactFns n) := by
  unfold gcIntInit
  split
  · exact (cosPi_rel E H _ _).bind fun _ _ h => .ok ⟨rfl, rfl, h⟩
  · exact .ok ⟨rfl, rfl, fun _ => E.zero⟩

/-- on exact numbers, the stored half of the nodes -/
theorem gcIntInit_spec (n : Nat) :
    ∃ gc, gcIntInit exact exactFns n = .ok gc ∧ gc.n = n ∧ gc.len = n / 2 ∧
      ∀ k < n / 2, gc.x k = (Spec.chebNode n k : ℂ) := by
  unfold gcIntInit
  by_cases h : n ≠ 0
  · rw [if_pos h]
    obtain ⟨c, e, hc⟩ := cosPi_spec (n := n) (by omega)
    rw [e, Res.ok_bind]
    exact ⟨_, rfl, rfl, rfl, hc⟩
  · rw [if_neg h]
    push Not at h
    subst h
    exact ⟨_, rfl, rfl, rfl, by simp⟩

theorem gcPoint_spec {g : Nat} (hg : 0 < g) {S : ℂ → Res ℂ} {x y : ℂ} (hS : S x = .ok y) (res : Nat → ℂ) :
    ∃ r, gcPoint exact g S x res = .ok r ∧ ∀ i < g, r i = res i + x ^ i / y := by
  unfold gcPoint
  obtain ⟨r, e, _, h⟩ := addGeom_spec (sz := g) (off := 0) hg (by omega) (exact.inv y) x res
  rw [hS, Res.ok_bind, e, Res.ok_bind]
  refine ⟨r, rfl, fun i hi => ?_⟩
  have := h i hi
  rw [Nat.zero_add] at this
  rw [this]
  show _ + y⁻¹ * x ^ i = _
  rw [div_eq_mul_inv, mul_comm]

/-- the code's sum is the full rule -/
theorem gcSumWith_spec {sz d1 d g n : Nat} (hg : 0 < g) (hd : d ≤ sz) (h1 : d1 ≤ d) (u : Nat → ℂ) {S : ℂ → Res ℂ} (Y : ℝ → ℂ)
    {gc : GcInt ℂ} (hn : gc.n = n) (hl : gc.len = n / 2) (hx : ∀ k < n / 2, gc.x k = (Spec.chebNode n k : ℂ))
    (hS : ∀ k < n / 2, S (Spec.chebNode n k) = .ok (Y (Spec.chebNode n k)) ∧
      S (-Spec.chebNode n k) = .ok (Y (-Spec.chebNode n k))) (hY : Y 0 = Spec.edgeY 2 d1 d u 0) :
    ∃ r, gcSumWith exact S sz u d1 d g gc = .ok r ∧ ∀ i < g,
      r i = Real.pi / n * ∑ k ∈ Finset.range n,
        (Spec.chebNode n k : ℂ) ^ i / Y (Spec.chebNode n k) := by
  unfold gcSumWith
  let f : Nat → ℝ → ℂ := fun i t => (t : ℂ) ^ i / Y t
  have key := loopUp_inv (body := fun l r => do
      let x ← rdV gc.len gc.x l
      let r1 ← gcPoint exact g S x r
      gcPoint exact g S (exact.neg x) r1)
    (fun l r => ∀ i < g, r i = ∑ k ∈ Finset.range l, (f i (Spec.chebNode n k) + f i (-Spec.chebNode n k)))
    gc.len 0 (fun _ => exact.zero) (by intro i _; simp; rfl) (by
      intro l r _ hl2 hr
      have hl3 : l < n / 2 := by omega
      obtain ⟨s1, s2⟩ := hS l hl3
      obtain ⟨r1, e1, g1⟩ := gcPoint_spec hg s1 r
      obtain ⟨r2, e2, g2⟩ := gcPoint_spec hg s2 r1
      refine ⟨r2, ?_, fun i hi => ?_⟩
      · rw [rdV_ok (by omega), Res.ok_bind, hx l hl3, e1, Res.ok_bind]
        exact e2
      · rw [g2 i hi, g1 i hi, hr i hi, Finset.sum_range_succ]
        simp only [f]
        push_cast
        ring)
  obtain ⟨r, e, hr⟩ := key
  rw [e, Res.ok_bind]
  rw [Nat.zero_add, hl] at hr
  have hmid : ∃ r1, gcMiddle exact sz u d1 d g gc.n r = .ok r1 ∧ ∀ i < g, r1 i =
      ∑ k ∈ Finset.range n, f i (Spec.chebNode n k) := by
    unfold gcMiddle
    rw [hn]
    by_cases h : n % 2 ≠ 0
    · rw [if_pos h]
      have hs : sqrtPolDef exact sz u d1 d exact.zero = .ok (Spec.edgeY 2 d1 d u 0) := by
        rw [sqrtPolDef_spec hd, edgeY_eq u h1 2]; rfl
      rw [hs, Res.ok_bind, addCell_ok hg]
      refine ⟨_, rfl, fun i hi => ?_⟩
      rw [sum_nodes, if_pos h]
      by_cases h0 : i = 0
      · subst h0
        simp only [if_true]
        rw [hr 0 hg]
        simp only [f]
        simp [exact, hY]
      · simp only [if_neg h0]
        rw [hr i hi]
        simp [f, zero_pow h0]
    · rw [if_neg h]
      refine ⟨r, rfl, fun i hi => ?_⟩
      rw [sum_nodes, if_neg h, hr i hi, add_zero]
  obtain ⟨r1, e1, g1⟩ := hmid
  rw [e1, Res.ok_bind]
  obtain ⟨r2, e2, _, g2⟩ := scalarMul_spec (sz := g) (off := 0) (len := g) (by omega)
    (exact.div exact.pi (exact.ofInt gc.n)) r1
  refine ⟨r2, e2, fun i hi => ?_⟩
  have := g2 i hi
  rw [Nat.zero_add] at this
  rw [this, g1 i hi, hn]
  show _ * ((Real.pi : ℂ) / ((n : Int) : ℂ)) = _
  push_cast
  rw [mul_comm]

theorem gcPoint_rel (E : Encloses X exact R) {g : Nat} {S : A → Res A} {S' : ℂ → Res ℂ} {x : A} {x' : ℂ}
    (hS : RelRes R (S x) (S' x')) (hx : R x x') {r : Nat → A} {r' : Nat → ℂ} (hr : RelV R r r') :
    RelRes (RelV R) (gcPoint X g S x r) (gcPoint exact g S' x' r') := by
  unfold gcPoint
  exact hS.bind fun _ _ h => (addGeom_rel E (E.inv h) hx hr).bind fun _ _ h => .ok h.1

theorem gcSumWith_rel (E : Encloses X exact R) {sz d1 d g : Nat} {u : Nat → A} {u' : Nat → ℂ} (hu : RelV R u u')
    {S : A → Res A} {S' : ℂ → Res ℂ} {gc : GcInt A} {gc' : GcInt ℂ} (hgc : RelGc R gc gc')
    (hS : ∀ l < gc.len, RelRes R (S (gc.x l)) (S' (gc'.x l)) ∧
      RelRes R (S (X.neg (gc.x l))) (S' (exact.neg (gc'.x l)))) :
    RelRes (RelV R) (gcSumWith X S sz u d1 d g gc) (gcSumWith exact S' sz u' d1 d g gc') := by
  unfold gcSumWith
  rw [← hgc.n, ← hgc.len]
  refine RelRes.bind (loopUp_rel_range (RS := RelV R) _ _ _ _ (fun l s t _ hl h => ?_) fun _ => E.zero) fun r r' h => ?_
  · have hl' : l < gc.len := by omega
    rw [rdV_ok hl', rdV_ok hl', Res.ok_bind, Res.ok_bind]
    exact (gcPoint_rel E (hS l hl').1 (hgc.x l) h).bind fun _ _ h2 =>
      gcPoint_rel E (hS l hl').2 (E.neg (hgc.x l)) h2
  · refine RelRes.bind (R := RelV R) ?_ fun _ _ h => scalarMul_rel E (E.div E.pi (E.ofInt _)) h
    unfold gcMiddle
    split
    · exact (sqrtPolDef_rel E hu d1 d E.zero).bind fun _ _ h2 => addCell_rel E (E.inv h2) h
    · exact .ok h

end Hcp
