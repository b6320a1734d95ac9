import Verif.Proofs.EdgeAnalytic

/-!
# Soundness of the parameters of the Gauss-Chebyshev rule
-/

namespace Hcp

variable {A B : Type} {P : ParOps A B} {D : DblOps} {RA : A → ℂ → Prop} {RB : B → ℝ → Prop}

theorem funcRGc_sound (H : Spec.ParSound P RA RB) {u : A} {u' : ℂ} (hu : RA u u') {r : B} (h : funcRGc P u = .ok r) :
    RB r (Spec.rOf u') ∧ 1 < Spec.rOf u' := by
  unfold funcRGc at h
  simp only at h
  split at h
  · rename_i hp
    obtain rfl := Res.ok.inj h
    have e : RB (P.mul2exp (P.add (P.abs (P.addSi u (-1))) (P.abs (P.addSi u 1))) (-1)) (Spec.rOf u') := by
      have := H.mul2exp (-1) (H.add (H.abs (H.addSi (-1) hu)) (H.abs (H.addSi 1 hu)))
      have e2 : (‖u' + ((-1 : Int) : ℂ)‖ + ‖u' + ((1 : Int) : ℂ)‖) * (2 : ℝ) ^ (-1 : Int) = Spec.rOf u' := by
        unfold Spec.rOf
        rw [zpow_neg_one, div_eq_mul_inv]
        push_cast
        rw [← sub_eq_add_neg]
      rwa [e2] at this
    refine ⟨e, ?_⟩
    have := H.isPositive hp (H.sub1 e)
    linarith
  · cases h

theorem vecR_sound (H : Spec.ParSound P RA RB) {u : List A} {u' : List ℂ} (hu : List.Forall₂ RA u u') :
    ∀ {r0 r0' : Option ℝ} {vr : List B}, vecR P u r0 = .ok (r0', vr) →
      List.Forall₂ (fun v z => RB v (Spec.rOf z) ∧ 1 < Spec.rOf z) vr u' ∧
      (∀ s, r0 = some s → ∃ s', r0' = some s' ∧ s' ≤ s) ∧ (∀ z ∈ u', ∃ s', r0' = some s' ∧ s' ≤ Spec.rOf z) := by
  induction hu with
  | nil =>
    intro r0 r0' vr h
    simp only [vecR, Res.ok.injEq, Prod.mk.injEq] at h
    obtain ⟨rfl, rfl⟩ := h
    exact ⟨.nil, fun s hs => ⟨s, hs, le_refl _⟩, fun z hz => absurd hz (by simp)⟩
  | @cons a z us us' h1 h2 ih =>
    intro r0 r0' vr h
    simp only [vecR, Res.bind_eq_ok] at h
    obtain ⟨r, hr, rest, hrest, h⟩ := h
    simp only [Res.ok.injEq, Prod.mk.injEq] at h
    obtain ⟨rfl, rfl⟩ := h
    obtain ⟨k1, k2, k3⟩ := ih hrest
    have hs := funcRGc_sound H h1 hr
    have hl : P.absLbound r ≤ Spec.rOf z := by
      have := H.absLbound hs.1
      rwa [abs_of_pos (by linarith [hs.2])] at this
    obtain ⟨s', e', hle⟩ := k2 _ rfl
    refine ⟨.cons hs k1, fun s hs => ?_, fun w hw => ?_⟩
    · subst hs
      refine ⟨s', e', hle.trans ?_⟩
      simp only
      split <;> linarith
    · rcases List.mem_cons.1 hw with rfl | hw
      · refine ⟨s', e', hle.trans ?_⟩
        cases r0 with
        | none => exact hl
        | some s =>
          simp only
          split <;> linarith
      · exact k3 w hw

theorem vecR_length {u : List A} : ∀ {r0 r0' : Option ℝ} {vr : List B}, vecR P u r0 = .ok (r0', vr) → vr.length = u.length := by
  induction u with
  | nil =>
    intro r0 r0' vr h
    simp only [vecR, Res.ok.injEq, Prod.mk.injEq] at h
    obtain ⟨rfl, rfl⟩ := h
    rfl
  | cons a us ih =>
    intro r0 r0' vr h
    simp only [vecR, Res.bind_eq_ok] at h
    obtain ⟨r, hr, rest, hrest, h⟩ := h
    simp only [Res.ok.injEq, Prod.mk.injEq] at h
    obtain ⟨rfl, rfl⟩ := h
    simp [ih hrest]

theorem majLoop_sound (H : Spec.ParSound P RA RB) {r : B} {t : ℝ} (ht : RB r t) {vr : List B} {u' : List ℂ} {Q : ℂ → Prop}
    (hv : List.Forall₂ (fun v z => RB v (Spec.rOf z) ∧ Q z) vr u') :
    ∀ {m m' : B} {K : Nat} {x : ℝ}, RB m x → majLoop P r t vr m K = (m', 0) →
      K = 0 ∧ RB m' (x * (u'.map fun z => Spec.rOf z - t).prod) ∧ ∀ z ∈ u', Spec.rOf z ≠ t := by
  induction hv with
  | nil =>
    intro m m' K x hm h
    simp only [majLoop, Prod.mk.injEq] at h
    obtain ⟨rfl, rfl⟩ := h
    exact ⟨rfl, by simpa using hm, by simp⟩
  | @cons v z vs zs h1 h2 ih =>
    intro m m' K x hm h
    rw [majLoop] at h
    split at h
    · exact absurd (ih hm h).1 (by omega)
    · rename_i ho
      have ho' : P.overlaps r v = false := by simpa using ho
      obtain ⟨k1, k2, k3⟩ := ih (H.mul hm (H.subArf t h1.1)) h
      refine ⟨k1, ?_, ?_⟩
      · rw [List.map_cons, List.prod_cons, ← mul_assoc]
        exact k2
      · intro w hw
        rcases List.mem_cons.1 hw with rfl | hw
        · intro e
          exact H.overlaps ho' ht (e ▸ h1.1)
        · exact k3 w hw

theorem majYr_sound (H : Spec.ParSound P RA RB) {m0 r m : B} {y : ℝ} (hm0 : RB m0 y) {vr : List B} {u' : List ℂ} {Q : ℂ → Prop}
    (hv : List.Forall₂ (fun v z => RB v (Spec.rOf z) ∧ Q z) vr u')
    (hle : ∀ z ∈ u', P.mid r ≤ Spec.rOf z) (h : majYr P m0 r vr = .ok (m, 0)) :
    (∀ z ∈ u', P.mid r < Spec.rOf z) ∧ RB m (y - Real.log (u'.map fun z => Spec.rOf z - P.mid r).prod / 2) := by
  unfold majYr at h
  split at h
  · rcases hq : majLoop P r (P.mid r) vr P.one 0 with ⟨q, K⟩
    rw [hq] at h
    simp only at h
    split at h
    · simp only [Res.ok.injEq, Prod.mk.injEq] at h
      obtain ⟨rfl, rfl⟩ := h
      obtain ⟨-, k2, k3⟩ := majLoop_sound H (H.mid r) hv H.one hq
      have hlt : ∀ z ∈ u', P.mid r < Spec.rOf z := fun z hz => lt_of_le_of_ne (hle z hz) (Ne.symm (k3 z hz))
      have hpos : 0 < (u'.map fun z => Spec.rOf z - P.mid r).prod := by
        apply List.prod_pos
        intro a ha
        obtain ⟨z, hz, rfl⟩ := List.mem_map.1 ha
        linarith [hlt z hz]
      refine ⟨hlt, ?_⟩
      rw [one_mul] at k2
      have := H.sub hm0 (H.mul2exp (-1) (H.log k2 hpos))
      rwa [zpow_neg_one, ← div_eq_mul_inv] at this
    · cases h
  · cases h

theorem gcParLoop_ok {r0 : ℝ} {m0 : B} {vr : List B} {fuel : Nat} {r r' m : B} (h : gcParLoop P D r0 m0 vr fuel r = .ok (r', m)) :
    majYr P m0 r' vr = .ok (m, 0) := by
  induction fuel generalizing r with
  | zero => cases h
  | succ fuel ih =>
    simp only [gcParLoop, Res.bind_eq_ok] at h
    obtain ⟨⟨m1, K⟩, h1, h⟩ := h
    simp only at h
    split at h
    · rename_i hK
      simp only [Res.ok.injEq, Prod.mk.injEq] at h
      obtain ⟨rfl, rfl⟩ := h
      rw [h1, hK]
    · rw [Res.bind_eq_ok] at h
      obtain ⟨r1, _, h⟩ := h
      exact ih h

theorem list_prod_range (u : List ℂ) (f : ℂ → ℝ) : (u.map f).prod = ∏ k ∈ Finset.range u.length, f (u.getD k 0) := by
  induction u using List.reverseRecOn with
  | nil => simp
  | append_singleton l a ih =>
    rw [List.map_append, List.prod_append, ih, List.length_append]
    simp only [List.map_cons, List.map_nil, List.prod_cons, List.prod_nil, mul_one, List.length_singleton]
    rw [Finset.prod_range_succ]
    congr 1
    · apply Finset.prod_congr rfl
      intro k hk
      rw [List.getD_eq_getElem?_getD, List.getD_eq_getElem?_getD, List.getElem?_append_left (Finset.mem_range.1 hk)]
    · simp

end Hcp
