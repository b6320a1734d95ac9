import Verif.Proofs.CutRelations
import Verif.Spec.Meet

/-!
# Edges which do not cross, from left to right
-/

namespace Hcp.Cut
open Complex Set PlaneTree Spec

theorem arg_pos (p : ℝ) : 0 < ((p : ℂ) + I).arg ∧ ((p : ℂ) + I).arg < Real.pi := by
  have him : 0 < ((p : ℂ) + I).im := by simp
  refine ⟨lt_of_le_of_ne (arg_nonneg_iff.2 him.le) fun h => ?_, lt_of_le_of_ne (arg_le_pi _) fun h => ?_⟩
  · have := (arg_eq_zero_iff.1 h.symm).2
    rw [this] at him
    exact lt_irrefl _ him
  · have := (arg_eq_pi_iff.1 h).2
    rw [this] at him
    exact lt_irrefl _ him

/-- directions of larger slope are lower -/
theorem arg_anti {p p' : ℝ} (h : p < p') : ((p' : ℂ) + I).arg < ((p : ℂ) + I).arg := by
  obtain ⟨a1, a2⟩ := arg_pos p
  obtain ⟨b1, b2⟩ := arg_pos p'
  have hn := norm_pos_iff.2 (dir_ne p)
  have hn' := norm_pos_iff.2 (dir_ne p')
  have c1 := norm_mul_cos_arg ((p : ℂ) + I)
  have c2 := norm_mul_sin_arg ((p : ℂ) + I)
  have c3 := norm_mul_cos_arg ((p' : ℂ) + I)
  have c4 := norm_mul_sin_arg ((p' : ℂ) + I)
  simp only [add_re, add_im, ofReal_re, ofReal_im, I_re, I_im, add_zero, zero_add] at c1 c2 c3 c4
  by_contra hc
  have hs : Real.sin (((p : ℂ) + I).arg - ((p' : ℂ) + I).arg) ≤ 0 := Real.sin_nonpos_of_nonpos_of_neg_pi_le (by linarith) (by linarith)
  rw [Real.sin_sub] at hs
  have : ‖(p : ℂ) + I‖ * ‖(p' : ℂ) + I‖ * (Real.sin ((p : ℂ) + I).arg * Real.cos ((p' : ℂ) + I).arg - Real.cos ((p : ℂ) + I).arg * Real.sin ((p' : ℂ) + I).arg) = p' - p := by
    calc _ = (‖(p : ℂ) + I‖ * Real.sin ((p : ℂ) + I).arg) * (‖(p' : ℂ) + I‖ * Real.cos ((p' : ℂ) + I).arg) - (‖(p : ℂ) + I‖ * Real.cos ((p : ℂ) + I).arg) * (‖(p' : ℂ) + I‖ * Real.sin ((p' : ℂ) + I).arg) := by ring
      _ = _ := by rw [c1, c2, c3, c4]; ring
  have := mul_nonpos_of_nonneg_of_nonpos (mul_pos hn hn').le hs
  linarith

section
variable {n : Nat} {y : Nat → ℂ} {e e' : CEdge} {p q p' q' : ℝ} {τ τ' : ℤ}

/-- the edges meet at common ends only -/
def MeetH (y : Nat → ℂ) (e e' : CEdge) (p q p' q' : ℝ) : Prop :=
  ∀ s : ℝ, (y e.lo).im ≤ s → s ≤ (y e.up).im → (y e'.lo).im ≤ s → s ≤ (y e'.up).im → p * s + q = p' * s + q' → (s = (y e.lo).im ∨ s = (y e.up).im) ∧ (s = (y e'.lo).im ∨ s = (y e'.up).im)

theorem MeetH.symm (h : MeetH y e e' p q p' q') : MeetH y e' e p' q' p q := fun s h1 h2 h3 h4 h5 => (h s h3 h4 h1 h2 h5.symm).symm

theorem between {A B s1 s2 : ℝ} (h1 : 0 < A * s1 + B) (h2 : A * s2 + B < 0) : ∃ s, A * s + B = 0 ∧ ((s1 < s ∧ s < s2) ∨ (s2 < s ∧ s < s1)) := by
  have hA : A ≠ 0 := by
    rintro rfl
    linarith
  refine ⟨-B / A, by field_simp; ring, ?_⟩
  rcases lt_or_gt_of_ne hA with q | q
  · left
    rw [lt_div_iff_of_neg q, div_lt_iff_of_neg q]
    exact ⟨by nlinarith, by nlinarith⟩
  · right
    rw [lt_div_iff₀ q, div_lt_iff₀ q]
    exact ⟨by nlinarith, by nlinarith⟩

/-- the edge on the left, when it is on the left somewhere -/
theorem leftDir_of (hs : Sorted n fun k => (y k).im) (h : AlongC n y p q e) (h' : AlongC n y p' q' e') (hm : MeetH y e e' p q p' q') {s0 : ℝ} (h1 : (y e.lo).im < s0) (h2 : s0 < (y e.up).im) (h3 : (y e'.lo).im < s0) (h4 : s0 < (y e'.up).im)
    (h0 : p * s0 + q < p' * s0 + q') : LeftDir ⟨e, ((p : ℂ) + I).arg, τ⟩ ⟨e', ((p' : ℂ) + I).arg, τ'⟩ := by
  have htop := h.top
  have htop' := h'.top
  have hlt := h.lt
  have hlt' := h'.lt
  -- weak inequality on the closed interval, strict inside either edge
  have hf0 : 0 < (p' - p) * s0 + (q' - q) := by linarith
  have weak : ∀ s, (y e.lo).im ≤ s → s ≤ (y e.up).im → (y e'.lo).im ≤ s → s ≤ (y e'.up).im → p * s + q ≤ p' * s + q' := by
    intro s k1 k2 k3 k4
    by_contra hc
    obtain ⟨t, ht, hb⟩ := between (s2 := s) hf0 (by linarith)
    have := hm t (by rcases hb with hb | hb <;> linarith) (by rcases hb with hb | hb <;> linarith) (by rcases hb with hb | hb <;> linarith) (by rcases hb with hb | hb <;> linarith) (by linarith)
    rcases this.1 with q | q <;> rcases hb with hb | hb <;> linarith
  have strict : ∀ s, (y e.lo).im < s → s < (y e.up).im → (y e'.lo).im ≤ s → s ≤ (y e'.up).im → p * s + q < p' * s + q' := by
    intro s k1 k2 k3 k4
    refine lt_of_le_of_ne (weak s k1.le k2.le k3 k4) fun hc => ?_
    rcases (hm s k1.le k2.le k3 k4 hc).1 with q | q <;> linarith
  have hst := h.start
  have hsp := h.stop
  have hst' := h'.start
  have hsp' := h'.stop
  refine ⟨⟨fun v v1 v2 v3 v4 hR => ?_, fun v hv v3 v4 hR => ?_, fun v hv v1 v2 => ?_⟩, fun hlo => ?_, fun hup => ?_⟩
  · by_contra hc
    have k1 := h.left v v1 v2 hc
    have k2 := h'.right v v3 v4 hR
    have k3 := strict (y v).im (hs _ _ v1 (by simp only at *; omega)) (hs _ _ v2 htop) (hs _ _ v3 (by simp only at *; omega)).le (hs _ _ v4 htop').le
    linarith
  · have k2 := h'.right v v3 v4 hR
    have k3 := hs _ _ v3 (by simp only at *; omega)
    have k4 := hs _ _ v4 htop'
    have k5 := hs _ _ hlt htop
    simp only at hv k2 k3 k4 k5 hst hsp
    rcases hv with rfl | rfl
    · have := weak _ le_rfl k5.le k3.le k4.le
      linarith
    · have := weak _ k5.le le_rfl k3.le k4.le
      linarith
  · by_contra hc
    have k1 := h.left v v1 v2 hc
    have k3 := hs _ _ v1 (by simp only at *; omega)
    have k4 := hs _ _ v2 htop
    have k5 := hs _ _ hlt' htop'
    simp only at hv k1 k3 k4 k5 hst' hsp'
    rcases hv with rfl | rfl
    · have := strict _ k3 k4 le_rfl k5.le
      linarith
    · have := strict _ k3 k4 k5.le le_rfl
      linarith
  · simp only at hlo hst hst'
    rw [hlo] at hst'
    rw [hlo] at h3
    refine arg_anti ?_
    by_contra hc
    nlinarith
  · simp only at hup hsp hsp'
    rw [hup] at hsp'
    rw [hup] at h4
    refine arg_anti ?_
    by_contra hc
    nlinarith

/-- **one of the edges is on the left of the other** -/
theorem leftDir_or (hs : Sorted n fun k => (y k).im) (h : AlongC n y p q e) (h' : AlongC n y p' q' e') (hm : MeetH y e e' p q p' q') :
    LeftDir ⟨e, ((p : ℂ) + I).arg, τ⟩ ⟨e', ((p' : ℂ) + I).arg, τ'⟩ ∨ LeftDir ⟨e', ((p' : ℂ) + I).arg, τ'⟩ ⟨e, ((p : ℂ) + I).arg, τ⟩ := by
  have htop := h.top
  have htop' := h'.top
  have hlt := h.lt
  have hlt' := h'.lt
  by_cases hov : e.lo < e'.up ∧ e'.lo < e.up
  · have k1 : max (y e.lo).im (y e'.lo).im < min (y e.up).im (y e'.up).im := by
      have k1 := hs _ _ hlt htop
      have k2 := hs _ _ hlt' htop'
      have k3 := hs _ _ hov.1 htop'
      have k4 := hs _ _ hov.2 htop
      exact max_lt (lt_min k1 k3) (lt_min k4 k2)
    obtain ⟨s0, s1, s2⟩ := exists_between k1
    obtain ⟨l1, l2⟩ := max_lt_iff.1 s1
    obtain ⟨u1, u2⟩ := lt_min_iff.1 s2
    rcases lt_trichotomy (p * s0 + q) (p' * s0 + q') with c | c | c
    · exact Or.inl (leftDir_of hs h h' hm l1 u1 l2 u2 c)
    · exfalso
      rcases (hm s0 l1.le u1.le l2.le u2.le c).1 with w | w <;> linarith
    · exact Or.inr (leftDir_of hs h' h hm.symm l2 u2 l1 u1 c)
  · left
    refine ⟨⟨fun v v1 v2 v3 v4 => ?_, fun v hv v3 v4 => ?_, fun v hv v1 v2 => ?_⟩, fun hlo => ?_, fun hup => ?_⟩
    all_goals
      simp only at *
      exfalso
      apply hov
      omega

end

end Hcp.Cut
