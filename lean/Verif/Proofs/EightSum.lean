import Verif.Proofs.EightInt
import Verif.Proofs.EightTree
import Verif.Props.RiemannHyper

/-!
# Eight points: the numbers of the closed paths, and the failing bilinear relation
-/

namespace Hcp.Eight
open Spec Set HalfPlane Complex

theorem x8_curve : IsCurve x8 := by
  intro z
  simp only [Finset.prod_range_succ, Finset.prod_range_zero, x8]
  have := I_sq
  ring_nf
  simp only [show I ^ 4 = 1 from I_pow_four, I_sq]
  ring

section
variable {x : Nat → ℂ} {a b a' b' u v u' v' w : Nat} {Y Y' Z Z' : ℝ → ℂ} {ca cb ca' cb' ou ov ou' ov' o o' : ℂ} {s s' κ : ℤ}

theorem plays_apart (h : Plays x a b Y ca cb u v Z ou ov s) (h' : Plays x a' b' Y' ca' cb' u' v' Z' ou' ov' s') (h1 : u ≠ u') (h2 : u ≠ v') (h3 : v ≠ u') (h4 : v ≠ v') :
    pathNumber (passages 2 a b ca cb 0) (passages 2 a' b' ca' cb' 0) = ((s * s' * 0 : ℤ) : ℚ) := by
  rw [mul_zero, Int.cast_zero]
  rcases h.ends with ⟨rfl, rfl⟩ | ⟨rfl, rfl⟩ <;> rcases h'.ends with ⟨rfl, rfl⟩ | ⟨rfl, rfl⟩ <;> apply number_apart <;> assumption

theorem plays_common (h : Plays x a b Y ca cb u v Z ou ov s) (h' : Plays x a' b' Y' ca' cb' u' v' Z' ou' ov' s') (huv : u ≠ v) (huv' : u' ≠ v') (hw : (w = u ∧ o = ou) ∨ (w = v ∧ o = ov))
    (hw' : (w = u' ∧ o' = ou') ∨ (w = v' ∧ o' = ov')) (hd : ∀ z, (z = u ∨ z = v) → (z = u' ∨ z = v') → z = w)
    (hκ : (κ = 1 ∧ 0 < ((starRingEnd ℂ) o * o').im) ∨ (κ = -1 ∧ ((starRingEnd ℂ) o * o').im < 0)) :
    pathNumber (passages 2 a b ca cb 0) (passages 2 a' b' ca' cb' 0) = ((s * s' * κ : ℤ) : ℚ) := by
  have e : ∀ z, (z = a ∨ z = b) ↔ (z = u ∨ z = v) := fun z => by rcases h.ends with ⟨rfl, rfl⟩ | ⟨rfl, rfl⟩ <;> tauto
  have e' : ∀ z, (z = a' ∨ z = b') ↔ (z = u' ∨ z = v') := fun z => by rcases h'.ends with ⟨rfl, rfl⟩ | ⟨rfl, rfl⟩ <;> tauto
  refine number_of_rays (w := w) (o := o) (o' := o') ?_ ?_ ((e w).2 (hw.imp And.left And.left)) ((e' w).2 (hw'.imp And.left And.left)) (fun z h1 h2 => hd z ((e z).1 h1) ((e' z).1 h2)) h.unit h'.unit ?_ ?_ hκ
  · rcases h.ends with ⟨rfl, rfl⟩ | ⟨rfl, rfl⟩
    · exact huv
    · exact huv.symm
  · rcases h'.ends with ⟨rfl, rfl⟩ | ⟨rfl, rfl⟩
    · exact huv'
    · exact huv'.symm
  · rcases hw with ⟨rfl, rfl⟩ | ⟨rfl, rfl⟩
    · exact h.ru
    · exact h.rv
  · rcases hw' with ⟨rfl, rfl⟩ | ⟨rfl, rfl⟩
    · exact h'.ru
    · exact h'.rv
end

/-- The numbers of the six closed paths: `F` from `p'` to `p`, `G` from `q'` to `q`, `C` from `p` to `q`, `P`, `Q`, `R` from `p`, `q`, `q'` outwards. -/
structure Table (K : Nat → Nat → ℤ) (s : Nat → ℤ) (η : ℤ) (F G C P Q R : Nat) : Prop where
  fg : K F G = s F * s G * 0
  fc : K F C = s F * s C * η
  fp : K F P = s F * s P * (-1)
  fq : K F Q = s F * s Q * 0
  fr : K F R = s F * s R * 0
  gc : K G C = s G * s C * η
  gp : K G P = s G * s P * 0
  gq : K G Q = s G * s Q * (-1)
  gr : K G R = s G * s R * 1
  cp : K C P = s C * s P * 1
  cq : K C Q = s C * s Q * (-1)
  cr : K C R = s C * s R * 0
  pq : K P Q = s P * s Q * 0
  pr : K P R = s P * s R * 0
  qr : K Q R = s Q * s R * 0

theorem sum_six {Q : Nat} (hQ : Q = 0 ∨ Q = 2) (f : Nat → ℂ) : ∑ a : Fin 6, f a = f 5 + f 1 + f 3 + f 4 + f Q + f (2 - Q) := by
  rcases hQ with rfl | rfl <;> simp [Fin.sum_univ_six] <;> ring

theorem form_ne {N : Nat} (hN : N = 6) {K : Nat → Nat → ℤ} {s : Nat → ℤ} (hs : ∀ k < 6, s k = 1 ∨ s k = -1) {δ ε : ℝ} (hδ : δ = 1 ∨ δ = -1) (hε : ε = 1 ∨ ε = -1) {η : ℤ} (hη : (η : ℝ) = δ * ε) {Q : Nat} (hQ : Q = 0 ∨ Q = 2)
    (hK : Table K s η 5 1 3 4 Q (2 - Q)) (ha : ∀ k < 6, ∀ l < 6, K k l = -K l k) {V0 V1 : Fin N → ℂ} {w0 w1 : Nat → ℂ}
    (h0 : ∀ b : Fin N, ∑ a, V0 a * (K a b : ℤ) = s b * (2 * w0 b)) (h1 : ∀ b : Fin N, ∑ a, V1 a * (K a b : ℤ) = s b * (2 * w1 b))
    (f0 : w0 5 = 24 * δ * iF) (f1 : w1 5 = 0) (g0 : w0 1 = 10 * ε * I * iG) (g1 : w1 1 = 0) (c0 : w0 3 = (10 * ε * I * iG - 24 * δ * iF) / 2)
    (p0 : w0 4 = -(12 * δ * I * iP 0)) (p1 : w1 4 = -(12 * I * iP 1)) (q0 : w0 Q = ε * iQ 0 / 2) (q1 : w1 Q = I * iQ 1 / 2) (r0 : w0 (2 - Q) = -ε * iQ 0 / 2) (r1 : w1 (2 - Q) = I * iQ 1 / 2) :
    ∑ a : Fin N, ∑ b : Fin N, V0 a * (K a b : ℤ) * V1 b ≠ 0 := by
  subst hN
  have hQ6 : Q < 6 := by omega
  have hR6 : 2 - Q < 6 := by omega
  have hss : ∀ k < 6, (s k : ℂ) * s k = 1 := fun k hk => by rcases hs k hk with h | h <;> rw [h] <;> norm_num
  have hs0 : ∀ k < 6, (s k : ℂ) ≠ 0 := fun k hk h => by have := hss k hk; rw [h] at this; simp at this
  have hdiag : ∀ k < 6, K k k = 0 := fun k hk => by have := ha k hk k hk; omega
  let v : Nat → ℂ := fun k => if h : k < 6 then s k * V1 ⟨k, h⟩ else 0
  have hv : ∀ k : Fin 6, V1 k = s k * v k := fun k => by
    simp only [v, dif_pos k.isLt]
    rw [← mul_assoc, hss k k.isLt, one_mul]
  have sw : ∑ a : Fin 6, ∑ b : Fin 6, V0 a * (K a b : ℤ) * V1 b = ∑ b : Fin 6, 2 * w0 b * v b := by
    rw [Finset.sum_comm]
    refine Finset.sum_congr rfl fun b _ => ?_
    rw [← Finset.sum_mul, h0 b, hv b]
    linear_combination 2 * w0 b * v b * hss b b.isLt
  have col : ∀ k < 6, ∀ a1 a2 a3 a4 a5 a6 : ℤ, K 5 k = s 5 * s k * a1 → K 1 k = s 1 * s k * a2 → K 3 k = s 3 * s k * a3 → K 4 k = s 4 * s k * a4 → K Q k = s Q * s k * a5 → K (2 - Q) k = s (2 - Q) * s k * a6 →
      v 5 * a1 + v 1 * a2 + v 3 * a3 + v 4 * a4 + v Q * a5 + v (2 - Q) * a6 = 2 * w1 k := by
    intro k hk a1 a2 a3 a4 a5 a6 e1 e2 e3 e4 e5 e6
    have h := h1 ⟨k, hk⟩
    simp only [hv] at h
    rw [sum_six hQ fun a => s a * v a * (K a k : ℤ), e1, e2, e3, e4, e5, e6] at h
    apply mul_left_cancel₀ (hs0 k hk)
    rw [← h]
    push_cast
    linear_combination -(s k : ℂ) * v 5 * a1 * hss 5 (by norm_num) - (s k : ℂ) * v 1 * a2 * hss 1 (by norm_num) - (s k : ℂ) * v 3 * a3 * hss 3 (by norm_num) - (s k : ℂ) * v 4 * a4 * hss 4 (by norm_num)
      - (s k : ℂ) * v Q * a5 * hss Q hQ6 - (s k : ℂ) * v (2 - Q) * a6 * hss (2 - Q) hR6
  have flip : ∀ k < 6, ∀ l < 6, ∀ e : ℤ, K k l = s k * s l * e → K l k = s l * s k * (-e) := fun k hk l hl e h => by rw [ha l hl k hk, h]; ring
  have z : ∀ k < 6, K k k = s k * s k * 0 := fun k hk => by rw [hdiag k hk]; ring
  have cF := col 5 (by norm_num) 0 (-0) (-η) (- -1) (-0) (-0) (z 5 (by norm_num)) (flip _ (by norm_num) _ (by norm_num) _ hK.fg) (flip _ (by norm_num) _ (by norm_num) _ hK.fc) (flip _ (by norm_num) _ (by norm_num) _ hK.fp)
    (flip _ (by norm_num) _ hQ6 _ hK.fq) (flip _ (by norm_num) _ hR6 _ hK.fr)
  have cG := col 1 (by norm_num) 0 0 (-η) (-0) (- -1) (-1) hK.fg (z 1 (by norm_num)) (flip _ (by norm_num) _ (by norm_num) _ hK.gc) (flip _ (by norm_num) _ (by norm_num) _ hK.gp)
    (flip _ (by norm_num) _ hQ6 _ hK.gq) (flip _ (by norm_num) _ hR6 _ hK.gr)
  have cP := col 4 (by norm_num) (-1) 0 1 0 (-0) (-0) hK.fp hK.gp hK.cp (z 4 (by norm_num)) (flip _ (by norm_num) _ hQ6 _ hK.pq) (flip _ (by norm_num) _ hR6 _ hK.pr)
  have cQ := col Q hQ6 0 (-1) (-1) 0 0 (-0) hK.fq hK.gq hK.cq hK.pq (z Q hQ6) (flip _ hQ6 _ hR6 _ hK.qr)
  have cR := col (2 - Q) hR6 0 1 0 0 0 0 hK.fr hK.gr hK.cr hK.pr hK.qr (z _ hR6)
  push_cast at cF cG cP cQ cR
  rw [sw, sum_six hQ fun b => 2 * w0 b * v b, f0, g0, c0, p0, q0, r0]
  rw [f1] at cF
  rw [g1] at cG
  rw [p1] at cP
  rw [q1] at cQ
  rw [r1] at cR
  have eη : (η : ℂ) = δ * ε := by exact_mod_cast hη
  rw [eη] at cF cG
  have hδ2 : (δ : ℂ) ^ 2 = 1 := by exact_mod_cast sign_sq hδ
  have hε2 : (ε : ℂ) ^ 2 = 1 := by exact_mod_cast sign_sq hε
  have v1 : v 1 = I * iQ 1 := by linear_combination cR
  have v3 : v 3 = -2 * (I * iQ 1) := by linear_combination -cQ - v1
  have v5 : v 5 = -2 * (I * iQ 1) + 24 * I * iP 1 := by linear_combination -cP + v3
  have v4 : v 4 = -2 * (δ * ε) * (I * iQ 1) := by linear_combination cF + (δ : ℂ) * ε * v3
  have vqr : v Q - v (2 - Q) = -2 * (δ * ε) * (I * iQ 1) := by linear_combination cG + (δ : ℂ) * ε * v3
  have key : 2 * (24 * (δ : ℂ) * iF) * v 5 + 2 * (10 * ε * I * iG) * v 1 + 2 * ((10 * ε * I * iG - 24 * δ * iF) / 2) * v 3 + 2 * -(12 * δ * I * iP 0) * v 4 + 2 * (ε * iQ 0 / 2) * v Q + 2 * (-ε * iQ 0 / 2) * v (2 - Q) =
      ((-48 * ε * iP 0 * iQ 1 : ℝ) : ℂ) + ((-48 * δ * iF * iQ 1 + 1152 * δ * iF * iP 1 - 2 * δ * iQ 0 * iQ 1 : ℝ) : ℂ) * I := by
    rw [v5, v1, v3, v4]
    push_cast
    linear_combination (ε : ℂ) * iQ 0 * vqr + 48 * (ε : ℂ) * iP 0 * iQ 1 * (δ : ℂ) ^ 2 * I_sq - 48 * (ε : ℂ) * iP 0 * iQ 1 * hδ2 - 2 * (δ : ℂ) * iQ 0 * I * iQ 1 * hε2
  rw [key]
  intro h
  have hre := congrArg Complex.re h
  rw [add_re, ofReal_re, re_ofReal_mul, I_re, mul_zero, add_zero, zero_re] at hre
  have := mul_pos iP_pos iQ_pos
  rcases hε with rfl | rfl <;> nlinarith

end Hcp.Eight
