import Verif.Proofs.Meet
import Verif.Props.Segment

/-!
# Edges of the tree which do not cross
-/

namespace Hcp
open Spec

theorem meetAtEnds_symm {a b c d : ℂ} (h : MeetAtEnds a b c d) : MeetAtEnds c d a b := fun s t s1 s2 t1 t2 e => (h t s t1 t2 s1 s2 e.symm).symm

theorem edgePt_rev (a b : ℂ) (s : ℝ) : edgePt b a s = edgePt a b ((-s : ℝ) : ℂ) := by unfold edgePt; push_cast; ring

theorem meetAtEnds_swap {a b c d : ℂ} (h : MeetAtEnds a b c d) : MeetAtEnds b a c d := by
  intro s t s1 s2 t1 t2 e
  rw [edgePt_rev] at e
  obtain ⟨h1, h2⟩ := h (-s) t (by linarith) (by linarith) t1 t2 e
  exact ⟨h1.elim (fun h => .inr (by linarith)) (fun h => .inl (by linarith)), h2⟩

theorem innerMeet_empty {a b c d : ℂ} (h : MeetAtEnds a b c d) : InnerMeet a b c d = ∅ := by
  refine Set.eq_empty_of_forall_notMem fun p hp => ?_
  obtain ⟨h1, h2, h3, h4, h5⟩ := hp
  rcases (h p.1 p.2 h1.le h2.le h3.le h4.le h5).1 with h | h <;> linarith

/-- the points besides `x_i`, `x_j` are outside the circle of diameter `x_i x_j` -/
def Outside (x : Nat → ℂ) (len i j : Nat) : Prop := ∀ k < len, k ≠ i → k ≠ j → ‖x j - x i‖ < ‖2 * x k - x i - x j‖

theorem outside_symm {x : Nat → ℂ} {len i j : Nat} (h : Outside x len i j) : Outside x len j i := by
  intro k hk h1 h2
  have := h k hk h2 h1
  rwa [norm_sub_rev, sub_right_comm]

/-- no third point on the segment -/
theorem outside_ends {x : Nat → ℂ} {len i j k : Nat} (hx : Set.InjOn x (Set.Iio len)) (hi : i < len) (hj : j < len) (hij : i ≠ j) (h : Outside x len i j) (hk : k < len) {s : ℝ}
    (s1 : -1 ≤ s) (s2 : s ≤ 1) (e : edgePt (x i) (x j) s = x k) : s = -1 ∨ s = 1 := by
  have hne : x i ≠ x j := fun h => hij (hx hi hj h)
  by_cases h1 : k = i
  · left
    subst h1
    have := edgePt_seg_inj hne (e.trans (edgePt_seg_ends (x k) (x j)).1.symm)
    exact_mod_cast this
  by_cases h2 : k = j
  · right
    subst h2
    have := edgePt_seg_inj hne (e.trans (edgePt_seg_ends (x i) (x k)).2.symm)
    exact_mod_cast this
  exfalso
  have := h k hk h1 h2
  rw [← e, show 2 * edgePt (x i) (x j) s - x i - x j = s * (x j - x i) by unfold edgePt; ring, norm_mul, Complex.norm_real, Real.norm_eq_abs] at this
  have hb : 0 < ‖x j - x i‖ := norm_pos_iff.2 (sub_ne_zero.2 hne.symm)
  have hs : |s| ≤ 1 := abs_le.2 ⟨s1, s2⟩
  nlinarith

/-- two segments with a common start -/
theorem outside_fan {a b d : ℂ} {s t : ℝ} (s1 : -1 < s) (t1 : -1 < t) (e : edgePt a b s = edgePt a d t) (h1 : ‖b - a‖ < ‖2 * d - a - b‖) (h2 : ‖d - a‖ < ‖2 * b - a - d‖) : False := by
  have e' : ((1 + s : ℝ) : ℂ) * (b - a) = ((1 + t : ℝ) : ℂ) * (d - a) := by
    unfold edgePt at e
    push_cast
    linear_combination 2 * e
  have ht : ((1 + t : ℝ) : ℂ) ≠ 0 := by exact_mod_cast (by linarith : (1 + t : ℝ) ≠ 0)
  have hs : ((1 + s : ℝ) : ℂ) ≠ 0 := by exact_mod_cast (by linarith : (1 + s : ℝ) ≠ 0)
  have key : ∀ {p q : ℝ} {u v : ℂ}, 0 < p → 0 < q → (p : ℂ) * u = q * v → ‖u‖ < ‖2 * v - u‖ → q < p := by
    intro p q u v hp hq e h
    have hv : v = ((p / q : ℝ) : ℂ) * u := by
      push_cast
      rw [div_mul_eq_mul_div, eq_div_iff (by exact_mod_cast hq.ne'), e, mul_comm]
    rw [hv, show 2 * (((p / q : ℝ) : ℂ) * u) - u = ((2 * (p / q) - 1 : ℝ) : ℂ) * u by push_cast; ring, norm_mul, Complex.norm_real, Real.norm_eq_abs] at h
    by_contra hcon
    push Not at hcon
    have h1 : p / q ≤ 1 := (div_le_one hq).2 hcon
    have h0 : 0 < p / q := div_pos hp hq
    have : |2 * (p / q) - 1| ≤ 1 := abs_le.2 ⟨by linarith, by linarith⟩
    nlinarith [norm_nonneg u]
  have k1 := key (by linarith) (by linarith) e' (by rwa [show 2 * (d - a) - (b - a) = 2 * d - a - b by ring])
  have k2 := key (by linarith) (by linarith) e'.symm (by rwa [show 2 * (b - a) - (d - a) = 2 * b - a - d by ring])
  linarith

/-- different edges between distinct points, all other points outside the two circles: the edges only meet at ends -/
theorem meetAtEnds_outside {x : Nat → ℂ} {len i j k l : Nat} (hx : Set.InjOn x (Set.Iio len)) (hi : i < len) (hj : j < len) (hk : k < len) (hl : l < len) (hij : i ≠ j) (hkl : k ≠ l)
    (hli : l ≠ i) (hlj : l ≠ j) (h1 : Outside x len i j) (h2 : Outside x len k l) : MeetAtEnds (x i) (x j) (x k) (x l) := by
  intro s t s1 s2 t1 t2 e
  by_cases hs : s = -1 ∨ s = 1
  · refine ⟨hs, ?_⟩
    rcases hs with rfl | rfl
    · refine outside_ends hx hk hl hkl h2 hi t1 t2 ?_
      rw [← e]; push_cast; exact (edgePt_seg_ends _ _).1
    · refine outside_ends hx hk hl hkl h2 hj t1 t2 ?_
      rw [← e]; push_cast; exact (edgePt_seg_ends _ _).2
  by_cases ht : t = -1 ∨ t = 1
  · exfalso
    apply hs
    rcases ht with rfl | rfl
    · refine outside_ends hx hi hj hij h1 hk s1 s2 ?_
      rw [e]; push_cast; exact (edgePt_seg_ends _ _).1
    · refine outside_ends hx hi hj hij h1 hl s1 s2 ?_
      rw [e]; push_cast; exact (edgePt_seg_ends _ _).2
  exfalso
  push Not at hs ht
  have s1' := lt_of_le_of_ne s1 (Ne.symm hs.1)
  have s2' := lt_of_le_of_ne s2 hs.2
  have t1' := lt_of_le_of_ne t1 (Ne.symm ht.1)
  have t2' := lt_of_le_of_ne t2 ht.2
  by_cases hki : k = i
  · subst hki
    exact outside_fan s1' t1' e (h1 l hl hli hlj) (h2 j hj hij.symm (Ne.symm hlj))
  by_cases hkj : k = j
  · subst hkj
    rw [← neg_neg s, ← edgePt_rev] at e
    exact outside_fan (by linarith) t1' e (outside_symm h1 l hl hlj hli) (h2 i hi hij (Ne.symm hli))
  exact thales_cross s1' s2' t1' t2' e (h1 k hk hki hkj) (h1 l hl hli hlj) (h2 i hi (Ne.symm hki) (Ne.symm hli)) (h2 j hj (Ne.symm hkj) (Ne.symm hlj))

/-- two edges of a tree: each has an end which is not on the other one; the later one ends at a new vertex -/
theorem tree_new_end {es : List (Nat × Nat)} (hg : GrowsAsTree es) {k l : Nat} (hkl : k < l) (hl : l < es.length) : es[l].2 ≠ es[k].1 ∧ es[l].2 ≠ es[k].2 := by
  have h := (hg l hl).2.1
  have hk : es[k] ∈ es.take l := by
    rw [List.mem_iff_getElem]
    exact ⟨k, by simp; omega, by simp⟩
  exact ⟨fun e => h ⟨_, hk, .inl e⟩, fun e => h ⟨_, hk, .inr e⟩⟩

/-- segments of a line with no end inside each other -/
theorem meetAtEnds_line {x : Nat → ℂ} {len i j k l : Nat} (hx : Set.InjOn x (Set.Iio len)) (hre : ∀ v < len, (x v).im = 0) (hi : i < len) (hj : j < len) (hk : k < len) (hl : l < len)
    (hij : i ≠ j) (hkl : k ≠ l) (hli : l ≠ i) (hlj : l ≠ j) (h1 : ¬ Blocked x len i j) (h2 : ¬ Blocked x len k l) : MeetAtEnds (x i) (x j) (x k) (x l) := by
  have ends : ∀ {i j k : Nat}, i < len → j < len → k < len → i ≠ j → ¬ Blocked x len i j → ∀ {s : ℝ}, -1 ≤ s → s ≤ 1 → edgePt (x i) (x j) s = x k → s = -1 ∨ s = 1 := by
    intro i j k hi hj hk hij h s s1 s2 e
    have hne : x i ≠ x j := fun h => hij (hx hi hj h)
    by_cases g1 : k = i
    · left
      subst g1
      have := edgePt_seg_inj hne (e.trans (edgePt_seg_ends (x k) (x j)).1.symm)
      exact_mod_cast this
    by_cases g2 : k = j
    · right
      subst g2
      have := edgePt_seg_inj hne (e.trans (edgePt_seg_ends (x i) (x k)).2.symm)
      exact_mod_cast this
    exact absurd ⟨k, hk, g1, g2, s, s1, s2, e.symm⟩ h
  intro s t s1 s2 t1 t2 e
  by_cases hs : s = -1 ∨ s = 1
  · refine ⟨hs, ?_⟩
    rcases hs with rfl | rfl
    · refine ends hk hl hi hkl h2 t1 t2 ?_
      rw [← e]; push_cast; exact (edgePt_seg_ends _ _).1
    · refine ends hk hl hj hkl h2 t1 t2 ?_
      rw [← e]; push_cast; exact (edgePt_seg_ends _ _).2
  by_cases ht : t = -1 ∨ t = 1
  · exfalso
    apply hs
    rcases ht with rfl | rfl
    · refine ends hi hj hk hij h1 s1 s2 ?_
      rw [e]; push_cast; exact (edgePt_seg_ends _ _).1
    · refine ends hi hj hl hij h1 s1 s2 ?_
      rw [e]; push_cast; exact (edgePt_seg_ends _ _).2
  exfalso
  push Not at hs ht
  have s1' := lt_of_le_of_ne s1 (Ne.symm hs.1)
  have s2' := lt_of_le_of_ne s2 hs.2
  have t1' := lt_of_le_of_ne t1 (Ne.symm ht.1)
  have t2' := lt_of_le_of_ne t2 ht.2
  have re : ∀ v < len, x v = ((x v).re : ℂ) := fun v hv => Complex.ext rfl (by simp [hre v hv])
  -- a point strictly between two others
  have bet : ∀ {i j k : Nat}, i < len → j < len → k < len → k ≠ i → k ≠ j → (x i).re ≤ (x k).re → (x k).re ≤ (x j).re → Blocked x len i j := by
    intro i j k hi hj hk hki hkj g1 g2
    refine ⟨k, hk, hki, hkj, ?_⟩
    have hik : (x i).re ≠ (x k).re := fun h => hki (hx hk hi (by rw [re k hk, re i hi, h]))
    have hlt : 0 < (x j).re - (x i).re := by have := lt_of_le_of_ne g1 hik; linarith
    refine ⟨(2 * (x k).re - (x i).re - (x j).re) / ((x j).re - (x i).re), by rw [le_div_iff₀ hlt]; linarith, by rw [div_le_iff₀ hlt]; linarith, ?_⟩
    rw [re i hi, re j hj, re k hk]
    unfold edgePt
    have : (((x j).re : ℂ) - (x i).re) ≠ 0 := by exact_mod_cast hlt.ne'
    simp only [Complex.ofReal_re]
    push_cast
    field_simp
    ring
  have free : ∀ {i j k : Nat}, i < len → j < len → k < len → k ≠ i → k ≠ j → ¬ Blocked x len i j → ((x k).re < (x i).re ∧ (x k).re < (x j).re) ∨ ((x i).re < (x k).re ∧ (x j).re < (x k).re) := by
    intro i j k hi hj hk hki hkj h
    have n1 : (x k).re ≠ (x i).re := fun h => hki (hx hk hi (by rw [re k hk, re i hi, h]))
    have n2 : (x k).re ≠ (x j).re := fun h => hkj (hx hk hj (by rw [re k hk, re j hj, h]))
    rcases lt_or_gt_of_ne n1 with g1 | g1 <;> rcases lt_or_gt_of_ne n2 with g2 | g2
    · exact .inl ⟨g1, g2⟩
    · exact absurd (blocked_symm (bet hj hi hk hkj hki g2.le g1.le)) h
    · exact absurd (bet hi hj hk hki hkj g1.le g2.le) h
    · exact .inr ⟨g1, g2⟩
  have er := congrArg Complex.re e
  rw [re i hi, re j hj, re k hk, re l hl] at er
  unfold edgePt at er
  simp only [Complex.add_re, Complex.sub_re, Complex.sub_im, Complex.mul_re, Complex.div_ofNat_re, Complex.div_ofNat_im, Complex.ofReal_re, Complex.ofReal_im, zero_mul, sub_zero] at er
  have c1 := free hi hj hl hli hlj h1
  have key : ∀ {p q r u : ℝ}, p < u → q < u → ((p + q) / 2 + s * ((q - p) / 2) = (r + u) / 2 + t * ((u - r) / 2)) → r < max p q := by
    intro p q r u g1 g2 g
    by_contra hcon
    push Not at hcon
    obtain ⟨g3, g4⟩ := max_le_iff.1 hcon
    by_cases g5 : r = u
    · subst g5
      nlinarith [mul_pos (by linarith : (0 : ℝ) < 1 + s) (sub_pos.2 g2), mul_pos (by linarith : (0 : ℝ) < 1 - s) (sub_pos.2 g1)]
    · rcases lt_or_gt_of_ne g5 with g6 | g6
      · nlinarith [mul_nonneg (by linarith : (0 : ℝ) ≤ 1 + s) (sub_nonneg.2 g4), mul_nonneg (by linarith : (0 : ℝ) ≤ 1 - s) (sub_nonneg.2 g3),
          mul_pos (by linarith : (0 : ℝ) < 1 + t) (sub_pos.2 g6)]
      · nlinarith [mul_pos (by linarith : (0 : ℝ) < 1 + s) (sub_pos.2 g2), mul_pos (by linarith : (0 : ℝ) < 1 - s) (sub_pos.2 g1),
          mul_pos (by linarith : (0 : ℝ) < 1 - t) (sub_pos.2 g6)]
  have key2 : ∀ {p q r u : ℝ}, u < p → u < q → ((p + q) / 2 + s * ((q - p) / 2) = (r + u) / 2 + t * ((u - r) / 2)) → min p q < r := by
    intro p q r u g1 g2 g
    have := key (p := -p) (q := -q) (r := -r) (u := -u) (by linarith) (by linarith) (by linarith)
    rw [lt_max_iff] at this
    rw [min_lt_iff]
    rcases this with h | h
    · left; linarith
    · right; linarith
  -- the larger end of the first edge is inside the second one
  rcases c1 with ⟨g1, g2⟩ | ⟨g1, g2⟩
  · have g := key2 g1 g2 er
    rcases min_lt_iff.1 g with g | g
    · have hik : i ≠ k := fun h => by rw [h] at g; exact lt_irrefl _ g
      exact h2 (blocked_symm (bet hl hk hi (Ne.symm hli) hik g1.le g.le))
    · have hjk : j ≠ k := fun h => by rw [h] at g; exact lt_irrefl _ g
      exact h2 (blocked_symm (bet hl hk hj (Ne.symm hlj) hjk g2.le g.le))
  · have g := key g1 g2 er
    rcases lt_max_iff.1 g with g | g
    · have hik : i ≠ k := fun h => by rw [h] at g; exact lt_irrefl _ g
      exact h2 (bet hk hl hi hik (Ne.symm hli) g.le g1.le)
    · have hjk : j ≠ k := fun h => by rw [h] at g; exact lt_irrefl _ g
      exact h2 (bet hk hl hj hjk (Ne.symm hlj) g.le g2.le)

end Hcp
