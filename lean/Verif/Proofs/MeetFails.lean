import Verif.Proofs.MeetTree
import Mathlib.Tactic.IntervalCases

/-!
# Seven points whose tree has crossing edges
-/

namespace Hcp
open Spec

/-- the pair which is strictly the heaviest one across a cut is an edge of the tree -/
theorem cut_edge {W : Type} [LinearOrder W] {len : Nat} {wt : Nat → Nat → W} {es : List (Nat × Nat)} (hgr : Greedy len wt es) (hg : GrowsAsTree es) (hr : ∀ e ∈ es, e.1 < len ∧ e.2 < len)
    (hl : es.length + 1 = len) (S : Nat → Prop) {u v : Nat} (hu : u < len) (hv : v < len) (hS : S u) (hT : ¬ S v)
    (hmax : ∀ p q, p < len → q < len → S p → ¬ S q → ¬ (p = u ∧ q = v) → pairWeight wt p q < pairWeight wt u v) : (u, v) ∈ es ∨ (v, u) ∈ es := by
  have hne : u ≠ v := fun h => hT (h ▸ hS)
  have hadj : (heavy len wt (pairWeight wt u v)).Adj ⟨u, hu⟩ ⟨v, hv⟩ := ⟨fun h => hne (congrArg Fin.val h), le_rfl⟩
  obtain ⟨w⟩ := heavy_reach_adj hgr hg hr hl _ hadj
  obtain ⟨d, -, h1, h2⟩ := w.exists_boundary_dart {p | S p.val} hS hT
  have hd := d.adj
  rw [SimpleGraph.inf_adj] at hd
  have h3 : d.fst.val = u ∧ d.snd.val = v := by
    by_contra hcon
    exact absurd (hmax _ _ d.fst.isLt d.snd.isLt h1 h2 hcon) (not_lt.2 hd.2.2)
  have h4 : (graphOf len es).Adj d.fst d.snd := hd.1
  have h5 := ((SimpleGraph.fromRel_adj _ _ _).1 h4).2
  rw [h3.1, h3.2] at h5
  exact h5

/-- `-24, 24, 10 i, -10 i, 11 i, -11 i, -48` -/
noncomputable def x7 : Nat → ℂ
  | 0 => -24
  | 1 => 24
  | 2 => 10 * Complex.I
  | 3 => -(10 * Complex.I)
  | 4 => 11 * Complex.I
  | 5 => -(11 * Complex.I)
  | _ => -48

theorem norm_of_sq {z : ℂ} {r : ℝ} (hr : 0 ≤ r) (h : z.re ^ 2 + z.im ^ 2 = r ^ 2) : ‖z‖ = r := by
  rw [← norm_sq_reim] at h
  exact (sq_eq_sq₀ (norm_nonneg _) hr).1 h

theorem norm_le_of {z : ℂ} {r : ℝ} (hr : 0 ≤ r) (h : z.re ^ 2 + z.im ^ 2 ≤ r ^ 2) : ‖z‖ ≤ r := by
  rw [← norm_sq_reim] at h
  exact (sq_le_sq₀ (norm_nonneg _) hr).1 h

theorem le_norm_of {z : ℂ} {r : ℝ} (h : r ^ 2 ≤ z.re ^ 2 + z.im ^ 2) : r ≤ ‖z‖ := by
  rw [← norm_sq_reim] at h
  exact le_of_sq_le_sq h (norm_nonneg _)

theorem ellipse_le {a b c : ℂ} {p q d r : ℝ} (hp : 0 ≤ p) (hq : 0 ≤ q) (hd : 0 < d) (h1 : (c - a).re ^ 2 + (c - a).im ^ 2 ≤ p ^ 2) (h2 : (c - b).re ^ 2 + (c - b).im ^ 2 ≤ q ^ 2)
    (h3 : d ^ 2 ≤ (b - a).re ^ 2 + (b - a).im ^ 2) (h : p + q ≤ r * d) (hr : 0 ≤ r) : ellipseParam a b c ≤ r := by
  unfold ellipseParam
  have n3 := le_norm_of h3
  rw [div_le_iff₀ (lt_of_lt_of_le hd n3)]
  calc _ ≤ p + q := add_le_add (norm_le_of hp h1) (norm_le_of hq h2)
    _ ≤ r * d := h
    _ ≤ _ := mul_le_mul_of_nonneg_left n3 hr

theorem le_ellipse {a b c : ℂ} {p q d r : ℝ} (hd : 0 < d) (h1 : p ^ 2 ≤ (c - a).re ^ 2 + (c - a).im ^ 2) (h2 : q ^ 2 ≤ (c - b).re ^ 2 + (c - b).im ^ 2)
    (h3 : (b - a).re ^ 2 + (b - a).im ^ 2 = d ^ 2) (h : r * d ≤ p + q) : r ≤ ellipseParam a b c := by
  unfold ellipseParam
  have n3 := norm_of_sq hd.le h3
  rw [n3, le_div_iff₀ hd]
  exact h.trans (add_le_add (le_norm_of h1) (le_norm_of h2))

/-- parameter of a pair, Gauss–Chebyshev -/
noncomputable def wt7 (i j : Nat) : ℝ := paramEdge (WOps.ofOrder (-1 : ℝ)) (fun k => ellipseParam (x7 i) (x7 j) (x7 k)) i j 7

theorem wt7_le {i j k : Nat} {r : ℝ} (hk : k < 7) (h1 : k ≠ i) (h2 : k ≠ j) (h : ellipseParam (x7 i) (x7 j) (x7 k) ≤ r) : wt7 i j ≤ r :=
  ((C42_edge_parameter (-1 : ℝ) (by norm_num) (fun k => ellipseParam (x7 i) (x7 j) (x7 k)) (fun _ => by unfold ellipseParam; positivity) i j 7).1 k hk h1 h2).trans h

theorem le_wt7 {i j : Nat} {r : ℝ} (h : ∀ k < 7, k ≠ i → k ≠ j → r ≤ ellipseParam (x7 i) (x7 j) (x7 k)) (h3 : ∃ k < 7, k ≠ i ∧ k ≠ j) : r ≤ wt7 i j := by
  rcases (C42_edge_parameter (-1 : ℝ) (by norm_num) (fun k => ellipseParam (x7 i) (x7 j) (x7 k)) (fun _ => by unfold ellipseParam; positivity) i j 7).2 with ⟨k, hk, h1, h2, e⟩ | ⟨h', -⟩
  · unfold wt7; rw [e]; exact h k hk h1 h2
  · obtain ⟨k, hk, h1, h2⟩ := h3
    rcases h' k hk with h | h
    · exact absurd h h1
    · exact absurd h h2

/-- upper bounds: with the numbers of the points and bounds of the three distances -/
macro "upp" i:term ", " p:term ", " q:term ", " d:term : tactic =>
  `(tactic| (refine wt7_le (k := $i) (by norm_num) (by norm_num) (by norm_num) (ellipse_le (p := $p) (q := $q) (d := $d) (by norm_num) (by norm_num) (by norm_num) ?_ ?_ ?_ (by norm_num) (by norm_num)) <;> norm_num [x7]))

theorem w01 : 13 / 12 ≤ wt7 0 1 := by
  refine le_wt7 ?_ ⟨2, by norm_num, by norm_num, by norm_num⟩
  intro k hk h1 h2
  interval_cases k
  · exact absurd rfl h1
  · exact absurd rfl h2
  · refine le_ellipse (p := 26) (q := 26) (d := 48) (by norm_num) ?_ ?_ ?_ (by norm_num) <;> norm_num [x7]
  · refine le_ellipse (p := 26) (q := 26) (d := 48) (by norm_num) ?_ ?_ ?_ (by norm_num) <;> norm_num [x7]
  · refine le_ellipse (p := 26) (q := 26) (d := 48) (by norm_num) ?_ ?_ ?_ (by norm_num) <;> norm_num [x7]
  · refine le_ellipse (p := 26) (q := 26) (d := 48) (by norm_num) ?_ ?_ ?_ (by norm_num) <;> norm_num [x7]
  · refine le_ellipse (p := 24) (q := 72) (d := 48) (by norm_num) ?_ ?_ ?_ (by norm_num) <;> norm_num [x7]

theorem w23 : 11 / 10 ≤ wt7 2 3 := by
  refine le_wt7 ?_ ⟨0, by norm_num, by norm_num, by norm_num⟩
  intro k hk h1 h2
  interval_cases k
  · refine le_ellipse (p := 26) (q := 26) (d := 20) (by norm_num) ?_ ?_ ?_ (by norm_num) <;> norm_num [x7]
  · refine le_ellipse (p := 26) (q := 26) (d := 20) (by norm_num) ?_ ?_ ?_ (by norm_num) <;> norm_num [x7]
  · exact absurd rfl h1
  · exact absurd rfl h2
  · refine le_ellipse (p := 1) (q := 21) (d := 20) (by norm_num) ?_ ?_ ?_ (by norm_num) <;> norm_num [x7]
  · refine le_ellipse (p := 21) (q := 1) (d := 20) (by norm_num) ?_ ?_ ?_ (by norm_num) <;> norm_num [x7]
  · refine le_ellipse (p := 49) (q := 49) (d := 20) (by norm_num) ?_ ?_ ?_ (by norm_num) <;> norm_num [x7]

/-- all other pairs of point 1 -/
theorem cut1 (q : Nat) (hq : q < 7) (h0 : q ≠ 0) (h1 : q ≠ 1) : pairWeight wt7 1 q < pairWeight wt7 1 0 := by
  have hb : pairWeight wt7 1 q ≤ 106 / 100 := by
    unfold pairWeight
    interval_cases q
    · exact absurd rfl h0
    · exact absurd rfl h1
    · show wt7 1 2 ≤ _
      upp 4, 53 / 2, 1, 26
    · show wt7 1 3 ≤ _
      upp 5, 53 / 2, 1, 26
    · show wt7 1 4 ≤ _
      upp 2, 26, 1, 26
    · show wt7 1 5 ≤ _
      upp 3, 26, 1, 26
    · show wt7 1 6 ≤ _
      upp 0, 48, 24, 72
  have : (106 : ℝ) / 100 < 13 / 12 := by norm_num
  exact lt_of_le_of_lt hb (this.trans_le w01)

/-- all other pairs of points 3 and 5 with the rest -/
theorem cut35 (p q : Nat) (hp : p = 3 ∨ p = 5) (hq : q < 7) (h3 : q ≠ 3) (h5 : q ≠ 5) (h : ¬ (p = 3 ∧ q = 2)) : pairWeight wt7 p q < pairWeight wt7 3 2 := by
  have hb : pairWeight wt7 p q ≤ 106 / 100 := by
    unfold pairWeight
    rcases hp with rfl | rfl <;> interval_cases q
    · show wt7 0 3 ≤ _
      upp 5, 53 / 2, 1, 26
    · show wt7 1 3 ≤ _
      upp 5, 53 / 2, 1, 26
    · exact absurd ⟨rfl, rfl⟩ h
    · exact absurd rfl h3
    · show wt7 3 4 ≤ _
      upp 2, 20, 1, 21
    · exact absurd rfl h5
    · show wt7 3 6 ≤ _
      upp 5, 1, 99 / 2, 49
    · show wt7 0 5 ≤ _
      upp 3, 26, 1, 26
    · show wt7 1 5 ≤ _
      upp 3, 26, 1, 26
    · show wt7 2 5 ≤ _
      upp 3, 20, 1, 21
    · exact absurd rfl h3
    · show wt7 4 5 ≤ _
      upp 3, 21, 1, 22
    · exact absurd rfl h5
    · show wt7 5 6 ≤ _
      upp 3, 1, 99 / 2, 49
  have : (106 : ℝ) / 100 < 11 / 10 := by norm_num
  exact lt_of_le_of_lt hb (this.trans_le w23)

theorem x7_inj : Set.InjOn x7 (Set.Iio 7) := by
  intro i hi j hj h
  simp only [Set.mem_Iio] at hi hj
  have hr := congrArg Complex.re h
  have him := congrArg Complex.im h
  interval_cases i <;> interval_cases j <;> first | rfl | (exfalso; norm_num [x7] at hr; done) | (exfalso; norm_num [x7] at him)

end Hcp
