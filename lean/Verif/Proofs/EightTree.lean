import Verif.Proofs.MeetFails

/-!
# Eight points whose tree has crossing edges
-/

namespace Hcp.Eight
open Spec

/-- `24, -24, 10 i, -10 i, 11 i, -11 i, 48, -48` -/
noncomputable def x8 : Nat → ℂ
  | 0 => 24
  | 1 => -24
  | 2 => 10 * Complex.I
  | 3 => -(10 * Complex.I)
  | 4 => 11 * Complex.I
  | 5 => -(11 * Complex.I)
  | 6 => 48
  | _ => -48

theorem x8_inj : Set.InjOn x8 (Set.Iio 8) := by
  intro i hi j hj h
  simp only [Set.mem_Iio] at hi hj
  have hr := congrArg Complex.re h
  have him := congrArg Complex.im h
  interval_cases i <;> interval_cases j <;> first | rfl | (exfalso; norm_num [x8] at hr; done) | (exfalso; norm_num [x8] at him)

/-- parameter of a pair, Gauss–Chebyshev -/
noncomputable def wt8 (i j : Nat) : ℝ := paramEdge (WOps.ofOrder (-1 : ℝ)) (fun k => ellipseParam (x8 i) (x8 j) (x8 k)) i j 8

theorem wt8_le {i j k : Nat} {r : ℝ} (hk : k < 8) (h1 : k ≠ i) (h2 : k ≠ j) (h : ellipseParam (x8 i) (x8 j) (x8 k) ≤ r) : wt8 i j ≤ r :=
  ((C42_edge_parameter (-1 : ℝ) (by norm_num) (fun k => ellipseParam (x8 i) (x8 j) (x8 k)) (fun _ => by unfold ellipseParam; positivity) i j 8).1 k hk h1 h2).trans h

theorem le_wt8 {i j : Nat} {r : ℝ} (h : ∀ k < 8, k ≠ i → k ≠ j → r ≤ ellipseParam (x8 i) (x8 j) (x8 k)) (h3 : ∃ k < 8, k ≠ i ∧ k ≠ j) : r ≤ wt8 i j := by
  rcases (C42_edge_parameter (-1 : ℝ) (by norm_num) (fun k => ellipseParam (x8 i) (x8 j) (x8 k)) (fun _ => by unfold ellipseParam; positivity) i j 8).2 with ⟨k, hk, h1, h2, e⟩ | ⟨h', -⟩
  · unfold wt8; rw [e]; exact h k hk h1 h2
  · obtain ⟨k, hk, h1, h2⟩ := h3
    rcases h' k hk with h | h
    · exact absurd h h1
    · exact absurd h h2

/-- upper bounds: with the number of a point and bounds of the three distances -/
macro "upp8" i:term ", " p:term ", " q:term ", " d:term : tactic =>
  `(tactic| (refine wt8_le (k := $i) (by norm_num) (by norm_num) (by norm_num) (ellipse_le (p := $p) (q := $q) (d := $d) (by norm_num) (by norm_num) (by norm_num) ?_ ?_ ?_ (by norm_num) (by norm_num)) <;> norm_num [x8]))

/-- lower bounds -/
macro "low8" p:term ", " q:term ", " d:term : tactic =>
  `(tactic| (refine le_ellipse (p := $p) (q := $q) (d := $d) (by norm_num) ?_ ?_ ?_ (by norm_num) <;> norm_num [x8]))

theorem up01 : wt8 0 1 ≤ 109 / 100 := by upp8 2, 26, 26, 48
theorem up02 : wt8 0 2 ≤ 53 / 50 := by upp8 4, 53 / 2, 1, 26
theorem up03 : wt8 0 3 ≤ 53 / 50 := by upp8 5, 53 / 2, 1, 26
theorem up04 : wt8 0 4 ≤ 26 / 25 := by upp8 2, 26, 1, 26
theorem up05 : wt8 0 5 ≤ 26 / 25 := by upp8 3, 26, 1, 26
theorem up06 : wt8 0 6 ≤ 4 := by upp8 2, 26, 50, 24
theorem up07 : wt8 0 7 ≤ 26 / 25 := by upp8 1, 48, 24, 72
theorem up12 : wt8 1 2 ≤ 53 / 50 := by upp8 4, 53 / 2, 1, 26
theorem up13 : wt8 1 3 ≤ 53 / 50 := by upp8 5, 53 / 2, 1, 26
theorem up14 : wt8 1 4 ≤ 26 / 25 := by upp8 2, 26, 1, 26
theorem up15 : wt8 1 5 ≤ 26 / 25 := by upp8 3, 26, 1, 26
theorem up16 : wt8 1 6 ≤ 26 / 25 := by upp8 0, 48, 24, 72
theorem up17 : wt8 1 7 ≤ 4 := by upp8 2, 26, 50, 24
theorem up23 : wt8 2 3 ≤ 6 / 5 := by upp8 4, 1, 21, 20
theorem up24 : wt8 2 4 ≤ 50 := by upp8 3, 20, 21, 1
theorem up25 : wt8 2 5 ≤ 26 / 25 := by upp8 3, 20, 1, 21
theorem up26 : wt8 2 6 ≤ 26 / 25 := by upp8 0, 26, 24, 49
theorem up27 : wt8 2 7 ≤ 26 / 25 := by upp8 1, 26, 24, 49
theorem up34 : wt8 3 4 ≤ 26 / 25 := by upp8 2, 20, 1, 21
theorem up35 : wt8 3 5 ≤ 50 := by upp8 2, 20, 21, 1
theorem up36 : wt8 3 6 ≤ 26 / 25 := by upp8 0, 26, 24, 49
theorem up37 : wt8 3 7 ≤ 26 / 25 := by upp8 1, 26, 24, 49
theorem up45 : wt8 4 5 ≤ 26 / 25 := by upp8 2, 1, 21, 22
theorem up46 : wt8 4 6 ≤ 26 / 25 := by upp8 2, 1, 99 / 2, 49
theorem up47 : wt8 4 7 ≤ 26 / 25 := by upp8 2, 1, 99 / 2, 49
theorem up56 : wt8 5 6 ≤ 26 / 25 := by upp8 3, 1, 99 / 2, 49
theorem up57 : wt8 5 7 ≤ 26 / 25 := by upp8 3, 1, 99 / 2, 49
theorem up67 : wt8 6 7 ≤ 26 / 25 := by upp8 0, 24, 72, 96

theorem lo01 : 27 / 25 ≤ wt8 0 1 := by
  refine le_wt8 ?_ ⟨2, by norm_num, by norm_num, by norm_num⟩
  intro k hk h1 h2
  interval_cases k
  · exact absurd rfl h1
  · exact absurd rfl h2
  · low8 26, 26, 48
  · low8 26, 26, 48
  · low8 26, 26, 48
  · low8 26, 26, 48
  · low8 24, 72, 48
  · low8 72, 24, 48

theorem lo02 : 21 / 20 ≤ wt8 0 2 := by
  refine le_wt8 ?_ ⟨1, by norm_num, by norm_num, by norm_num⟩
  intro k hk h1 h2
  interval_cases k
  · exact absurd rfl h1
  · low8 48, 26, 26
  · exact absurd rfl h2
  · low8 26, 20, 26
  · low8 132 / 5, 1, 26
  · low8 26, 21, 26
  · low8 24, 49, 26
  · low8 72, 49, 26

theorem lo03 : 21 / 20 ≤ wt8 0 3 := by
  refine le_wt8 ?_ ⟨1, by norm_num, by norm_num, by norm_num⟩
  intro k hk h1 h2
  interval_cases k
  · exact absurd rfl h1
  · low8 48, 26, 26
  · low8 26, 20, 26
  · exact absurd rfl h2
  · low8 26, 21, 26
  · low8 132 / 5, 1, 26
  · low8 24, 49, 26
  · low8 72, 49, 26

theorem lo06 : 3 ≤ wt8 0 6 := by
  refine le_wt8 ?_ ⟨1, by norm_num, by norm_num, by norm_num⟩
  intro k hk h1 h2
  interval_cases k
  · exact absurd rfl h1
  · low8 48, 72, 24
  · low8 26, 49, 24
  · low8 26, 49, 24
  · low8 26, 49, 24
  · low8 26, 49, 24
  · exact absurd rfl h2
  · low8 72, 96, 24

theorem lo12 : 21 / 20 ≤ wt8 1 2 := by
  refine le_wt8 ?_ ⟨0, by norm_num, by norm_num, by norm_num⟩
  intro k hk h1 h2
  interval_cases k
  · low8 48, 26, 26
  · exact absurd rfl h1
  · exact absurd rfl h2
  · low8 26, 20, 26
  · low8 132 / 5, 1, 26
  · low8 26, 21, 26
  · low8 72, 49, 26
  · low8 24, 49, 26

theorem lo13 : 21 / 20 ≤ wt8 1 3 := by
  refine le_wt8 ?_ ⟨0, by norm_num, by norm_num, by norm_num⟩
  intro k hk h1 h2
  interval_cases k
  · low8 48, 26, 26
  · exact absurd rfl h1
  · low8 26, 20, 26
  · exact absurd rfl h2
  · low8 26, 21, 26
  · low8 132 / 5, 1, 26
  · low8 72, 49, 26
  · low8 24, 49, 26

theorem lo17 : 3 ≤ wt8 1 7 := by
  refine le_wt8 ?_ ⟨0, by norm_num, by norm_num, by norm_num⟩
  intro k hk h1 h2
  interval_cases k
  · low8 48, 72, 24
  · exact absurd rfl h1
  · low8 26, 49, 24
  · low8 26, 49, 24
  · low8 26, 49, 24
  · low8 26, 49, 24
  · low8 72, 96, 24
  · exact absurd rfl h2

theorem lo23 : 11 / 10 ≤ wt8 2 3 := by
  refine le_wt8 ?_ ⟨0, by norm_num, by norm_num, by norm_num⟩
  intro k hk h1 h2
  interval_cases k
  · low8 26, 26, 20
  · low8 26, 26, 20
  · exact absurd rfl h1
  · exact absurd rfl h2
  · low8 1, 21, 20
  · low8 21, 1, 20
  · low8 49, 49, 20
  · low8 49, 49, 20

theorem lo24 : 40 ≤ wt8 2 4 := by
  refine le_wt8 ?_ ⟨0, by norm_num, by norm_num, by norm_num⟩
  intro k hk h1 h2
  interval_cases k
  · low8 26, 26, 1
  · low8 26, 26, 1
  · exact absurd rfl h1
  · low8 20, 21, 1
  · exact absurd rfl h2
  · low8 21, 22, 1
  · low8 49, 49, 1
  · low8 49, 49, 1

theorem lo35 : 40 ≤ wt8 3 5 := by
  refine le_wt8 ?_ ⟨0, by norm_num, by norm_num, by norm_num⟩
  intro k hk h1 h2
  interval_cases k
  · low8 26, 26, 1
  · low8 26, 26, 1
  · low8 20, 21, 1
  · exact absurd rfl h1
  · low8 21, 22, 1
  · exact absurd rfl h2
  · low8 49, 49, 1
  · low8 49, 49, 1

/-- level of a pair `u < v` -/
def lev0 (u v : Nat) : Nat :=
  if (u = 2 ∧ v = 4) ∨ (u = 3 ∧ v = 5) then 5 else if (u = 0 ∧ v = 6) ∨ (u = 1 ∧ v = 7) then 4 else if u = 2 ∧ v = 3 then 3 else if u = 0 ∧ v = 1 then 2 else if u < 2 ∧ (v = 2 ∨ v = 3) then 1 else 0

def lev (u v : Nat) : Nat := lev0 (min u v) (max u v)

/-- bounds of the levels -/
noncomputable def lower : Nat → ℝ
  | 0 => 0
  | 1 => 21 / 20
  | 2 => 27 / 25
  | 3 => 11 / 10
  | 4 => 3
  | _ => 40

noncomputable def upper : Nat → ℝ
  | 0 => 26 / 25
  | 1 => 53 / 50
  | 2 => 109 / 100
  | 3 => 6 / 5
  | 4 => 4
  | _ => 50

theorem wt8_nonneg (i j : Nat) (h3 : ∃ k < 8, k ≠ i ∧ k ≠ j) : 0 ≤ wt8 i j := le_wt8 (fun k _ _ _ => by unfold ellipseParam; positivity) h3

theorem level (u v : Nat) (hu : u < v) (hv : v < 8) : lower (lev0 u v) ≤ wt8 u v ∧ wt8 u v ≤ upper (lev0 u v) := by
  interval_cases v <;> interval_cases u
  · exact ⟨lo01, up01⟩
  · exact ⟨lo02, up02⟩
  · exact ⟨lo12, up12⟩
  · exact ⟨lo03, up03⟩
  · exact ⟨lo13, up13⟩
  · exact ⟨lo23, up23⟩
  · exact ⟨wt8_nonneg 0 4 ⟨1, by norm_num, by norm_num, by norm_num⟩, up04⟩
  · exact ⟨wt8_nonneg 1 4 ⟨0, by norm_num, by norm_num, by norm_num⟩, up14⟩
  · exact ⟨lo24, up24⟩
  · exact ⟨wt8_nonneg 3 4 ⟨0, by norm_num, by norm_num, by norm_num⟩, up34⟩
  · exact ⟨wt8_nonneg 0 5 ⟨1, by norm_num, by norm_num, by norm_num⟩, up05⟩
  · exact ⟨wt8_nonneg 1 5 ⟨0, by norm_num, by norm_num, by norm_num⟩, up15⟩
  · exact ⟨wt8_nonneg 2 5 ⟨0, by norm_num, by norm_num, by norm_num⟩, up25⟩
  · exact ⟨lo35, up35⟩
  · exact ⟨wt8_nonneg 4 5 ⟨0, by norm_num, by norm_num, by norm_num⟩, up45⟩
  · exact ⟨lo06, up06⟩
  · exact ⟨wt8_nonneg 1 6 ⟨0, by norm_num, by norm_num, by norm_num⟩, up16⟩
  · exact ⟨wt8_nonneg 2 6 ⟨0, by norm_num, by norm_num, by norm_num⟩, up26⟩
  · exact ⟨wt8_nonneg 3 6 ⟨0, by norm_num, by norm_num, by norm_num⟩, up36⟩
  · exact ⟨wt8_nonneg 4 6 ⟨0, by norm_num, by norm_num, by norm_num⟩, up46⟩
  · exact ⟨wt8_nonneg 5 6 ⟨0, by norm_num, by norm_num, by norm_num⟩, up56⟩
  · exact ⟨wt8_nonneg 0 7 ⟨1, by norm_num, by norm_num, by norm_num⟩, up07⟩
  · exact ⟨lo17, up17⟩
  · exact ⟨wt8_nonneg 2 7 ⟨0, by norm_num, by norm_num, by norm_num⟩, up27⟩
  · exact ⟨wt8_nonneg 3 7 ⟨0, by norm_num, by norm_num, by norm_num⟩, up37⟩
  · exact ⟨wt8_nonneg 4 7 ⟨0, by norm_num, by norm_num, by norm_num⟩, up47⟩
  · exact ⟨wt8_nonneg 5 7 ⟨0, by norm_num, by norm_num, by norm_num⟩, up57⟩
  · exact ⟨wt8_nonneg 6 7 ⟨0, by norm_num, by norm_num, by norm_num⟩, up67⟩

theorem lev_le {u v u' v' : Nat} (hu : u < 8) (hv : v < 8) (huv : u ≠ v) (hu' : u' < 8) (hv' : v' < 8) (huv' : u' ≠ v') (h : pairWeight wt8 u v ≤ pairWeight wt8 u' v') : lev u v ≤ lev u' v' := by
  have l1 := level (min u v) (max u v) (by omega) (by omega)
  have l2 := level (min u' v') (max u' v') (by omega) (by omega)
  by_contra hc
  push Not at hc
  unfold lev at hc
  unfold pairWeight at h
  have key : upper (lev0 (min u' v') (max u' v')) < lower (lev0 (min u v) (max u v)) := by
    have h5 : ∀ a b, lev0 a b ≤ 5 := by intro a b; unfold lev0; split_ifs <;> omega
    have h5' := h5 (min u v) (max u v)
    generalize lev0 (min u v) (max u v) = p at *
    generalize lev0 (min u' v') (max u' v') = q at *
    interval_cases p <;> interval_cases q <;> first | omega | norm_num [upper, lower]
  linarith [l1.1, l2.2]

/-- the pairs which may follow the edges `es` -/
def cand (es : List (Nat × Nat)) : List (Nat × Nat) :=
  let touched := fun u => es.any fun e => u == e.1 || u == e.2
  let ok := ((List.range 8).flatMap fun u => (List.range 8).map fun v => (u, v)).filter fun e => e.1 != e.2 && (es.isEmpty || (touched e.1 && !touched e.2))
  ok.filter fun e => ok.all fun f => lev f.1 f.2 ≤ lev e.1 e.2

theorem touched_iff (es : List (Nat × Nat)) (u : Nat) : (es.any fun e => u == e.1 || u == e.2) = true ↔ Touches es u := by
  unfold Touches
  simp [List.any_eq_true]

theorem mem_cand {es : List (Nat × Nat)} (hgr : Greedy 8 wt8 es) (hg : GrowsAsTree es) (hr : ∀ e ∈ es, e.1 < 8 ∧ e.2 < 8) {k : Nat} (hk : k < es.length) : es[k] ∈ cand (es.take k) := by
  have hrk := hr _ (List.getElem_mem hk)
  obtain ⟨g1, g2, g3⟩ := hg k hk
  have hem : (es.take k).isEmpty = true ↔ k = 0 := by
    rw [List.isEmpty_iff, List.take_eq_nil_iff]
    constructor
    · rintro (h | h)
      · exact h
      · rw [h] at hk; simp at hk
    · exact .inl
  unfold cand
  simp only [List.mem_filter, List.mem_flatMap, List.mem_range, List.mem_map, List.all_eq_true, Bool.and_eq_true, Bool.or_eq_true, bne_iff_ne, decide_eq_true_eq, Bool.not_eq_true', hem, touched_iff, ← Bool.not_eq_true]
  refine ⟨⟨⟨_, hrk.1, _, hrk.2, rfl⟩, g1, ?_⟩, ?_⟩
  · by_cases h0 : k = 0
    · exact .inl h0
    · exact .inr ⟨g3 h0, g2⟩
  · rintro ⟨u, v⟩ ⟨⟨u', hu, v', hv, e⟩, hne, hav⟩
    obtain ⟨rfl, rfl⟩ := Prod.mk.inj e
    refine lev_le hu hv hne hrk.1 hrk.2 g1 (hgr k hk u' v' hu hv hne fun h0 => ?_)
    rcases hav with h | h
    · exact absurd h h0
    · exact h

/-- the edge joins `u` and `v` -/
def Joins (e : Nat × Nat) (u v : Nat) : Prop := (e.1 = u ∧ e.2 = v) ∨ (e.1 = v ∧ e.2 = u)

instance (e : Nat × Nat) (u v : Nat) : Decidable (Joins e u v) := by unfold Joins; infer_instance

/-- the shape of the tree: `F`, `G`, `C`, `P`, `Q`, `R` are the numbers of the edges -/
def Shape8 (es : List (Nat × Nat)) : Prop :=
  ∃ p ∈ [0, 1], ∃ q ∈ [2, 3], ∃ Q ∈ [0, 2], Joins (es.getD 5 (0, 0)) (1 - p) p ∧ Joins (es.getD 1 (0, 0)) (5 - q) q ∧ Joins (es.getD 3 (0, 0)) p q ∧ Joins (es.getD 4 (0, 0)) p (p + 6) ∧
    Joins (es.getD Q (0, 0)) q (q + 2) ∧ Joins (es.getD (2 - Q) (0, 0)) (5 - q) (5 - q + 2)

instance (es : List (Nat × Nat)) : Decidable (Shape8 es) := by unfold Shape8; infer_instance

theorem all_shapes : ∀ e0 ∈ cand [], ∀ e1 ∈ cand [e0], ∀ e2 ∈ cand [e0, e1], ∀ e3 ∈ cand [e0, e1, e2], ∀ e4 ∈ cand [e0, e1, e2, e3], ∀ e5 ∈ cand [e0, e1, e2, e3, e4], Shape8 [e0, e1, e2, e3, e4, e5] := by
  decide +kernel

theorem shape_of {es : List (Nat × Nat)} (hgr : Greedy 8 wt8 es) (hg : GrowsAsTree es) (hr : ∀ e ∈ es, e.1 < 8 ∧ e.2 < 8) (hl : es.length = 6) : Shape8 es := by
  match es, hl with
  | [e0, e1, e2, e3, e4, e5], _ =>
    exact all_shapes e0 (mem_cand hgr hg hr (k := 0) (by simp)) e1 (mem_cand hgr hg hr (k := 1) (by simp)) e2 (mem_cand hgr hg hr (k := 2) (by simp)) e3 (mem_cand hgr hg hr (k := 3) (by simp))
      e4 (mem_cand hgr hg hr (k := 4) (by simp)) e5 (mem_cand hgr hg hr (k := 5) (by simp))

end Hcp.Eight
