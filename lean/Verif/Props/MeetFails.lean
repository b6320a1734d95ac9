import Verif.Props.Meet
import Verif.Proofs.MeetFails
import Verif.Proofs.RealCurve

/-!
# C64, C50, C49: the numbers with the inner points, and a curve whose tree has crossing edges
-/

namespace Hcp
open Spec

section
variable {A W : Type} {X : Arith A} {R : A → ℂ → Prop}

/-- closed path over the edge number `k` -/
def pathOf (ed : Edge W) (Y : Nat → ℝ → ℂ) (ca cb : Nat → ℂ) (k α : Nat) : EdgePath := ⟨ed.a, ed.b, Y k, ca k, cb k, α⟩

/-- `I` is the table of the intersection numbers, inner points of the edges included -/
def HoldsClosed (m : Nat) (x : Nat → ℂ) (es : List (Edge W)) (Y : Nat → ℝ → ℂ) (ca cb : Nat → ℂ) (I : Nat × Nat → Nat × Nat → Int) : Prop :=
  ∀ (k l : Nat) (ek el : Edge W) (α β : Nat), es[k]? = some ek → es[l]? = some el → α < m - 1 → β < m - 1 →
    ((I (k, α) (l, β) : ℤ) : ℚ) = closedNumber m x (pathOf ek Y ca cb k α) (pathOf el Y ca cb l β)

/-- the matrix computed, as a table -/
def tableOf (m : Nat) (c : IMat) : Nat × Nat → Nat × Nat → Int := fun s t => c (s.1 * (m - 1) + s.2) (t.1 * (m - 1) + t.2)

theorem sideSign_neg (d e : ℂ) : sideSign (-d) e = -sideSign d e ∧ sideSign d (-e) = -sideSign d e ∧ sideSign e d = -sideSign d e := by
  unfold sideSign
  refine ⟨?_, ?_, ?_⟩
  · rw [show (-d).re * e.im - (-d).im * e.re = -(d.re * e.im - d.im * e.re) by simp; ring, Left.sign_neg]; simp
  · rw [show d.re * (-e).im - d.im * (-e).re = -(d.re * e.im - d.im * e.re) by simp; ring, Left.sign_neg]; simp
  · rw [show e.re * d.im - e.im * d.re = -(d.re * e.im - d.im * e.re) by ring, Left.sign_neg]; simp

theorem innerNumber_eq (m : Nat) (a b c d y z : ℂ) (α β : Nat) : innerNumber (innerPassages m a b y α) (innerPassages m c d z β) =
    (open Classical in ((if zeta m ^ α * y = zeta m ^ β * z then (1 : ℚ) else 0) - (if zeta m ^ α * y = zeta m ^ (β + 1) * z then 1 else 0)
      - (if zeta m ^ (α + 1) * y = zeta m ^ β * z then 1 else 0) + (if zeta m ^ (α + 1) * y = zeta m ^ (β + 1) * z then 1 else 0)) * sideSign (b - a) (d - c)) := by
  have h1 : sideSign (b - a) (c - d) = -sideSign (b - a) (d - c) := by rw [← neg_sub d c]; exact (sideSign_neg _ _).2.1
  have h2 : sideSign (a - b) (d - c) = -sideSign (b - a) (d - c) := by rw [← neg_sub b a]; exact (sideSign_neg _ _).1
  have h3 : sideSign (a - b) (c - d) = sideSign (b - a) (d - c) := by rw [← neg_sub b a, (sideSign_neg _ _).1, h1, neg_neg]
  unfold innerNumber innerPassages
  simp only [List.map_cons, List.map_nil, List.sum_cons, List.sum_nil, h1, h2, h3]
  split_ifs <;> ring

/-- contribution of the inner points -/
noncomputable def innerSum (m : Nat) (x : Nat → ℂ) (p q : EdgePath) : ℚ :=
  ∑ᶠ (t : ℝ × ℝ) (_ : t ∈ InnerMeet (x p.a) (x p.b) (x q.a) (x q.b)),
      innerNumber (innerPassages m (x p.a) (x p.b) (p.Y t.1) p.lift) (innerPassages m (x q.a) (x q.b) (q.Y t.2) q.lift)

theorem innerSum_self {m : Nat} {x : Nat → ℂ} {p q : EdgePath} (ha : p.a = q.a) (hb : p.b = q.b) : innerSum m x p q = 0 := by
  unfold innerSum
  rw [finsum_mem_eq_zero_of_forall_eq_zero]
  intro t _
  rw [innerNumber_eq, ha, hb]
  have : sideSign (x q.b - x q.a) (x q.b - x q.a) = 0 := by
    unfold sideSign
    rw [show (x q.b - x q.a).re * (x q.b - x q.a).im - (x q.b - x q.a).im * (x q.b - x q.a).re = 0 by ring]
    simp
  rw [this, mul_zero]

theorem innerSum_plain {m : Nat} {x : Nat → ℂ} {p q : EdgePath} (h : MeetAtEnds (x p.a) (x p.b) (x q.a) (x q.b)) : innerSum m x p q = 0 := by
  unfold innerSum
  rw [innerMeet_empty h, finsum_mem_empty]

theorem innerSum_symm {m : Nat} {x : Nat → ℂ} (p q : EdgePath) : innerSum m x q p = -innerSum m x p q := by
  unfold innerSum
  simp only [← finsum_neg_distrib]
  refine finsum_mem_eq_of_bijOn Prod.swap ⟨?_, ?_, ?_⟩ ?_
  · rintro ⟨s, t⟩ ⟨h1, h2, h3, h4, h5⟩
    exact ⟨h3, h4, h1, h2, h5.symm⟩
  · exact Prod.swap_injective.injOn
  · rintro ⟨s, t⟩ ⟨h1, h2, h3, h4, h5⟩
    exact ⟨(t, s), ⟨h3, h4, h1, h2, h5.symm⟩, rfl⟩
  · rintro ⟨s, t⟩ _
    rw [innerNumber_eq, innerNumber_eq, (sideSign_neg (x p.b - x p.a) (x q.b - x q.a)).2.2]
    simp only [Prod.fst_swap, Prod.snd_swap, eq_comm (a := zeta m ^ q.lift * q.Y s), eq_comm (a := zeta m ^ (q.lift + 1) * q.Y s)]
    ring

theorem closedNumber_eq (m : Nat) (x : Nat → ℂ) (p q : EdgePath) :
    closedNumber m x p q = pathNumber (passages m p.a p.b p.ca p.cb p.lift) (passages m q.a q.b q.ca q.cb q.lift) + innerSum m x p q := rfl

theorem holdsClosed_of {m : Nat} {x : Nat → ℂ} {es : List (Edge W)} {Y : Nat → ℝ → ℂ} {ca cb : Nat → ℂ} {c : IMat} (h : HoldsNumbers m es ca cb c) (hp : PlainEdges x es) :
    HoldsClosed m x es Y ca cb (tableOf m c) := by
  intro k l ek el α β hk hl hα hβ
  rw [closedNumber_eq]
  by_cases hkl : k = l
  · subst hkl
    obtain rfl := Option.some.inj (hk.symm.trans hl)
    rw [innerSum_self (p := pathOf ek Y ca cb k α) (q := pathOf ek Y ca cb k β) rfl rfl, add_zero]
    exact h k k ek ek α β hk hk hα hβ
  · rw [innerSum_plain (hp k l ek el hkl hk hl), add_zero]
    exact h k l ek el α β hk hl hα hβ

/-- **C50 (closed paths).** In the situation of `C50_intersection_numbers`, if moreover different edges have no common point besides common ends, the matrix holds the intersection numbers of the
closed paths over the edges, the contributions of all common points included. -/
theorem C50_closed_partial (E : Encloses X exact R) {T : Tests A} (hT : SoundTests T R) {x : Nat → A} {x' : Nat → ℂ} (hR : ∀ k, R (x k) (x' k))
    {n m : Nat} (hm : 2 ≤ m) (hx : Set.InjOn x' (Set.Iio n)) {es : List (Edge W)} (hes : ∀ ed ∈ es, ed.a < n ∧ ed.b < n)
    (hgr : GrowsAsTree (es.map fun f => (f.a, f.b))) (hfree : FreeEdges x' n es) (hplain : PlainEdges x' es) {data : List (YData A)} (hdata : treeYdataInit X T x n m es = .ok data)
    (hres : Resolved X T x' es data) {c : IMat} (hc : intersectionTree (shiftOracle X T data m) es m = .ok c) :
    ∃ (Y : Nat → ℝ → ℂ) (ca cb : Nat → ℂ), Branches m n x' es Y ca cb ∧ HoldsClosed m x' es Y ca cb (tableOf m c) ∧
      ∀ (k : Nat) (yd : YData A), data[k]? = some yd → R yd.ya (ca k) ∧ R yd.yb (cb k) := by
  obtain ⟨Y, ca, cb, h1, h2, h3⟩ := C50_intersection_numbers E hT hR hm hx hes hgr hfree hdata hres hc
  exact ⟨Y, ca, cb, h1, holdsClosed_of h2 hplain, h3⟩

end

/-- **C50 (from the points, closed paths).** Exact numbers, every `m ≥ 2` below `2^62`, all distinct branch points: if the parameter of the tree is above the bound of C64 or if the points are real, the matrix
computed holds the intersection numbers of the closed paths, the contributions of all common points included. -/
theorem C50_closed_from_points_partial {sort : List (Edge ℝ) → List (Edge ℝ)} (hsort : SortsByR sort) (type : IntType) {x : Nat → ℂ} {n m N : Nat} (hN : N < n) (hm : 2 ≤ m) (hm' : m < 2 ^ 62)
    (hx : Set.InjOn x (Set.Iio n)) :
    ∃ tr data c, spanningTreeOf (exactCOps (Real.pi / 2)) (WOps.ofOrder (-1)) sort x (treeInit (WOps.ofOrder (-1)) N) n type = .ok tr ∧
      treeYdataInit exact exactTests x n m tr.e = .ok data ∧ intersectionTree (shiftOracle exact exactTests data m) tr.e m = .ok c ∧
      (crossBound type < tr.r ∨ (∀ v < n, (x v).im = 0) → ∃ (Y : Nat → ℝ → ℂ) (ca cb : Nat → ℂ), Branches m n x tr.e Y ca cb ∧ HoldsClosed m x tr.e Y ca cb (tableOf m c)) := by
  obtain ⟨tr, data, c, h1, h2, h3, Y, ca, cb, h4, h5, -⟩ := C50_from_points hsort (by positivity : Real.pi / 2 ≠ 0) type hN hm hm' hx
  obtain ⟨tr', g1, -, g2⟩ := C64_no_crossing_partial hsort type hN hx
  obtain rfl := Res.ok.inj (h1.symm.trans g1)
  exact ⟨tr, data, c, h1, h2, h3, fun h => ⟨Y, ca, cb, h4, holdsClosed_of h5 (g2 h)⟩⟩

/-! ## Seven points -/

/-- **C64 (negation).** The points `-24, 24, ±10 i, ±11 i, -48`, parameters of Gauss–Chebyshev integration computed exactly, any order of ties: the tree is computed and contains the edges
from `-24` to `24` and from `10 i` to `-10 i`, in some direction, which cross at `0`. -/
theorem C64_fails {sort : List (Edge ℝ) → List (Edge ℝ)} (hsort : SortsByR sort) (lam : ℝ) :
    ∃ tr, spanningTreeOf (exactCOps lam) (WOps.ofOrder (-1)) sort x7 (treeInit (WOps.ofOrder (-1)) 6) 7 .gc = .ok tr ∧
      ∃ (k l : Nat) (f g : Edge ℝ), k ≠ l ∧ tr.e[k]? = some f ∧ tr.e[l]? = some g ∧ ((f.a = 0 ∧ f.b = 1) ∨ (f.a = 1 ∧ f.b = 0)) ∧ ((g.a = 2 ∧ g.b = 3) ∨ (g.a = 3 ∧ g.b = 2)) ∧
        edgePt (x7 f.a) (x7 f.b) 0 = edgePt (x7 g.a) (x7 g.b) 0 := by
  have hN : (treeInit (WOps.ofOrder (-1 : ℝ)) 6).n < 7 ∨ (treeInit (WOps.ofOrder (-1 : ℝ)) 6).n = 0 := .inl (by norm_num [treeInit])
  obtain ⟨tr, E, h1, h2, h3, h4, ⟨L, rfl⟩, -, h6⟩ := tree_core (WOps.ofOrder (-1)) sort hsort.perm wt7 (treeInit (WOps.ofOrder (-1)) 6) 7 hN (fun _ => True) trivial (fun _ _ _ _ _ => trivial)
  obtain ⟨hg, hr⟩ := steps_grow h4 h6
  have hgr := steps_greedy h4 (hsort.sorted L) h6
  have hr' : ∀ e ∈ tr.e.map fun x => (x.a, x.b), e.1 < 7 ∧ e.2 < 7 := by
    intro e he
    obtain ⟨y, hy, rfl⟩ := List.mem_map.1 he
    exact ⟨(hr y hy).1, (hr y hy).2.1⟩
  have hl : (tr.e.map fun x => (x.a, x.b)).length + 1 = 7 := by rw [List.length_map, h3]; rfl
  have c1 := cut_edge hgr hg hr' hl (fun p => p = 1) (u := 1) (v := 0) (by norm_num) (by norm_num) rfl (by norm_num) (by
    intro p q _ hq hp hq' hn
    subst hp
    exact cut1 q hq (fun h => hn ⟨rfl, h⟩) hq')
  have c2 := cut_edge hgr hg hr' hl (fun p => p = 3 ∨ p = 5) (u := 3) (v := 2) (by norm_num) (by norm_num) (.inl rfl) (by norm_num) (by
    intro p q _ hq hp hq' hn
    push Not at hq'
    exact cut35 p q hp hq hq'.1 hq'.2 hn)
  have get : ∀ {u v : Nat}, ((u, v) ∈ tr.e.map fun x => (x.a, x.b)) ∨ ((v, u) ∈ tr.e.map fun x => (x.a, x.b)) → ∃ (k : Nat) (f : Edge ℝ), tr.e[k]? = some f ∧ ((f.a = u ∧ f.b = v) ∨ (f.a = v ∧ f.b = u)) := by
    intro u v h
    have : ∃ f ∈ tr.e, (f.a = u ∧ f.b = v) ∨ (f.a = v ∧ f.b = u) := by
      rcases h with h | h <;> obtain ⟨y, hy, e⟩ := List.mem_map.1 h
      · exact ⟨y, hy, .inl ⟨congrArg Prod.fst e, congrArg Prod.snd e⟩⟩
      · exact ⟨y, hy, .inr ⟨congrArg Prod.fst e, congrArg Prod.snd e⟩⟩
    obtain ⟨f, hf, h⟩ := this
    obtain ⟨k, hk, rfl⟩ := List.getElem_of_mem hf
    exact ⟨k, _, List.getElem?_eq_getElem hk, h⟩
  obtain ⟨k, f, hk, hf⟩ := get c1
  obtain ⟨l, g, hl, hg⟩ := get c2
  refine ⟨tr, h1, k, l, f, g, ?_, hk, hl, hf.symm, hg.symm, ?_⟩
  · rintro rfl
    obtain rfl := Option.some.inj (hk.symm.trans hl)
    omega
  · rcases hf with ⟨a, b⟩ | ⟨a, b⟩ <;> rcases hg with ⟨c, d⟩ | ⟨c, d⟩ <;> rw [a, b, c, d] <;> simp [edgePt, x7]

/-- this tree is not plain -/
theorem C64_fails_plain {sort : List (Edge ℝ) → List (Edge ℝ)} (hsort : SortsByR sort) (lam : ℝ) :
    ∃ tr, spanningTreeOf (exactCOps lam) (WOps.ofOrder (-1)) sort x7 (treeInit (WOps.ofOrder (-1)) 6) 7 .gc = .ok tr ∧ ¬ PlainEdges x7 tr.e := by
  obtain ⟨tr, h1, k, l, f, g, hkl, hf, hg, -, -, e⟩ := C64_fails hsort lam
  refine ⟨tr, h1, fun h => ?_⟩
  have := (h k l f g hkl hf hg 0 0 (by norm_num) (by norm_num) (by norm_num) (by norm_num) (by push_cast; exact e)).1
  norm_num at this

theorem prod7_ne : (∏ k ∈ Finset.range 7, ((0 : ℂ) - x7 k)) ≠ 0 := by
  rw [Finset.prod_ne_zero_iff]
  intro k hk
  have hk := Finset.mem_range.1 hk
  interval_cases k <;> norm_num [x7]

/-- the two paths over the crossing edges -/
theorem innerSum_seven {p q : EdgePath} (hp : (p.a = 0 ∧ p.b = 1) ∨ (p.a = 1 ∧ p.b = 0)) (hq : (q.a = 2 ∧ q.b = 3) ∨ (q.a = 3 ∧ q.b = 2)) (hy : IsBranchM 2 7 x7 (x7 p.a) (x7 p.b) p.Y)
    (hz : IsBranchM 2 7 x7 (x7 q.a) (x7 q.b) q.Y) : innerSum 2 x7 p q = 2 ∨ innerSum 2 x7 p q = -2 := by
  obtain ⟨u, hu, pa, pb⟩ : ∃ u : ℝ, (u = 24 ∨ u = -24) ∧ x7 p.a = -(u : ℂ) ∧ x7 p.b = u := by
    rcases hp with ⟨a, b⟩ | ⟨a, b⟩ <;> rw [a, b]
    · exact ⟨24, .inl rfl, by simp [x7], by simp [x7]⟩
    · exact ⟨-24, .inr rfl, by simp [x7], by simp [x7]⟩
  obtain ⟨v, hv, qa, qb⟩ : ∃ v : ℝ, (v = 10 ∨ v = -10) ∧ x7 q.a = -(v * Complex.I) ∧ x7 q.b = v * Complex.I := by
    rcases hq with ⟨a, b⟩ | ⟨a, b⟩ <;> rw [a, b]
    · exact ⟨-10, .inr rfl, by simp [x7], by simp [x7]⟩
    · exact ⟨10, .inl rfl, by simp [x7], by simp [x7]⟩
  have hset : InnerMeet (x7 p.a) (x7 p.b) (x7 q.a) (x7 q.b) = {(0, 0)} := by
    ext ⟨s, t⟩
    rw [pa, pb, qa, qb]
    constructor
    · rintro ⟨-, -, -, -, e⟩
      have e1 : (s : ℂ) * u = t * (v * Complex.I) := by
        have : edgePt (-(u : ℂ)) u s = edgePt (-(v * Complex.I)) (v * Complex.I) t := e
        unfold edgePt at this
        linear_combination this
      have r1 := congrArg Complex.re e1
      have r2 := congrArg Complex.im e1
      simp at r1 r2
      have hu0 : u ≠ 0 := by rcases hu with h | h <;> rw [h] <;> norm_num
      have hv0 : v ≠ 0 := by rcases hv with h | h <;> rw [h] <;> norm_num
      rw [Set.mem_singleton_iff, Prod.mk.injEq]
      exact ⟨r1.resolve_right hu0, r2.resolve_right hv0⟩
    · intro h
      rw [Set.mem_singleton_iff, Prod.mk.injEq] at h
      obtain ⟨rfl, rfl⟩ := h
      refine ⟨by norm_num, by norm_num, by norm_num, by norm_num, ?_⟩
      simp [edgePt]
  have y2 : p.Y 0 ^ 2 = ∏ k ∈ Finset.range 7, ((0 : ℂ) - x7 k) := by
    rw [hy.2 0 (by constructor <;> norm_num), pa, pb]
    simp [edgePt]
  have z2 : q.Y 0 ^ 2 = ∏ k ∈ Finset.range 7, ((0 : ℂ) - x7 k) := by
    rw [hz.2 0 (by constructor <;> norm_num), qa, qb]
    simp [edgePt]
  have hy0 : p.Y 0 ≠ 0 := fun h => prod7_ne (by rw [← y2, h]; norm_num)
  have hside : sideSign (x7 p.b - x7 p.a) (x7 q.b - x7 q.a) = 1 ∨ sideSign (x7 p.b - x7 p.a) (x7 q.b - x7 q.a) = -1 := by
    unfold sideSign
    rw [pa, pb, qa, qb]
    rcases hu with rfl | rfl <;> rcases hv with rfl | rfl
    · left; rw [sign_pos (by norm_num)]; simp
    · right; rw [sign_neg (by norm_num)]; simp
    · right; rw [sign_neg (by norm_num)]; simp
    · left; rw [sign_pos (by norm_num)]; simp
  have hneg : p.Y 0 ≠ -p.Y 0 := fun h => hy0 (by
    have : 2 * p.Y 0 = 0 := by linear_combination h
    simpa using this)
  have hneg' : -p.Y 0 ≠ p.Y 0 := Ne.symm hneg
  unfold innerSum
  rw [hset, finsum_mem_singleton, innerNumber_eq, zeta_two]
  have hz' : q.Y 0 = p.Y 0 ∨ q.Y 0 = -p.Y 0 := sq_eq_sq_iff_eq_or_eq_neg.1 (z2.trans y2.symm)
  have hpar : ∀ n : Nat, ((-1 : ℂ) ^ n = 1 ∧ (-1 : ℂ) ^ (n + 1) = -1) ∨ ((-1 : ℂ) ^ n = -1 ∧ (-1 : ℂ) ^ (n + 1) = 1) := by
    intro n
    rcases neg_one_pow_eq_or ℂ n with h | h
    · left; exact ⟨h, by rw [pow_succ, h]; norm_num⟩
    · right; exact ⟨h, by rw [pow_succ, h]; norm_num⟩
  rcases hpar p.lift with ⟨a1, a2⟩ | ⟨a1, a2⟩ <;> rcases hpar q.lift with ⟨b1, b2⟩ | ⟨b1, b2⟩ <;> rcases hz' with h | h <;> rcases hside with s | s <;>
    (simp only [a1, a2, b1, b2, h, s, one_mul, neg_mul, neg_neg, hneg, hneg', if_true, if_false]; norm_num)

/-- paths over edges without a common vertex do not meet at branch points -/
theorem pathNumber_disjoint {m a b c d : Nat} {ca cb ca' cb' : ℂ} {α β : Nat} (h1 : a ≠ c) (h2 : a ≠ d) (h3 : b ≠ c) (h4 : b ≠ d) :
    pathNumber (passages m a b ca cb α) (passages m c d ca' cb' β) = 0 := by
  unfold pathNumber passages
  simp [h1, h2, h3, h4]

/-- **C50 (negation).** The curve `y^2 = (x^2 - 576)(x^2 + 100)(x^2 + 121)(x + 48)`, exact numbers: the tree, the data and the matrix are computed, and for all determinations of `y` on the edges
the matrix does not hold the intersection numbers of the closed paths over the edges: an entry is `0` and the paths have intersection number `±2`. -/
theorem C50_fails {sort : List (Edge ℝ) → List (Edge ℝ)} (hsort : SortsByR sort) {lam : ℝ} (hlam : lam ≠ 0) :
    ∃ tr data c, spanningTreeOf (exactCOps lam) (WOps.ofOrder (-1)) sort x7 (treeInit (WOps.ofOrder (-1)) 6) 7 .gc = .ok tr ∧
      treeYdataInit exact exactTests x7 7 2 tr.e = .ok data ∧ intersectionTree (shiftOracle exact exactTests data 2) tr.e 2 = .ok c ∧
      ∃ (k l : Nat) (f g : Edge ℝ), tr.e[k]? = some f ∧ tr.e[l]? = some g ∧ tableOf 2 c (k, 0) (l, 0) = 0 ∧ ∀ (Y : Nat → ℝ → ℂ) (ca cb : Nat → ℂ), Branches 2 7 x7 tr.e Y ca cb →
        (closedNumber 2 x7 (pathOf f Y ca cb k 0) (pathOf g Y ca cb l 0) = 2 ∨ closedNumber 2 x7 (pathOf f Y ca cb k 0) (pathOf g Y ca cb l 0) = -2) := by
  obtain ⟨tr, data, c, h1, h2, h3, Y0, ca0, cb0, h4, h5, -⟩ := C50_from_points hsort hlam .gc (m := 2) (N := 6) (n := 7) (by norm_num) le_rfl (by norm_num) x7_inj
  obtain ⟨tr', g1, k, l, f, g, hkl, hf, hg, hf', hg', -⟩ := C64_fails hsort lam
  obtain rfl := Res.ok.inj (h1.symm.trans g1)
  refine ⟨tr, data, c, h1, h2, h3, k, l, f, g, hf, hg, ?_, fun Y ca cb hY => ?_⟩
  · have := h5 k l f g 0 0 hf hg (by norm_num) (by norm_num)
    rw [pathNumber_disjoint (by omega) (by omega) (by omega) (by omega)] at this
    exact_mod_cast this
  · rw [closedNumber_eq, pathNumber_disjoint, zero_add]
    · exact innerSum_seven (p := pathOf f Y ca cb k 0) (q := pathOf g Y ca cb l 0) hf' hg' (hY k f hf).1 (hY l g hg).1
    all_goals (simp only [pathOf]; omega)

/-- the loops form a symplectic basis for the intersection numbers `I`: `alpha_i . beta_j = δ_ij`, all other numbers are `0` -/
def SymplecticFor (I : Nat × Nat → Nat × Nat → Int) (al be : List (List Gamma)) : Prop :=
  (∀ (i j : Nat) (x y : List Gamma), (al[i]? = some x ∧ al[j]? = some y) ∨ (be[i]? = some x ∧ be[j]? = some y) → Chain.pair I (toChain x) (toChain y) = 0) ∧
  ∀ (i j : Nat) (x y : List Gamma), al[i]? = some x → be[j]? = some y → Chain.pair I (toChain x) (toChain y) = if i = j then 1 else 0

theorem coeff_sum {len m1 : Nat} (F : Nat × Nat → Int) : ∀ (x : Chain), (∀ t ∈ x, t.2.1 < len ∧ t.2.2 < m1) →
    (x.map fun t => t.1 * F t.2).sum = ∑ k ∈ Finset.range len ×ˢ Finset.range m1, x.coeff k.1 k.2 * F k
  | [], _ => by simp [Chain.coeff]
  | t :: x, h => by
    have ih := coeff_sum F x fun u hu => h u (List.mem_cons_of_mem _ hu)
    have ht := h t List.mem_cons_self
    rw [List.map_cons, List.sum_cons, ih]
    have : ∀ k : Nat × Nat, Chain.coeff (t :: x) k.1 k.2 * F k = (if t.2 = k then t.1 * F k else 0) + Chain.coeff x k.1 k.2 * F k := by
      intro k
      unfold Chain.coeff
      rw [List.map_cons, List.sum_cons]
      split_ifs <;> simp_all [add_mul]
    simp only [this, Finset.sum_add_distrib]
    rw [Finset.sum_ite_eq, if_pos (Finset.mem_product.2 ⟨Finset.mem_range.2 ht.1, Finset.mem_range.2 ht.2⟩)]

theorem pair_sum {len m1 : Nat} (I : Nat × Nat → Nat × Nat → Int) {x y : Chain} (hx : ∀ t ∈ x, t.2.1 < len ∧ t.2.2 < m1) (hy : ∀ t ∈ y, t.2.1 < len ∧ t.2.2 < m1) :
    Chain.pair I x y = ∑ k ∈ Finset.range len ×ˢ Finset.range m1, ∑ l ∈ Finset.range len ×ˢ Finset.range m1, x.coeff k.1 k.2 * I k l * y.coeff l.1 l.2 := by
  unfold Chain.pair
  have h1 : ∀ t : Int × (Nat × Nat), (y.map fun u => t.1 * u.1 * I t.2 u.2).sum = t.1 * ∑ l ∈ Finset.range len ×ˢ Finset.range m1, y.coeff l.1 l.2 * I t.2 l := by
    intro t
    rw [← coeff_sum (fun l => I t.2 l) y hy, ← List.sum_map_mul_left]
    congr 1
    refine List.map_congr_left fun u _ => ?_
    ring
  rw [List.map_congr_left fun t _ => h1 t, coeff_sum (fun k => ∑ l ∈ Finset.range len ×ˢ Finset.range m1, y.coeff l.1 l.2 * I k l) x hx]
  refine Finset.sum_congr rfl fun k _ => ?_
  rw [Finset.mul_sum]
  refine Finset.sum_congr rfl fun l _ => ?_
  ring


theorem sum_lifts {len m1 : Nat} (hm : 0 < m1) (f : Nat × Nat → Int) :
    ∑ k ∈ Finset.range len ×ˢ Finset.range m1, f k = ∑ j : Fin (len * m1), f (j.val / m1, j.val % m1) := by
  refine Finset.sum_bij' (fun k hk => ⟨k.1 * m1 + k.2, ?_⟩) (fun j _ => (j.val / m1, j.val % m1)) (fun _ _ => Finset.mem_univ _) ?_ ?_ ?_ ?_
  · obtain ⟨h1, h2⟩ := Finset.mem_product.1 hk
    have h1 := Finset.mem_range.1 h1
    have h2 := Finset.mem_range.1 h2
    have : (k.1 + 1) * m1 ≤ len * m1 := Nat.mul_le_mul_right _ h1
    rw [Nat.add_mul, Nat.one_mul] at this
    omega
  · intro j _
    exact Finset.mem_product.2 ⟨Finset.mem_range.2 (Nat.div_lt_of_lt_mul (lt_of_lt_of_eq j.isLt (Nat.mul_comm _ _))), Finset.mem_range.2 (Nat.mod_lt _ hm)⟩
  · intro k hk
    have h2 := Finset.mem_range.1 (Finset.mem_product.1 hk).2
    refine Prod.ext ?_ ?_
    · show (k.1 * m1 + k.2) / m1 = k.1
      rw [Nat.mul_comm, Nat.mul_add_div hm, Nat.div_eq_of_lt h2]; rfl
    · show (k.1 * m1 + k.2) % m1 = k.2
      rw [Nat.mul_comm, Nat.mul_add_mod, Nat.mod_eq_of_lt h2]
  · intro j _
    refine Fin.ext ?_
    show j.val / m1 * m1 + j.val % m1 = j.val
    rw [Nat.mul_comm]; exact Nat.div_add_mod _ _
  · intro k hk
    have h2 := Finset.mem_range.1 (Finset.mem_product.1 hk).2
    congr 1
    refine Prod.ext ?_ ?_
    · show k.1 = (k.1 * m1 + k.2) / m1
      rw [Nat.mul_comm, Nat.mul_add_div hm, Nat.div_eq_of_lt h2]; rfl
    · show k.2 = (k.1 * m1 + k.2) % m1
      rw [Nat.mul_comm, Nat.mul_add_mod, Nat.mod_eq_of_lt h2]

/-- a basis is symplectic for one form only -/
theorem symplectic_unique {len m1 g : Nat} (hm : 0 < m1) (hg : len * m1 = 2 * g) {I0 I : Nat × Nat → Nat × Nat → Int} {P : Mat (len * m1)} (hP : Unimodular P) {al be : List (List Gamma)}
    (hb : IsSymplecticBasis len m1 g I0 P al be) (h0 : SymplecticFor I0 al be) (h1 : SymplecticFor I al be)
    (hanti : ∀ a b : Nat × Nat, a.1 < len → a.2 < m1 → b.1 < len → b.2 < m1 → I a b - I0 a b = -(I b a - I0 b a)) :
    ∀ a b : Nat × Nat, a.1 < len → a.2 < m1 → b.1 < len → b.2 < m1 → I a b = I0 a b := by
  have rng : ∀ l ∈ al ++ be, ∀ t ∈ toChain l, t.2.1 < len ∧ t.2.2 < m1 := by
    intro l hl t ht
    obtain ⟨u, hu, rfl⟩ := List.mem_map.1 ht
    exact ((hb.terms l hl).1 u hu).2
  let D : Mat (len * m1) := fun i j => I (i.val / m1, i.val % m1) (j.val / m1, j.val % m1) - I0 (i.val / m1, i.val % m1) (j.val / m1, j.val % m1)
  have inr : ∀ i : Fin (len * m1), i.val / m1 < len ∧ i.val % m1 < m1 := fun i => ⟨Nat.div_lt_of_lt_mul (lt_of_lt_of_eq i.isLt (Nat.mul_comm _ _)), Nat.mod_lt _ hm⟩
  have hD : ∀ i j, D i j = -D j i := fun i j => hanti _ _ (inr i).1 (inr i).2 (inr j).1 (inr j).2
  -- the rows of P
  have row : ∀ a : Fin (len * m1), ∃ l ∈ al ++ be, (∀ j : Fin (len * m1), (toChain l).coeff (j.val / m1) (j.val % m1) = P a j) ∧
      ((∃ i, al[i]? = some l ∧ a.val = 2 * i) ∨ ∃ i, be[i]? = some l ∧ a.val = 2 * i + 1) := by
    intro a
    have ha : a.val / 2 < g := by have := a.isLt; omega
    have q1 : al[a.val / 2]? = some (al[a.val / 2]'(by rw [hb.lengths.1]; exact ha)) := List.getElem?_eq_getElem _
    have q2 : be[a.val / 2]? = some (be[a.val / 2]'(by rw [hb.lengths.2]; exact ha)) := List.getElem?_eq_getElem _
    have hj : ∀ (a' j : Fin (len * m1)) (k s : Nat), k = j.val / m1 → s = j.val % m1 → a'.val = k * m1 + s → a' = j := by
      intro a' j k s h1 h2 h3
      refine Fin.ext ?_
      rw [h3, h1, h2, Nat.mul_comm]; exact Nat.div_add_mod _ _
    rcases Nat.mod_two_eq_zero_or_one a.val with h | h
    · refine ⟨_, List.mem_append_left _ (List.mem_of_getElem? q1), fun j => ?_, .inl ⟨_, q1, by omega⟩⟩
      obtain ⟨a1, b1, j1, e1, e2, e3, e4, e5⟩ := hb.rows (a.val / 2) (j.val / m1) (j.val % m1) _ _ q1 q2 (inr j).1 (inr j).2
      rw [e4, hj j1 j _ _ rfl rfl e3, show a1 = a from Fin.ext (by omega)]
    · refine ⟨_, List.mem_append_right _ (List.mem_of_getElem? q2), fun j => ?_, .inr ⟨_, q2, by omega⟩⟩
      obtain ⟨a1, b1, j1, e1, e2, e3, e4, e5⟩ := hb.rows (a.val / 2) (j.val / m1) (j.val % m1) _ _ q1 q2 (inr j).1 (inr j).2
      rw [e5, hj j1 j _ _ rfl rfl e3, show b1 = a from Fin.ext (by omega)]
  have ent : ∀ (a b : Fin (len * m1)) (x y : List Gamma), x ∈ al ++ be → y ∈ al ++ be → (∀ j : Fin (len * m1), (toChain x).coeff (j.val / m1) (j.val % m1) = P a j) →
      (∀ j : Fin (len * m1), (toChain y).coeff (j.val / m1) (j.val % m1) = P b j) →
      (P * D * P.transpose) a b = Chain.pair I (toChain x) (toChain y) - Chain.pair I0 (toChain x) (toChain y) := by
    intro a b x y hx hy ha hb'
    rw [pair_sum I (rng x hx) (rng y hy), pair_sum I0 (rng x hx) (rng y hy), sum_lifts hm, sum_lifts hm, ← Finset.sum_sub_distrib, Matrix.mul_apply]
    simp only [Matrix.mul_apply, Matrix.transpose_apply, Finset.sum_mul]
    rw [Finset.sum_comm]
    refine Finset.sum_congr rfl fun i _ => ?_
    rw [sum_lifts hm, sum_lifts hm, ← Finset.sum_sub_distrib]
    refine Finset.sum_congr rfl fun j _ => ?_
    rw [ha, hb']
    simp only [D]
    ring
  have zero : P * D * P.transpose = 0 := by
    ext a b
    have anti : (P * D * P.transpose) a b = -(P * D * P.transpose) b a := by
      have : (P * D * P.transpose).transpose = -(P * D * P.transpose) := by
        have hDt : D.transpose = -D := by ext i j; exact hD j i
        rw [Matrix.transpose_mul, Matrix.transpose_mul, Matrix.transpose_transpose, hDt, Matrix.neg_mul, Matrix.mul_neg, Matrix.mul_assoc]
      have := congrFun (congrFun this b) a
      exact this
    obtain ⟨x, hx, hxa, hx'⟩ := row a
    obtain ⟨y, hy, hyb, hy'⟩ := row b
    rw [Matrix.zero_apply]
    rcases hx' with ⟨i, hi, -⟩ | ⟨i, hi, -⟩ <;> rcases hy' with ⟨j, hj, -⟩ | ⟨j, hj, -⟩
    · rw [ent a b x y hx hy hxa hyb, h0.1 i j x y (.inl ⟨hi, hj⟩), h1.1 i j x y (.inl ⟨hi, hj⟩), sub_zero]
    · rw [ent a b x y hx hy hxa hyb, h0.2 i j x y hi hj, h1.2 i j x y hi hj, sub_self]
    · rw [anti, ent b a y x hy hx hyb hxa, h0.2 j i y x hj hi, h1.2 j i y x hj hi, sub_self, neg_zero]
    · rw [ent a b x y hx hy hxa hyb, h0.1 i j x y (.inr ⟨hi, hj⟩), h1.1 i j x y (.inr ⟨hi, hj⟩), sub_zero]
  have hz : D = 0 := by
    obtain ⟨Q, -, hQ⟩ := hP
    have hQt : P.transpose * Q.transpose = 1 := by rw [← Matrix.transpose_mul, hQ, Matrix.transpose_one]
    calc D = (Q * P) * D * (P.transpose * Q.transpose) := by rw [hQ, hQt, Matrix.one_mul, Matrix.mul_one]
      _ = Q * (P * D * P.transpose) * Q.transpose := by simp only [Matrix.mul_assoc]
      _ = 0 := by rw [zero, Matrix.mul_zero, Matrix.zero_mul]
  rintro ⟨k, s⟩ ⟨l, t⟩ hk hs hl ht
  have hlt : ∀ k s : Nat, k < len → s < m1 → k * m1 + s < len * m1 := by
    intro k s hk hs
    have : (k + 1) * m1 ≤ len * m1 := Nat.mul_le_mul_right _ hk
    rw [Nat.add_mul, Nat.one_mul] at this
    omega
  have := congrFun (congrFun hz ⟨k * m1 + s, hlt k s hk hs⟩) ⟨l * m1 + t, hlt l t hl ht⟩
  have dm : ∀ k s : Nat, s < m1 → (k * m1 + s) / m1 = k ∧ (k * m1 + s) % m1 = s := by
    intro k s hs
    rw [Nat.mul_comm]
    exact ⟨by rw [Nat.mul_add_div hm, Nat.div_eq_of_lt hs]; rfl, by rw [Nat.mul_add_mod, Nat.mod_eq_of_lt hs]⟩
  simp only [D, (dm k s hs).1, (dm k s hs).2, (dm l t ht).1, (dm l t ht).2, Matrix.zero_apply] at this
  linarith

/-- the determinations of `y` leave the ends of the edges along the numbers stored -/
def DataRays (data : List (YData ℂ)) (ca cb : Nat → ℂ) : Prop := ∀ (k : Nat) (yd : YData ℂ), data[k]? = some yd → ca k = yd.ya ∧ cb k = yd.yb

/-- **C49 (closed paths).** Hyperelliptic curves, exact numbers, any extended gcd: if the parameter of the tree is above the bound of C64 or if the points are real, the loops returned are a symplectic basis for the
intersection numbers of the closed paths over the edges, the contributions of all common points included. -/
theorem C49_closed_partial (xg : XGcd) {sort : List (Edge ℝ) → List (Edge ℝ)} (hsort : SortsByR sort) (type : IntType) {x : Nat → ℂ} {n g N : Nat} (hN : EdgeCount 2 n N) (hx : Set.InjOn x (Set.Iio n))
    (hg : IsGenus 2 n g) :
    ∃ tr data al be, spanningTreeOf (exactCOps (Real.pi / 2)) (WOps.ofOrder (-1)) sort x (treeInit (WOps.ofOrder (-1)) N) n type = .ok tr ∧
      treeYdataInit exact exactTests x n 2 tr.e = .ok data ∧ (∀ fuel, 1 ≤ fuel → symplecticBasis xg fuel (shiftOracle exact exactTests data 2) tr.e 2 g = .ok (al, be)) ∧
      (crossBound type < tr.r ∨ (∀ v < n, (x v).im = 0) → ∃ (Y : Nat → ℝ → ℂ) (ca cb : Nat → ℂ) (I : Nat × Nat → Nat × Nat → Int), Branches 2 n x tr.e Y ca cb ∧ DataRays data ca cb ∧
        HoldsClosed 2 x tr.e Y ca cb I ∧ SymplecticFor I al be) := by
  obtain ⟨tr, data, c, h1, h2, h3, -, P, hP, -, al, be, e1, e2, e3, -⟩ := C49_hyperelliptic_basis xg hsort (by positivity : Real.pi / 2 ≠ 0) type hN hx hg
  obtain ⟨tr', data', c', g1, g2, g3, Y, ca, cb, q1, q2, q3⟩ := C50_from_points hsort (by positivity : Real.pi / 2 ≠ 0) type (m := 2) (edgeCount_lt hN) le_rfl (by norm_num) hx
  obtain rfl := Res.ok.inj (h1.symm.trans g1)
  obtain rfl := Res.ok.inj (h2.symm.trans g2)
  obtain rfl := Res.ok.inj (h3.symm.trans g3)
  obtain ⟨tr', g1, -, g2⟩ := C64_no_crossing_partial hsort type (edgeCount_lt hN) hx
  obtain rfl := Res.ok.inj (h1.symm.trans g1)
  refine ⟨tr, data, al, be, h1, h2, e1, fun h => ⟨Y, ca, cb, tableOf 2 c, q1, fun k yd hd => ⟨(q3 k yd hd).1.symm, (q3 k yd hd).2.symm⟩, holdsClosed_of q2 (g2 h), e2.isotropic, fun i j x y hx hy => ?_⟩⟩
  by_cases hij : i = j
  · subst hij
    rw [if_pos rfl]
    exact e3 i x y hx hy
  · rw [if_neg hij]
    by_contra hne
    exact hij ((e2.dual i j x y hx hy).1 hne)

/-- **C49 (negation).** The curve `y^2 = (x^2 - 576)(x^2 + 100)(x^2 + 121)(x + 48)` of genus 3, exact numbers, any extended gcd: the tree, the data and three loops `alpha` and three loops `beta` are returned; for
the determinations of `y` stored, they are not a symplectic basis for the intersection numbers of the closed paths over the edges. -/
theorem C49_fails (xg : XGcd) {sort : List (Edge ℝ) → List (Edge ℝ)} (hsort : SortsByR sort) {lam : ℝ} (hlam : lam ≠ 0) :
    IsGenus 2 7 3 ∧ ∃ tr data al be, spanningTreeOf (exactCOps lam) (WOps.ofOrder (-1)) sort x7 (treeInit (WOps.ofOrder (-1)) 6) 7 .gc = .ok tr ∧
      treeYdataInit exact exactTests x7 7 2 tr.e = .ok data ∧ (∀ fuel, 1 ≤ fuel → symplecticBasis xg fuel (shiftOracle exact exactTests data 2) tr.e 2 3 = .ok (al, be)) ∧
      (∃ (Y : Nat → ℝ → ℂ) (ca cb : Nat → ℂ), Branches 2 7 x7 tr.e Y ca cb ∧ DataRays data ca cb) ∧
      ∀ (Y : Nat → ℝ → ℂ) (ca cb : Nat → ℂ), Branches 2 7 x7 tr.e Y ca cb → DataRays data ca cb →
        ∀ I : Nat × Nat → Nat × Nat → Int, HoldsClosed 2 x7 tr.e Y ca cb I → ¬ SymplecticFor I al be := by
  have hgen : IsGenus ((2 : Nat) : Int) ((7 : Nat) : Int) ((3 : Nat) : Int) := by unfold IsGenus; decide
  refine ⟨hgen, ?_⟩
  obtain ⟨tr, data, c, h1, h2, h3, -, P, hP, -, al, be, e1, e2, e3, -⟩ := C49_hyperelliptic_basis xg hsort hlam .gc (n := 7) (g := 3) (N := 6) (Or.inl rfl) x7_inj hgen
  obtain ⟨tr', data', c', g1, g2, g3, k, l, f, g, hf, hg, hz, hno⟩ := C50_fails hsort hlam
  obtain rfl := Res.ok.inj (h1.symm.trans g1)
  obtain rfl := Res.ok.inj (h2.symm.trans g2)
  obtain rfl := Res.ok.inj (h3.symm.trans g3)
  obtain ⟨tr', data', c', g1, g2, g3, Y0, ca0, cb0, q1, q2, q3⟩ := C50_from_points hsort hlam .gc (m := 2) (N := 6) (n := 7) (by norm_num) le_rfl (by norm_num) x7_inj
  obtain rfl := Res.ok.inj (h1.symm.trans g1)
  obtain rfl := Res.ok.inj (h2.symm.trans g2)
  obtain rfl := Res.ok.inj (h3.symm.trans g3)
  have hlen : tr.e.length = 6 := by
    obtain ⟨t1, e1, -, e2, -⟩ := C09_grows_as_tree (WOps.ofOrder (-1)) sort hsort.perm wt7 (treeInit (WOps.ofOrder (-1 : ℝ)) 6) 7 (Or.inl (by norm_num [treeInit]))
    have : spanningTree (WOps.ofOrder (-1)) sort wt7 (treeInit (WOps.ofOrder (-1 : ℝ)) 6) 7 = .ok tr := h1
    obtain rfl := Res.ok.inj (this.symm.trans e1)
    exact e2
  have hdl := (treeYdataInit_get h2).1
  refine ⟨tr, data, al, be, h1, h2, e1, ⟨Y0, ca0, cb0, q1, fun k yd hd => ⟨(q3 k yd hd).1.symm, (q3 k yd hd).2.symm⟩⟩, fun Y ca cb hY hR I hI hS => ?_⟩
  have hnum : HoldsNumbers 2 tr.e ca cb c := by
    intro i j ei ej α β hi hj hα hβ
    have hi' := (List.getElem?_eq_some_iff.1 hi).1
    have hj' := (List.getElem?_eq_some_iff.1 hj).1
    have di : data[i]? = some (data[i]'(by omega)) := List.getElem?_eq_getElem _
    have dj : data[j]? = some (data[j]'(by omega)) := List.getElem?_eq_getElem _
    rw [q2 i j ei ej α β hi hj hα hβ, (hR i _ di).1, (hR i _ di).2, (hR j _ dj).1, (hR j _ dj).2, (q3 i _ di).1, (q3 i _ di).2, (q3 j _ dj).1, (q3 j _ dj).2]
  have hdiff : ∀ (i j : Nat) (ei ej : Edge ℝ) (α β : Nat), tr.e[i]? = some ei → tr.e[j]? = some ej → α < 2 - 1 → β < 2 - 1 →
      ((I (i, α) (j, β) - tableOf 2 c (i, α) (j, β) : ℤ) : ℚ) = innerSum 2 x7 (pathOf ei Y ca cb i α) (pathOf ej Y ca cb j β) := by
    intro i j ei ej α β hi hj hα hβ
    have a1 := hI i j ei ej α β hi hj hα hβ
    have a2 := hnum i j ei ej α β hi hj hα hβ
    rw [closedNumber_eq] at a1
    have a3 : ((tableOf 2 c (i, α) (j, β) : ℤ) : ℚ) = pathNumber (passages 2 (pathOf ei Y ca cb i α).a (pathOf ei Y ca cb i α).b (pathOf ei Y ca cb i α).ca (pathOf ei Y ca cb i α).cb (pathOf ei Y ca cb i α).lift)
        (passages 2 (pathOf ej Y ca cb j β).a (pathOf ej Y ca cb j β).b (pathOf ej Y ca cb j β).ca (pathOf ej Y ca cb j β).cb (pathOf ej Y ca cb j β).lift) := a2
    push_cast
    rw [a1, a3]
    ring
  have hS0 : SymplecticFor (tableOf 2 c) al be := by
    refine ⟨e2.isotropic, fun i j x y hx hy => ?_⟩
    by_cases hij : i = j
    · subst hij
      rw [if_pos rfl]
      exact e3 i x y hx hy
    · rw [if_neg hij]
      by_contra hne
      exact hij ((e2.dual i j x y hx hy).1 hne)
  have hk := (List.getElem?_eq_some_iff.1 hf).1
  have hl := (List.getElem?_eq_some_iff.1 hg).1
  have := symplectic_unique (by norm_num) (by rw [hlen]) hP e2 hS0 hS (fun a b ha ha' hb hb' => by
    have ga : tr.e[a.1]? = some (tr.e[a.1]'ha) := List.getElem?_eq_getElem _
    have gb : tr.e[b.1]? = some (tr.e[b.1]'hb) := List.getElem?_eq_getElem _
    have r1 := hdiff a.1 b.1 _ _ a.2 b.2 ga gb ha' hb'
    have r2 := hdiff b.1 a.1 _ _ b.2 a.2 gb ga hb' ha'
    rw [innerSum_symm, ← r1] at r2
    have r3 : I b a - tableOf 2 c b a = -(I a b - tableOf 2 c a b) := by exact_mod_cast r2
    show I a b - tableOf 2 c a b = -(I b a - tableOf 2 c b a)
    rw [r3, neg_neg]) (k, 0) (l, 0) hk (by norm_num) hl (by norm_num)
  have h6 := hI k l f g 0 0 hf hg (by norm_num) (by norm_num)
  have h7 : tableOf 2 c (k, 0) (l, 0) = 0 := hz
  have h8 : I (k, 0) (l, 0) = 0 := this.trans h7
  rw [h8] at h6
  rcases hno Y ca cb hY with h | h <;> rw [h] at h6 <;> norm_num at h6

end Hcp
