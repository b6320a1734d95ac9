import Verif.Props.RiemannHyper
import Verif.Proofs.EightSum

/-!
# C61: a curve whose tree has crossing edges, and whose `tau` is not symmetric
-/

namespace Hcp
open Spec Set HalfPlane Eight

variable {A B C W : Type} {O : MatOps} {R : A → ℂ → Prop}

section
variable {V : AjEnv A B C W O} {RC : {n m : Nat} → O.C n m → Matrix (Fin n) (Fin m) ℂ → Prop} {c : Sec} {out : AjOut A W O c.shape.g}
  {Y : Nat → ℝ → ℂ} {ca cb : Nat → ℂ} {cc : IMat} {Q : Mat (out.tree.e.length * (2 - 1))}

theorem form_cross (h : secInit 2 8 = .ok c) (hr : AjRight V R RC 2 8 x8 c out Y ca cb cc Q) (hsh : Shape8 (out.tree.e.map fun f => (f.a, f.b))) {r0 r1 : Fin c.shape.g} (e0 : r0.val = 0) (e1 : r1.val = 1)
    {U : Matrix (Fin c.shape.g) (Fin (out.tree.e.length * (2 - 1))) ℂ} (hU : ∀ r b, ∑ a, U r a * (cc.toMat (out.tree.e.length * (2 - 1)) a b : ℤ) = cyclePeriods 2 x8 out.tree.e Y c.shape r b) :
    ∑ a, ∑ b, U r0 a * (cc.toMat (out.tree.e.length * (2 - 1)) a b : ℤ) * U r1 b ≠ 0 := by
  obtain ⟨htree, hsize, hin⟩ := hr.tree
  have hlen : out.tree.e.length = 6 := by have := hsize.1 (by norm_num); omega
  obtain ⟨p, hp, q, hq, QQ, hQQ, jF, jG, jC, jP, jQ, jR⟩ := hsh
  have hp' : p = 0 ∨ p = 1 := by simpa using hp
  have hq' : q = 2 ∨ q = 3 := by simpa using hq
  have hQ' : QQ = 0 ∨ QQ = 2 := by simpa using hQQ
  clear hp hq hQQ
  have hget : ∀ k (hk : k < out.tree.e.length), (out.tree.e.map fun f => (f.a, f.b)).getD k (0, 0) = (out.tree.e[k].a, out.tree.e[k].b) := fun k hk => by
    rw [List.getD_eq_getElem _ _ (by simpa using hk), List.getElem_map]
  -- the signs of the ends
  obtain ⟨δ, hδ, d1, d2, d3⟩ : ∃ δ : ℝ, (δ = 1 ∨ δ = -1) ∧ x8 p = 24 * δ ∧ x8 (1 - p) = -(24 * δ) ∧ x8 (p + 6) = 48 * δ := by
    rcases hp' with rfl | rfl
    · exact ⟨1, .inl rfl, by norm_num [x8], by norm_num [x8], by norm_num [x8]⟩
    · exact ⟨-1, .inr rfl, by norm_num [x8], by norm_num [x8], by norm_num [x8]⟩
  obtain ⟨ε, hε, u1, u2, u3, u4⟩ : ∃ ε : ℝ, (ε = 1 ∨ ε = -1) ∧ x8 q = 10 * ε * Complex.I ∧ x8 (5 - q) = -(10 * ε * Complex.I) ∧ x8 (q + 2) = 11 * ε * Complex.I ∧ x8 (5 - q + 2) = -(11 * ε * Complex.I) := by
    rcases hq' with rfl | rfl
    · exact ⟨1, .inl rfl, by norm_num [x8], by norm_num [x8], by norm_num [x8], by norm_num [x8]⟩
    · exact ⟨-1, .inr rfl, by norm_num [x8], by norm_num [x8], by norm_num [x8], by norm_num [x8]⟩
  have hε' : -ε = 1 ∨ -ε = -1 := by rcases hε with rfl | rfl <;> norm_num
  have u2' : x8 (5 - q) = 10 * (-ε : ℝ) * Complex.I := by rw [u2]; push_cast; ring
  have u4' : x8 (5 - q + 2) = 11 * (-ε : ℝ) * Complex.I := by rw [u4]; push_cast; ring
  obtain ⟨η, hη, hη'⟩ : ∃ η : ℤ, (η : ℝ) = δ * ε ∧ (η = 1 ∨ η = -1) := by
    rcases hδ with rfl | rfl <;> rcases hε with rfl | rfl
    · exact ⟨1, by norm_num, .inl rfl⟩
    · exact ⟨-1, by norm_num, .inr rfl⟩
    · exact ⟨-1, by norm_num, .inr rfl⟩
    · exact ⟨1, by norm_num, .inl rfl⟩
  -- the edges
  have play : ∀ (k : Nat) (u v : Nat) (Z : ℝ → ℂ) (ou ov : ℂ), (hk : k < 6) → u ≠ v → Joins ((out.tree.e.map fun f => (f.a, f.b)).getD k (0, 0)) u v → Standard 8 x8 u v Z ou ov →
      ∃ s, Plays x8 (out.tree.e[k]'(by omega)).a (out.tree.e[k]'(by omega)).b (Y k) (ca k) (cb k) u v Z ou ov s := by
    intro k u v Z ou ov hk huv hj hZ
    rw [hget k (by omega)] at hj
    obtain ⟨b1, b2, b3⟩ := hr.branches k (out.tree.e[k]'(by omega)) (List.getElem?_eq_getElem (show k < out.tree.e.length by omega))
    exact plays_exists hZ huv hj b1 b2 b3
  have hQ6 : QQ < 6 := by omega
  have hR6 : 2 - QQ < 6 := by omega
  obtain ⟨sF, yF⟩ := play 5 _ _ _ _ _ (by norm_num) (by omega) jF (std_f x8_curve hδ d2 d1)
  obtain ⟨sG, yG⟩ := play 1 _ _ _ _ _ (by norm_num) (by omega) jG (std_g x8_curve hε u2 u1)
  obtain ⟨sC, yC⟩ := play 3 _ _ _ _ _ (by norm_num) (by omega) jC (std_c x8_curve hδ hε d1 u1)
  obtain ⟨sP, yP⟩ := play 4 _ _ _ _ _ (by norm_num) (by omega) jP (std_p x8_curve hδ d1 d3)
  obtain ⟨sQ, yQ⟩ := play QQ _ _ _ _ _ hQ6 (by omega) jQ (std_q x8_curve hε u1 u3)
  obtain ⟨sR, yR⟩ := play (2 - QQ) _ _ _ _ _ hR6 (by omega) jR (std_q x8_curve hε' u2' u4')
  have hnum : ∀ k l (hk : k < 6) (hl : l < 6), ((cc k l : ℤ) : ℚ) = pathNumber (passages 2 (out.tree.e[k]'(by omega)).a (out.tree.e[k]'(by omega)).b (ca k) (cb k) 0) (passages 2 (out.tree.e[l]'(by omega)).a (out.tree.e[l]'(by omega)).b (ca l) (cb l) 0) := by
    intro k l hk hl
    have := hr.numbers k l (out.tree.e[k]'(by omega)) (out.tree.e[l]'(by omega)) 0 0 (List.getElem?_eq_getElem (show k < out.tree.e.length by omega)) (List.getElem?_eq_getElem (show l < out.tree.e.length by omega)) (by norm_num) (by norm_num)
    simpa using this
  have hanti : ∀ k < 6, ∀ l < 6, cc k l = -cc l k := by
    intro k hk l hl
    exact hr.whole.1 ⟨k, by show k < out.tree.e.length * (2 - 1); omega⟩ ⟨l, by show l < out.tree.e.length * (2 - 1); omega⟩
  let s : Nat → ℤ := fun k => if k = 5 then sF else if k = 1 then sG else if k = 3 then sC else if k = 4 then sP else if k = QQ then sQ else sR
  have s5 : s 5 = sF := by simp [s]
  have s1 : s 1 = sG := by simp [s]
  have s3 : s 3 = sC := by simp [s]
  have s4 : s 4 = sP := by simp [s]
  have sq : s QQ = sQ := by rcases hQ' with rfl | rfl <;> simp [s]
  have sr : s (2 - QQ) = sR := by rcases hQ' with rfl | rfl <;> simp [s]
  have num : ∀ k l (hk : k < 6) (hl : l < 6) (e : ℤ), pathNumber (passages 2 (out.tree.e[k]'(by omega)).a (out.tree.e[k]'(by omega)).b (ca k) (cb k) 0) (passages 2 (out.tree.e[l]'(by omega)).a (out.tree.e[l]'(by omega)).b (ca l) (cb l) 0) = ((e : ℤ) : ℚ) → cc k l = e := by
    intro k l hk hl e he
    exact_mod_cast (hnum k l hk hl).trans he
  have hηc : (η : ℝ) = 1 ∧ η = 1 ∨ (η : ℝ) = -1 ∧ η = -1 := by rcases hη' with rfl | rfl <;> norm_num
  have hT : Table cc s η 5 1 3 4 QQ (2 - QQ) := by
    constructor <;> simp only [s5, s1, s3, s4, sq, sr]
    · exact num _ _ (by omega) (by omega) _ (plays_apart yF yG (by omega) (by omega) (by omega) (by omega))
    · refine num _ _ (by omega) (by omega) _ (plays_common (w := p) yF yC (by omega) (by omega) (.inr ⟨rfl, rfl⟩) (.inl ⟨rfl, rfl⟩) (by omega) ?_)
      rcases hδ with rfl | rfl <;> rcases hε with rfl | rfl <;> rcases hηc with ⟨c1, rfl⟩ | ⟨c1, rfl⟩ <;> first | (exfalso; norm_num at hη; done) | norm_num
    · exact num _ _ (by omega) (by omega) _ (plays_common (w := p) yF yP (by omega) (by omega) (.inr ⟨rfl, rfl⟩) (.inl ⟨rfl, rfl⟩) (by omega) (by norm_num))
    · exact num _ _ (by omega) (by omega) _ (plays_apart yF yQ (by omega) (by omega) (by omega) (by omega))
    · exact num _ _ (by omega) (by omega) _ (plays_apart yF yR (by omega) (by omega) (by omega) (by omega))
    · refine num _ _ (by omega) (by omega) _ (plays_common (w := q) yG yC (by omega) (by omega) (.inr ⟨rfl, rfl⟩) (.inr ⟨rfl, rfl⟩) (by omega) ?_)
      rcases hδ with rfl | rfl <;> rcases hε with rfl | rfl <;> rcases hηc with ⟨c1, rfl⟩ | ⟨c1, rfl⟩ <;> first | (exfalso; norm_num at hη; done) | norm_num
    · exact num _ _ (by omega) (by omega) _ (plays_apart yG yP (by omega) (by omega) (by omega) (by omega))
    · exact num _ _ (by omega) (by omega) _ (plays_common (w := q) yG yQ (by omega) (by omega) (.inr ⟨rfl, rfl⟩) (.inl ⟨rfl, rfl⟩) (by omega) (by norm_num))
    · exact num _ _ (by omega) (by omega) _ (plays_common (w := 5 - q) yG yR (by omega) (by omega) (.inl ⟨rfl, rfl⟩) (.inl ⟨rfl, rfl⟩) (by omega) (by norm_num))
    · refine num _ _ (by omega) (by omega) _ (plays_common (w := p) yC yP (by omega) (by omega) (.inl ⟨rfl, rfl⟩) (.inl ⟨rfl, rfl⟩) (by omega) ?_)
      rcases hδ with rfl | rfl <;> rcases hε with rfl | rfl <;> norm_num
    · refine num _ _ (by omega) (by omega) _ (plays_common (w := q) yC yQ (by omega) (by omega) (.inr ⟨rfl, rfl⟩) (.inl ⟨rfl, rfl⟩) (by omega) ?_)
      rcases hδ with rfl | rfl <;> rcases hε with rfl | rfl <;> norm_num
    · exact num _ _ (by omega) (by omega) _ (plays_apart yC yR (by omega) (by omega) (by omega) (by omega))
    · exact num _ _ (by omega) (by omega) _ (plays_apart yP yQ (by omega) (by omega) (by omega) (by omega))
    · exact num _ _ (by omega) (by omega) _ (plays_apart yP yR (by omega) (by omega) (by omega) (by omega))
    · exact num _ _ (by omega) (by omega) _ (plays_apart yQ yR (by omega) (by omega) (by omega) (by omega))
  have six : ∀ k < 6, k = 5 ∨ k = 1 ∨ k = 3 ∨ k = 4 ∨ k = QQ ∨ k = 2 - QQ := by omega
  have hs : ∀ k < 6, s k = 1 ∨ s k = -1 := by
    intro k hk
    rcases six k hk with rfl | rfl | rfl | rfl | rfl | rfl
    · rw [s5]; exact yF.unit
    · rw [s1]; exact yG.unit
    · rw [s3]; exact yC.unit
    · rw [s4]; exact yP.unit
    · rw [sq]; exact yQ.unit
    · rw [sr]; exact yR.unit
  let w : Nat → Nat → ℂ := fun i k => if k = 5 then segIntM (x8 (1 - p)) (x8 p) i 1 zF else if k = 1 then segIntM (x8 (5 - q)) (x8 q) i 1 zG else
    if k = 3 then segIntM (x8 p) (x8 q) i 1 (fun t => y0 (hyp δ ε t)) else if k = 4 then segIntM (x8 p) (x8 (p + 6)) i 1 zP else if k = QQ then segIntM (x8 q) (x8 (q + 2)) i 1 zQ else segIntM (x8 (5 - q)) (x8 (5 - q + 2)) i 1 zQ
  have w5 : ∀ i, w i 5 = segIntM (x8 (1 - p)) (x8 p) i 1 zF := fun i => by simp [w]
  have w1 : ∀ i, w i 1 = segIntM (x8 (5 - q)) (x8 q) i 1 zG := fun i => by simp [w]
  have w3 : ∀ i, w i 3 = segIntM (x8 p) (x8 q) i 1 (fun t => y0 (hyp δ ε t)) := fun i => by simp [w]
  have w4 : ∀ i, w i 4 = segIntM (x8 p) (x8 (p + 6)) i 1 zP := fun i => by simp [w]
  have wq : ∀ i, w i QQ = segIntM (x8 q) (x8 (q + 2)) i 1 zQ := fun i => by rcases hQ' with rfl | rfl <;> simp [w]
  have wr : ∀ i, w i (2 - QQ) = segIntM (x8 (5 - q)) (x8 (5 - q + 2)) i 1 zQ := fun i => by rcases hQ' with rfl | rfl <;> simp [w]
  have cyc : ∀ k (hk : k < 6) i, cycleIntM 2 (x8 (out.tree.e[k]'(by omega)).a) (x8 (out.tree.e[k]'(by omega)).b) i 1 (Y k) 0 = s k * (2 * w i k) := by
    intro k hk i
    rcases six k hk with rfl | rfl | rfl | rfl | rfl | rfl
    · rw [s5, w5]; exact yF.cyc i
    · rw [s1, w1]; exact yG.cyc i
    · rw [s3, w3]; exact yC.cyc i
    · rw [s4, w4]; exact yP.cyc i
    · rw [sq, wq]; exact yQ.cyc i
    · rw [sr, wr]; exact yR.cyc i
  have hb : ∀ b : Fin (out.tree.e.length * (2 - 1)), b.val < 6 := fun b => by have := b.isLt; omega
  have row : ∀ (r : Fin c.shape.g) (b : Fin (out.tree.e.length * (2 - 1))), ∑ a : Fin (out.tree.e.length * (2 - 1)), U r a * (cc a.val b.val : ℤ) = s b * (2 * w r b) := by
    intro r b
    refine (hU r b).trans ?_
    simp only [cyclePeriods, Matrix.of_apply, show (2 : Nat) - 1 = 1 from rfl, Nat.div_one, Nat.mod_one, List.getElem?_eq_getElem (show b.val < out.tree.e.length from by have := hb b; omega), diffOf_two (by norm_num) h r.isLt]
    exact cyc b (hb b) r
  exact form_ne (N := out.tree.e.length * (2 - 1)) (by omega) hs hδ hε hη hQ' hT hanti (V0 := U r0) (V1 := U r1) (row r0) (row r1)
    (by rw [e0, w5]; exact (seg_f d2 d1).1) (by rw [e1, w5]; exact (seg_f d2 d1).2) (by rw [e0, w1]; exact (seg_g u2 u1).1) (by rw [e1, w1]; exact (seg_g u2 u1).2) (by rw [e0, w3]; exact seg_c hδ hε d1 u1)
    (by rw [e0, w4]; exact (seg_p hδ d1 d3).1) (by rw [e1, w4]; exact (seg_p hδ d1 d3).2) (by rw [e0, wq]; exact (seg_q hε u1 u3).1) (by rw [e1, wq]; exact (seg_q hε u1 u3).2)
    (by rw [e0, wr]; rw [(seg_q hε' u2' u4').1]; push_cast; rfl) (by rw [e1, wr]; exact (seg_q hε' u2' u4').2)

/-- no symmetric matrix -/
theorem tau_cross (h : secInit 2 8 = .ok c) (hr : AjRight V R RC 2 8 x8 c out Y ca cb cc Q) (hsh : Shape8 (out.tree.e.map fun f => (f.a, f.b))) {tau : Matrix (Fin c.shape.g) (Fin c.shape.g) ℂ}
    (ht : periodsOf 2 x8 out.tree.e Y c.shape out.loopA * tau = periodsOf 2 x8 out.tree.e Y c.shape out.loopB) : ∃ i j, tau i j ≠ tau j i := by
  by_contra hc
  push Not at hc
  have hg : c.shape.g = 3 := by
    have : secInit 2 8 = .ok ⟨2, 8, 2, 3, 1, 1, [3]⟩ := by decide
    obtain rfl := Res.ok.inj (h.symm.trans this)
    rfl
  have hJ := form_std hr le_rfl hr.positive
  obtain ⟨-, hU, hg2, -⟩ := hr.whole
  have hN : out.tree.e.length * (2 - 1) = 2 * c.shape.g := edges_genus le_rfl hr.tree.2.1 (isGenus_shape (by norm_num) h) (.inr (by norm_num))
  obtain ⟨U, hV⟩ := dual_exists hN hU hJ (cyclePeriods 2 x8 out.tree.e Y c.shape)
  obtain ⟨k1, -⟩ := relations_form hg2 hU hJ hV (fun r i => (periodsOf_rows hr le_rfl r i).1) (fun r i => (periodsOf_rows hr le_rfl r i).2)
  refine form_cross h hr hsh (r0 := ⟨0, by omega⟩) (r1 := ⟨1, by omega⟩) rfl rfl (U := U) (fun r b => ?_) ?_
  · rw [← hV, Matrix.mul_apply]
    rfl
  · have htt : tau.transpose = tau := by
      funext i j
      exact hc j i
    rw [← k1, ← ht, Matrix.transpose_mul, htt, Matrix.mul_assoc, sub_self, Matrix.zero_apply]

end

/-- **C61 (negation).** Curve `y^2 = (x^2 - 24^2) (x^2 - 48^2) (x^2 + 10^2) (x^2 + 11^2)` of genus 3.  The output is right in the sense of C56: the tree is the tree computed for Gauss–Chebyshev integration from the exact parameters
(any order of ties), the integrals are exact, the table contains the intersection numbers at the branch points, the loops are a symplectic basis for this table.  The edges of this tree from `-24` to `24` and from `-10 i` to `10 i`
cross at `0`, where the table does not count.  No matrix `tau` with `omega0 tau = omega1` is symmetric, so that none is a Riemann matrix. -/
theorem C61_fails {sort : List (Edge ℝ) → List (Edge ℝ)} (hsort : SortsByR sort) (lam : ℝ) {c : Sec} (h : secInit 2 8 = .ok c) {V : AjEnv A B C ℝ O} {RC : {n m : Nat} → O.C n m → Matrix (Fin n) (Fin m) ℂ → Prop}
    {out : AjOut A ℝ O c.shape.g} {Y : Nat → ℝ → ℂ} {ca cb : Nat → ℂ} {cc : IMat} {Q : Mat (out.tree.e.length * (2 - 1))}
    (htree : spanningTreeOf (exactCOps lam) (WOps.ofOrder (-1)) sort x8 (treeInit (WOps.ofOrder (-1)) 6) 8 .gc = .ok out.tree) (hr : AjRight V R RC 2 8 x8 c out Y ca cb cc Q) :
    (∀ tau, periodsOf 2 x8 out.tree.e Y c.shape out.loopA * tau = periodsOf 2 x8 out.tree.e Y c.shape out.loopB → ∃ i j, tau i j ≠ tau j i) ∧
      ¬ ∃ tau, periodsOf 2 x8 out.tree.e Y c.shape out.loopA * tau = periodsOf 2 x8 out.tree.e Y c.shape out.loopB ∧ IsRiemannMatrix tau := by
  have hN : (treeInit (WOps.ofOrder (-1 : ℝ)) 6).n < 8 ∨ (treeInit (WOps.ofOrder (-1 : ℝ)) 6).n = 0 := .inl (by norm_num [treeInit])
  obtain ⟨tr, E, h1, h2, h3, h4, ⟨L, rfl⟩, -, h6⟩ := tree_core (WOps.ofOrder (-1)) sort hsort.perm wt8 (treeInit (WOps.ofOrder (-1)) 6) 8 hN (fun _ => True) trivial (fun _ _ _ _ _ => trivial)
  obtain rfl := Res.ok.inj (htree.symm.trans h1)
  obtain ⟨hg, hr'⟩ := steps_grow h4 h6
  have hgr := steps_greedy h4 (hsort.sorted L) h6
  have hsh : Shape8 (out.tree.e.map fun f => (f.a, f.b)) := by
    refine shape_of hgr hg (fun e he => ?_) (by rw [List.length_map, h3]; rfl)
    obtain ⟨y, hy, rfl⟩ := List.mem_map.1 he
    exact ⟨(hr' y hy).1, (hr' y hy).2.1⟩
  have key := fun tau ht => tau_cross h hr hsh (tau := tau) ht
  refine ⟨key, ?_⟩
  rintro ⟨tau, ht, hR⟩
  obtain ⟨i, j, hij⟩ := key tau ht
  exact hij (hR.symm i j)

/-- **C61 (negation, the output exists).** -/
theorem C61_fails_reached {B C : Type} {O : MatOps} (V : AjEnv ℂ B C ℝ O) {RC : {n m : Nat} → O.C n m → Matrix (Fin n) (Fin m) ℂ → Prop} :
    ∃ (c : Sec) (out : AjOut ℂ ℝ O c.shape.g) (Y : Nat → ℝ → ℂ) (ca cb : Nat → ℂ) (cc : IMat) (Q : Mat (out.tree.e.length * (2 - 1))), secInit 2 8 = .ok c ∧
      spanningTreeOf (exactCOps (Real.pi / 2)) (WOps.ofOrder (-1)) sortByR x8 (treeInit (WOps.ofOrder (-1)) 6) 8 .gc = .ok out.tree ∧ treeYdataInit exact exactTests x8 8 2 out.tree.e = .ok out.data ∧
      symplecticBasis XGcd.std 1 (shiftOracle exact exactTests out.data 2) out.tree.e 2 c.shape.g = .ok (out.loopA, out.loopB) ∧ FreeEdges x8 8 out.tree.e ∧
      AjRight V (fun a z => a = z) RC 2 8 x8 c out Y ca cb cc Q ∧
      ¬ ∃ tau, periodsOf 2 x8 out.tree.e Y c.shape out.loopA * tau = periodsOf 2 x8 out.tree.e Y c.shape out.loopB ∧ IsRiemannMatrix tau := by
  have hc : secInit 2 (8 : Nat) = .ok ⟨2, 8, 2, 3, 1, 1, [3]⟩ := by decide
  obtain ⟨tr, data, al, be, h1, h2, h3, hf, Y, ca, cb, cc, Q, hr⟩ := ajRight_exact V (RC := RC) (lam := Real.pi / 2) (by positivity) .gc (by norm_num) hc x8_inj (N := 6) ⟨fun _ => by norm_num, fun h => absurd (by norm_num) h⟩
  exact ⟨_, ⟨.gc, tr, 0, data, al, be, none, none, none⟩, Y, ca, cb, cc, Q, hc, h1, h2, h3, hf, hr, (C61_fails sortByR_sorts (Real.pi / 2) hc h1 hr).2⟩

end Hcp
