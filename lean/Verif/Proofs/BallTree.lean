import Verif.Proofs.CrossTree
import Verif.Proofs.InterOk
import Verif.Props.GcEdge

/-!
# The intersection matrix computed from balls
-/

namespace Hcp
open Spec

variable {A W : Type} {X : Arith A} {R : A → ℂ → Prop}

/-- The balls are small enough for the directions of edges with a common point: whenever two edges meet, the tests on the quotient `ρ` of their directions answer as follows.
Common start: if `ρ` is decided to lie in the left half plane, then the sign of the argument of `-ρ` and the sign of the imaginary part are decided in the same way, and
otherwise the sign of the imaginary part is decided.  End of the first = start of the second: if `ρ` is decided to lie in the left half plane, the sign of the argument of `-ρ` is decided. -/
structure Resolved (X : Arith A) (T : Tests A) (x : Nat → ℂ) (es : List (Edge W)) (data : List (YData A)) : Prop where
  start : ∀ (k l : Nat) (ek el : Edge W) (yk yl : YData A), k < l → es[k]? = some ek → es[l]? = some el → data[k]? = some yk → data[l]? = some yl → el.a = ek.a →
    (T.reNonpos (X.div yk.ba2 yl.ba2) = true → (T.reNonneg (T.arg (X.neg (X.div yk.ba2 yl.ba2))) = true ↔ T.imNonpos (X.div yk.ba2 yl.ba2) = true)) ∧
    (T.reNonpos (X.div yk.ba2 yl.ba2) = false → (T.imNonpos (X.div yk.ba2 yl.ba2) = true ↔ ((x ek.b - x ek.a) / (x el.b - x ek.a)).im < 0))
  endStart : ∀ (k l : Nat) (ek el : Edge W) (yk yl : YData A), k < l → es[k]? = some ek → es[l]? = some el → data[k]? = some yk → data[l]? = some yl → el.a = ek.b →
    T.reNonpos (X.div yk.ba2 yl.ba2) = true →
      (T.reNonneg (T.arg (X.neg (X.div yk.ba2 yl.ba2))) = true ↔ 0 ≤ ((x ek.a - x ek.b) / (x el.b - x ek.b)).arg)

/-- no segment of the list passes through a third point -/
def FreeEdges (x : Nat → ℂ) (n : Nat) (es : List (Edge W)) : Prop :=
  ∀ f ∈ es, ∀ k < n, k ≠ f.a → k ≠ f.b → ∀ t : ℝ, -1 ≤ t → t ≤ 1 → x k ≠ edgePt (x f.a) (x f.b) t

/-- start of the edge number `k` -/
def startOf (es : List (Edge W)) (k : Nat) : Nat := match es[k]? with | some f => f.a | none => 0
/-- end of the edge number `k` -/
def endOf (es : List (Edge W)) (k : Nat) : Nat := match es[k]? with | some f => f.b | none => 0

theorem startOf_eq {es : List (Edge W)} {k : Nat} (h : k < es.length) : startOf es k = es[k].a := by
  unfold startOf; rw [List.getElem?_eq_getElem h]
theorem endOf_eq {es : List (Edge W)} {k : Nat} (h : k < es.length) : endOf es k = es[k].b := by
  unfold endOf; rw [List.getElem?_eq_getElem h]

theorem plainTree_balls (E : Encloses X exact R) {T : Tests A} (hT : SoundTests T R) {x' : Nat → ℂ} {n m : Nat} (hm : 2 ≤ m)
    (hx : Set.InjOn x' (Set.Iio n)) {es : List (Edge W)} (hes : ∀ ed ∈ es, ed.a < n ∧ ed.b < n) (hgr : GrowsAsTree (es.map fun f => (f.a, f.b)))
    (hfree : FreeEdges x' n es) {data : List (YData A)} (hlen : data.length = es.length) {u : Nat → Nat → ℂ} (hu : ExactData R m n x' es data u)
    (hres : Resolved X T x' es data) {c : IMat} (hc : intersectionTree (shiftOracle X T data m) es m = .ok c) :
    PlainTree m es.length (startOf es) (endOf es) (fun k => u k (n - 2)) (fun k => u k (n + 1)) (fun k => u k (n + 2)) c := by
  have hm0 : 0 < m := by omega
  set ps := es.map fun f => (f.a, f.b) with hps
  have hpl : ps.length = es.length := by simp [hps]
  have hpa : ∀ k, (h : k < es.length) → (ps[k]'(by omega)).1 = es[k].a := fun k h => by simp [hps]
  have hpb : ∀ k, (h : k < es.length) → (ps[k]'(by omega)).2 = es[k].b := fun k h => by simp [hps]
  have hne : ∀ k, (h : k < es.length) → es[k].a ≠ es[k].b := fun k h => by
    have := (hgr k (by omega)).1
    rwa [hpa k h, hpb k h] at this
  have hstart : ∀ k, (h : k < es.length) → es[k].a = (es[0]'(by omega)).a ∨ ∃ j, ∃ hj : j < k, es[k].a = (es[j]'(by omega)).b := by
    intro k hk
    rcases growsAsTree_start hgr (by omega) k (by omega) with q | ⟨j, hj, q⟩
    · left; rw [hpa k hk, hpa 0 (by omega)] at q; exact q
    · right; rw [hpa k hk, hpb j (by omega)] at q; exact ⟨j, hj, q⟩
  have hnew : ∀ k, (h : k < es.length) → es[k].b ≠ (es[0]'(by omega)).a ∧ ∀ j, (hj : j < k) → es[k].b ≠ (es[j]'(by omega)).b := by
    intro k hk
    obtain ⟨q1, q2⟩ := growsAsTree_new hgr (by omega) k (by omega)
    refine ⟨?_, fun j hj => ?_⟩
    · rw [hpb k hk, hpa 0 (by omega)] at q1; exact q1
    · have := q2 j hj
      rw [hpb k hk, hpb j (by omega)] at this; exact this
  have hab : ∀ k l, (hkl : k ≤ l) → (hl : l < es.length) → (es[k]'(by omega)).a ≠ es[l].b := by
    intro k l hkl hl e
    rcases Nat.lt_or_ge k l with h | h
    · rcases hstart k (by omega) with g | ⟨j, hj, g⟩
      · exact (hnew l hl).1 (e.symm.trans g)
      · exact (hnew l hl).2 j (by omega) (e.symm.trans g)
    · obtain rfl : k = l := by omega
      exact hne k hl e
  have hdat : ∀ k, (hk : k < es.length) → ∃ yd, data[k]? = some yd ∧ yd.n = n ∧ (∀ i, R (yd.u i) (u k i)) ∧ EdgeData m n x' es[k].a es[k].b yd.n1 (u k) := by
    intro k hk
    have hk' : k < data.length := by omega
    exact ⟨data[k], List.getElem?_eq_getElem hk', hu k es[k] data[k] (List.getElem?_eq_getElem hk) (List.getElem?_eq_getElem hk')⟩
  have hnz : ∀ k, (hk : k < es.length) → u k (n - 2) ≠ 0 ∧ u k (n + 1) ≠ 0 ∧ u k (n + 2) ≠ 0 := by
    intro k hk
    obtain ⟨yd, -, -, -, hE⟩ := hdat k hk
    obtain ⟨v1, v2⟩ := hes es[k] (List.getElem_mem hk)
    exact edge_ne_zero (y := ⟨m, n, yd.n1, u k⟩) hm0 hx v1 v2 (hne k hk) rfl hE
  set o := shiftOracle X T data m with ho
  have hs := shifts_of_ok hc
  obtain ⟨c', hc', hcc⟩ := C13_intersection_table o es hm hs
  obtain rfl := Res.ok.inj (hc.symm.trans hc')
  have hok := interLoop_ok (by unfold intersectionTree at hc; exact hc)
  refine ⟨?_, ?_, fun k hk => (hnz k hk).1, fun k hk => (hnz k hk).2.1, fun k hk => (hnz k hk).2.2, fun k hk α hα β hβ => by rw [hcc k k α β hk hk hα hβ, if_pos rfl], ?_, ?_, ?_, ?_⟩
  · intro k hk
    rw [startOf_eq hk, startOf_eq (by omega)]
    rcases hstart k hk with q | ⟨j, hj, q⟩
    · exact Or.inl q
    · exact Or.inr ⟨j, hj, by rw [endOf_eq (by omega)]; exact q⟩
  · intro k hk
    rw [endOf_eq hk, startOf_eq (by omega)]
    obtain ⟨q1, q2⟩ := hnew k hk
    exact ⟨q1, fun j hj => by rw [endOf_eq (by omega)]; exact q2 j hj⟩
  · obtain ⟨c2, hc2, ha⟩ := C13_antisymmetric_small o es hm hs
    obtain rfl := Res.ok.inj (hc.symm.trans hc2)
    exact fun i j hi hj => (ha i j hi hj).1
  · intro k l hkl hl heq
    have hk : k < es.length := by omega
    rw [startOf_eq hl, startOf_eq hk] at heq
    obtain ⟨yk, gk, nk, rk, ek⟩ := hdat k hk
    obtain ⟨yl, gl, nl, rl, el⟩ := hdat l hl
    obtain ⟨v1, v2⟩ := hes es[k] (List.getElem_mem hk)
    obtain ⟨w1, w2⟩ := hes es[l] (List.getElem_mem hl)
    have v3 := hne k hk
    have w3 := hne l hl
    have hbb : es[l].b ≠ es[k].b := (hnew l hl).2 k hkl
    obtain ⟨s, hs'⟩ := (hok k l es[k] es[l] hkl (List.getElem?_eq_getElem hk) (List.getElem?_eq_getElem hl)).1 heq
    rw [Nat.zero_add, Nat.zero_add] at hs'
    have hs2 : shiftAD X T yk yl m = .ok s := by rw [ho] at hs'; simpa only [shiftOracle, gk, gl] using hs'
    obtain ⟨r1, r2⟩ := hres.start k l es[k] es[l] yk yl hkl (List.getElem?_eq_getElem hk) (List.getElem?_eq_getElem hl) gk gl heq
    rw [heq] at el w3
    have hov : ¬ ∃ r : ℝ, 0 < r ∧ (x' es[k].b - x' es[k].a) / (x' es[l].b - x' es[k].a) = r := by
      refine no_overlap (fun h => v3 (hx v2 v1 h).symm) (fun h => w3 (hx w2 v1 h).symm) ?_ ?_
      · have := hfree es[l] (List.getElem_mem _) es[k].b v2 (by rw [heq]; exact v3.symm) hbb.symm
        rwa [heq] at this
      · exact hfree es[k] (List.getElem_mem _) es[l].b w2 w3.symm hbb
    obtain ⟨S, g1, g2⟩ := C14_common_start E hT hm0 hx v1 v2 w2 v3 w3 nk nl rk rl ek el hov r1 r2 hs2
    refine ⟨S, g1, fun α hα β hβ => ?_⟩
    rw [hcc k l α β hk hl hα hβ, if_neg (by omega), if_pos hkl]
    have hn : o.neg k l = isNegAbad X T yk.ba2 yl.ba2 := by rw [ho]; simp only [shiftOracle, gk, gl]
    simp only [hs', hn, Spec.meetOf, if_pos heq]
    exact g2 α β
  · intro k l hkl hl heq
    have hk : k < es.length := by omega
    rw [startOf_eq hl, endOf_eq hk] at heq
    obtain ⟨yk, gk, nk, rk, ek⟩ := hdat k hk
    obtain ⟨yl, gl, nl, rl, el⟩ := hdat l hl
    obtain ⟨v1, v2⟩ := hes es[k] (List.getElem_mem hk)
    obtain ⟨w1, w2⟩ := hes es[l] (List.getElem_mem hl)
    have v3 := hne k hk
    have w3 := hne l hl
    have hba : es[l].b ≠ es[k].a := fun h => hab k l hkl.le hl h.symm
    have hne' : es[l].a ≠ es[k].a := fun h => v3 (h.symm.trans heq)
    obtain ⟨s, hs'⟩ := (hok k l es[k] es[l] hkl (List.getElem?_eq_getElem hk) (List.getElem?_eq_getElem hl)).2 hne' heq
    rw [Nat.zero_add, Nat.zero_add] at hs'
    have hs2 : shiftBD X T yk yl m = .ok s := by rw [ho] at hs'; simpa only [shiftOracle, gk, gl] using hs'
    have r1 := hres.endStart k l es[k] es[l] yk yl hkl (List.getElem?_eq_getElem hk) (List.getElem?_eq_getElem hl) gk gl heq
    rw [heq] at el w3
    have hov : ¬ ∃ r : ℝ, 0 < r ∧ (x' es[k].a - x' es[k].b) / (x' es[l].b - x' es[k].b) = r := by
      refine no_overlap (fun h => v3 (hx v1 v2 h)) (fun h => w3 (hx w2 v2 h).symm) ?_ ?_
      · have := hfree es[l] (List.getElem_mem _) es[k].a v1 (by rw [heq]; exact v3) hba.symm
        rwa [heq] at this
      · intro t h1 h2
        have := hfree es[k] (List.getElem_mem _) es[l].b w2 hba w3.symm (-t) (by linarith) (by linarith)
        rw [edgePt_swap]
        simpa using this
    obtain ⟨S, g1, g2⟩ := C14_end_start E hT hm hx v1 v2 w2 v3 w3 nk nl rk rl ek el hov r1 hs2
    refine ⟨S, g1, fun α hα β hβ => ?_⟩
    rw [hcc k l α β hk hl hα hβ, if_neg (by omega), if_pos hkl]
    simp only [hs', Spec.meetOf, if_neg hne', if_pos heq]
    exact g2 α β
  · intro k l hkl hl h1 h2 α hα β hβ
    have hk : k < es.length := by omega
    rw [startOf_eq hl, startOf_eq hk] at h1
    rw [startOf_eq hl, endOf_eq hk] at h2
    rw [hcc k l α β hk hl hα hβ, if_neg (by omega), if_pos hkl]
    simp only [Spec.meetOf, if_neg h1, if_neg h2]
    rfl

/-- exact numbers are always resolved -/
theorem resolved_exact {x : Nat → ℂ} {n m : Nat} (hx : Set.InjOn x (Set.Iio n)) {es : List (Edge W)} (hes : ∀ ed ∈ es, ed.a < n ∧ ed.b < n)
    (hgr : GrowsAsTree (es.map fun f => (f.a, f.b))) (hfree : FreeEdges x n es) {data : List (YData ℂ)}
    (hu : ∀ (k : Nat) (ed : Edge W) (yd : YData ℂ), es[k]? = some ed → data[k]? = some yd → yd.n = n ∧ EdgeData m n x ed.a ed.b yd.n1 yd.u) : Resolved exact exactTests x es data := by
  set ps := es.map fun f => (f.a, f.b) with hps
  have hpl : ps.length = es.length := by simp [hps]
  have hne : ∀ (k : Nat) (ek : Edge W), es[k]? = some ek → ek.a ≠ ek.b := by
    intro k ek hk
    obtain ⟨h, rfl⟩ := List.getElem?_eq_some_iff.1 hk
    have := (hgr k (by omega)).1
    simpa [hps] using this
  constructor
  · intro k l ek el yk yl hkl hk hl gk gl heq
    obtain ⟨n1, d1⟩ := hu k ek yk hk gk
    obtain ⟨n2, d2⟩ := hu l el yl hl gl
    have v3 := hne k ek hk
    have w3 := hne l el hl
    have hbb : el.b ≠ ek.b := by
      obtain ⟨h, rfl⟩ := List.getElem?_eq_some_iff.1 hk
      obtain ⟨h', rfl⟩ := List.getElem?_eq_some_iff.1 hl
      have := (growsAsTree_new hgr (by omega) l (by omega)).2 k hkl
      simpa [hps] using this
    obtain ⟨v1, v2⟩ := hes ek (List.mem_of_getElem? hk)
    obtain ⟨w1, w2⟩ := hes el (List.mem_of_getElem? hl)
    have hfl := hfree el (List.mem_of_getElem? hl) ek.b v2 (by rw [heq]; exact v3.symm) hbb.symm
    have hfk := hfree ek (List.mem_of_getElem? hk) el.b w2 (by rw [← heq]; exact w3.symm) hbb
    rw [heq] at d2 w3 hfl
    have hov : ¬ ∃ r : ℝ, 0 < r ∧ (x ek.b - x ek.a) / (x el.b - x ek.a) = r :=
      no_overlap (fun h => v3 (hx v2 v1 h).symm) (fun h => w3 (hx w2 v1 h).symm) hfl hfk
    have hz : yk.ba2 / yl.ba2 = (x ek.b - x ek.a) / (x el.b - x ek.a) := by
      unfold YData.ba2
      rw [n1, n2, d1.ba2, d2.ba2]; field_simp
    constructor
    · intro _
      show decide (0 ≤ ((Complex.arg (-(yk.ba2 / yl.ba2)) : ℝ) : ℂ).re) = true ↔ decide ((yk.ba2 / yl.ba2).im ≤ 0) = true
      rw [decide_eq_true_iff, decide_eq_true_iff, Complex.ofReal_re, Complex.arg_nonneg_iff, Complex.neg_im]
      constructor <;> intro h <;> linarith
    · intro h0
      have h0' : ¬ (yk.ba2 / yl.ba2).re ≤ 0 := by
        change decide ((yk.ba2 / yl.ba2).re ≤ 0) = false at h0
        exact of_decide_eq_false h0
      show decide ((yk.ba2 / yl.ba2).im ≤ 0) = true ↔ _
      rw [decide_eq_true_iff, hz]
      rw [hz] at h0'
      constructor
      · intro h
        refine lt_of_le_of_ne h fun h3 => hov ⟨_, not_le.1 h0', Complex.ext rfl (by rw [h3, Complex.ofReal_im])⟩
      · exact le_of_lt
  · intro k l ek el yk yl hkl hk hl gk gl heq _
    obtain ⟨n1, d1⟩ := hu k ek yk hk gk
    obtain ⟨n2, d2⟩ := hu l el yl hl gl
    rw [heq] at d2
    have hz : -(yk.ba2 / yl.ba2) = (x ek.a - x ek.b) / (x el.b - x ek.b) := by
      unfold YData.ba2
      rw [n1, n2, d1.ba2, d2.ba2, ← neg_div, ← neg_div, neg_sub]; field_simp
    show decide (0 ≤ ((Complex.arg (-(yk.ba2 / yl.ba2)) : ℝ) : ℂ).re) = true ↔ _
    rw [decide_eq_true_iff, Complex.ofReal_re, hz]

end Hcp
