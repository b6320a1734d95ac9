import Verif.Model.Homology
import Verif.Spec.Homology
import Verif.Props.Symplectic
import Verif.Props.Intersection

/-! # The sparse encoding of rows as loops -/

namespace Hcp

/-- positions of the non-zero entries from `j` on -/
def nz (row : Nat → Int) (len j : Nat) : List Nat :=
  (List.range' j (len - j)).filter fun k => row k ≠ 0

theorem nz_end {row : Nat → Int} {len j : Nat} (h : len ≤ j) : nz row len j = [] := by
  simp [nz, Nat.sub_eq_zero_of_le h]

theorem nz_step {row : Nat → Int} {len j : Nat} (h : j < len) :
    nz row len j = if row j ≠ 0 then j :: nz row len (j + 1) else nz row len (j + 1) := by
  unfold nz
  rw [show len - j = (len - (j + 1)) + 1 by omega, List.range'_succ, List.filter_cons]
  by_cases h0 : row j = 0 <;> simp [h0]

theorem countCoeffs_eq (row : Nat → Int) (len : Nat) : ∀ (d j c : Nat), len - j = d →
    countCoeffs row d j c = c + (nz row len j).length
  | 0, j, c, h => by
    rw [countCoeffs, nz_end (by omega)]; rfl
  | d + 1, j, c, h => by
    rw [countCoeffs, countCoeffs_eq row len d (j + 1) _ (by omega), nz_step (j := j) (by omega)]
    by_cases h0 : row j = 0
    · simp [h0]
    · simp [h0]; omega

theorem skipZero_eq (row : Nat → Int) (len : Nat) : ∀ (d j : Nat), len - j = d →
    ∀ {k rest}, nz row len j = k :: rest → skipZero row d j = .ok k ∧ nz row len (k + 1) = rest
  | 0, j, h, k, rest, hn => by rw [nz_end (by omega)] at hn; cases hn
  | d + 1, j, h, k, rest, hn => by
    rw [nz_step (by omega)] at hn
    rw [skipZero]
    by_cases h0 : row j = 0
    · rw [if_neg (by simp [h0])] at hn
      rw [if_pos h0]
      exact skipZero_eq row len d (j + 1) (by omega) hn
    · rw [if_pos h0] at hn
      rw [if_neg h0]
      simp only [List.cons.injEq] at hn
      obtain ⟨rfl, rfl⟩ := hn
      exact ⟨rfl, rfl⟩

/-- the term stored for position `j` -/
def termAt (row : Nat → Int) (m1 j : Nat) : Gamma := ⟨row j, j % m1, j / m1⟩

theorem setLoops_eq (row : Nat → Int) (len : Nat) {m1 : Nat} (hm : 0 < m1) : ∀ (l : List Nat) (j : Nat),
    nz row len j = l →
    ((∀ k ∈ l, FitsSlong (row k)) → setLoops row len m1 l.length j = .ok (l.map (termAt row m1))) ∧
    (¬ (∀ k ∈ l, FitsSlong (row k)) →
      setLoops row len m1 l.length j = .abort "coefficient too large in basis")
  | [], j, h => ⟨fun _ => rfl, fun h => absurd (by simp) h⟩
  | k :: rest, j, h => by
    obtain ⟨e1, e2⟩ := skipZero_eq row len _ j rfl h
    obtain ⟨i1, i2⟩ := setLoops_eq row len hm rest (k + 1) e2
    constructor
    · intro hf
      have hk : FitsSlong (row k) := hf k (by simp)
      simp only [List.length_cons, setLoops, e1, Res.ok_bind, hk, not_true, if_false,
        if_neg (show ¬ m1 = 0 by omega), i1 (fun x hx => hf x (by simp [hx])), List.map_cons]
      rfl
    · intro hf
      by_cases hk : FitsSlong (row k)
      · have : ¬ ∀ x ∈ rest, FitsSlong (row x) := fun hr => hf fun x hx => by
          rcases List.mem_cons.1 hx with rfl | hx
          · exact hk
          · exact hr x hx
        simp only [List.length_cons, setLoops, e1, Res.ok_bind, hk, not_true, if_false,
          if_neg (show ¬ m1 = 0 by omega), i2 this]
        rfl
      · simp only [List.length_cons, setLoops, e1, Res.ok_bind, hk, not_false_eq_true, if_true]

/-- row `i` of a matrix as an infinite sequence -/
def rowOf {r : Nat} (p : Mat r) (i : Fin r) : Nat → Int := fun j => if hj : j < r then p i ⟨j, hj⟩ else 0

theorem mem_nz {row : Nat → Int} {len k : Nat} : k ∈ nz row len 0 ↔ k < len ∧ row k ≠ 0 := by
  simp [nz]

/-- loop number `i` -/
def loopOf {r : Nat} (p : Mat r) (m1 : Nat) (i : Fin r) : List Gamma :=
  (nz (rowOf p i) r 0).map (termAt (rowOf p i) m1)

theorem basisLoop_eq {r : Nat} (p : Mat r) {m1 : Nat} (hm : 0 < m1) (i : Fin r) :
    ((∀ j, FitsSlong (p i j)) → basisLoop p m1 i.val = .ok (loopOf p m1 i)) ∧
    (¬ (∀ j, FitsSlong (p i j)) → basisLoop p m1 i.val = .abort "coefficient too large in basis") := by
  have hz : FitsSlong 0 := by decide
  have key : (∀ k ∈ nz (rowOf p i) r 0, FitsSlong (rowOf p i k)) ↔ ∀ j, FitsSlong (p i j) := by
    constructor
    · intro h j
      by_cases h0 : p i j = 0
      · rw [h0]; exact hz
      · have := h j.val (mem_nz.2 ⟨j.isLt, by simp [rowOf, h0]⟩)
        simpa [rowOf] using this
    · intro h k hk
      have := (mem_nz.1 hk).1
      simp only [rowOf, this, dif_pos]
      exact h _
  obtain ⟨h1, h2⟩ := setLoops_eq (rowOf p i) r hm _ 0 rfl
  have hc : countCoeffs (rowOf p i) r 0 0 = (nz (rowOf p i) r 0).length := by
    rw [countCoeffs_eq _ r r 0 0 rfl, Nat.zero_add]
  constructor
  · intro h
    unfold basisLoop
    rw [dif_pos i.isLt]
    have := h1 (key.2 h)
    rw [← hc] at this
    exact this
  · intro h
    unfold basisLoop
    rw [dif_pos i.isLt]
    have := h2 (fun g => h (key.1 g))
    rw [← hc] at this
    exact this

/-- all coefficients of the first `2g` rows fit -/
def RowsFit {r : Nat} (p : Mat r) (lo hi : Nat) : Prop :=
  ∀ i j : Fin r, lo ≤ i.val → i.val < hi → FitsSlong (p i j)

theorem basisLoops_ok {r : Nat} (p : Mat r) {m1 : Nat} (hm : 0 < m1) : ∀ (cnt i : Nat),
    2 * (i + cnt) ≤ r → RowsFit p (2 * i) (2 * (i + cnt)) →
    ∃ al be, basisLoops p m1 cnt i = .ok (al, be) ∧ al.length = cnt ∧ be.length = cnt ∧
      ∀ k (_ : k < cnt) (h : 2 * (i + k) + 1 < r),
        al[k]? = some (loopOf p m1 ⟨2 * (i + k), by omega⟩) ∧
        be[k]? = some (loopOf p m1 ⟨2 * (i + k) + 1, h⟩)
  | 0, i, _, _ => ⟨[], [], rfl, rfl, rfl, by intro k hk; omega⟩
  | cnt + 1, i, hr, hf => by
    have e1 := (basisLoop_eq p hm ⟨2 * i, by omega⟩).1 fun j => hf _ j le_rfl (by simp)
    have e2 := (basisLoop_eq p hm ⟨2 * i + 1, by omega⟩).1 fun j => hf _ j (by simp) (by simp; omega)
    obtain ⟨al, be, e3, h1, h2, h3⟩ := basisLoops_ok p hm cnt (i + 1) (by omega)
      (fun a j ha hb => hf a j (by omega) (by omega))
    refine ⟨loopOf p m1 ⟨2 * i, by omega⟩ :: al, loopOf p m1 ⟨2 * i + 1, by omega⟩ :: be,
      by simp only [basisLoops, e1, e2, e3, Res.ok_bind], by simp [h1],
      by simp [h2], ?_⟩
    intro k hk h
    cases k with
    | zero => exact ⟨rfl, rfl⟩
    | succ k =>
      have := h3 k (by omega) (by omega)
      simp only [List.getElem?_cons_succ, show i + (k + 1) = i + 1 + k by omega]
      exact this

theorem basisLoops_abort {r : Nat} (p : Mat r) {m1 : Nat} (hm : 0 < m1) : ∀ (cnt i : Nat),
    2 * (i + cnt) ≤ r → ¬ RowsFit p (2 * i) (2 * (i + cnt)) →
    basisLoops p m1 cnt i = .abort "coefficient too large in basis"
  | 0, i, _, hf => absurd (fun a j _ _ => by omega) hf
  | cnt + 1, i, hr, hf => by
    by_cases f1 : ∀ j, FitsSlong (p ⟨2 * i, by omega⟩ j)
    · have e1 := (basisLoop_eq p hm ⟨2 * i, by omega⟩).1 f1
      by_cases f2 : ∀ j, FitsSlong (p ⟨2 * i + 1, by omega⟩ j)
      · have e2 := (basisLoop_eq p hm ⟨2 * i + 1, by omega⟩).1 f2
        have e3 := basisLoops_abort p hm cnt (i + 1) (by omega) (fun g => hf fun a j ha hb => by
          rcases Nat.lt_or_ge a.val (2 * (i + 1)) with h | h
          · rcases (by omega : a.val = 2 * i ∨ a.val = 2 * i + 1) with h | h
            · have : a = ⟨2 * i, by omega⟩ := Fin.ext h
              rw [this]; exact f1 j
            · have : a = ⟨2 * i + 1, by omega⟩ := Fin.ext h
              rw [this]; exact f2 j
          · exact g a j h (by omega))
        simp only [basisLoops, e1, e2, e3, Res.ok_bind, Res.abort_bind]
      · have e2 := (basisLoop_eq p hm ⟨2 * i + 1, by omega⟩).2 f2
        simp only [basisLoops, e1, e2, Res.ok_bind, Res.abort_bind]
    · have e1 := (basisLoop_eq p hm ⟨2 * i, by omega⟩).2 f1
      simp only [basisLoops, e1, Res.abort_bind]

/-- a loop as a chain of the specification -/
def toChain (l : List Gamma) : Spec.Chain := l.map fun t => (t.coeff, (t.index, t.shift))

theorem sum_nz (row : Nat → Int) (f : Nat → Int) (len : Nat) (hf : ∀ k, row k = 0 → f k = 0) :
    ∀ (d j : Nat), len - j = d → ((nz row len j).map f).sum = ((List.range' j d).map f).sum
  | 0, j, h => by rw [nz_end (by omega)]; rfl
  | d + 1, j, h => by
    rw [nz_step (by omega), List.range'_succ, List.map_cons, List.sum_cons,
      ← sum_nz row f len hf d (j + 1) (by omega)]
    by_cases h0 : row j = 0
    · rw [if_neg (by simp [h0]), hf j h0, zero_add]
    · rw [if_pos h0, List.map_cons, List.sum_cons]

theorem sum_range_fin {r : Nat} (f : Nat → Int) :
    ((List.range' 0 r).map f).sum = ∑ a : Fin r, f a.val := by
  rw [Fin.sum_univ_eq_sum_range (fun a => f a), ← List.range_eq_range']
  rw [Finset.sum_range]
  rw [← List.sum_ofFn]
  congr 1
  apply List.ext_getElem
  · simp
  · intro i h1 h2; simp

theorem sum_loopOf {r : Nat} (p : Mat r) {m1 : Nat} (i : Fin r) (F : Int → Nat × Nat → Int)
    (hF : ∀ k, F 0 k = 0) :
    ((toChain (loopOf p m1 i)).map fun t => F t.1 t.2).sum =
      ∑ a : Fin r, F (p i a) (a.val / m1, a.val % m1) := by
  unfold toChain loopOf
  rw [List.map_map, List.map_map]
  have : (((fun t : Int × (Nat × Nat) => F t.1 t.2) ∘ fun t : Gamma => (t.coeff, (t.index, t.shift))) ∘
      termAt (rowOf p i) m1) = fun k => F (rowOf p i k) (k / m1, k % m1) := rfl
  rw [this, sum_nz _ _ r (fun k h => by rw [h, hF]) r 0 rfl, sum_range_fin]
  apply Finset.sum_congr rfl
  intro a _
  simp [rowOf]

theorem pair_loopOf {r : Nat} (p : Mat r) {m1 : Nat} (i i' : Fin r)
    (I : Nat × Nat → Nat × Nat → Int) :
    Spec.Chain.pair I (toChain (loopOf p m1 i)) (toChain (loopOf p m1 i')) =
      ∑ a : Fin r, ∑ b : Fin r, p i a * p i' b * I (a.val / m1, a.val % m1) (b.val / m1, b.val % m1) := by
  unfold Spec.Chain.pair
  rw [sum_loopOf p i (fun c k => ((toChain (loopOf p m1 i')).map fun u => c * u.1 * I k u.2).sum)
    (fun k => by simp)]
  apply Finset.sum_congr rfl
  intro a _
  rw [sum_loopOf p i' (fun c k => p i a * c * I (a.val / m1, a.val % m1) k) (fun k => by simp)]

end Hcp
