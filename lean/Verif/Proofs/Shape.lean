import Verif.Model.Constants
import Verif.Spec.Edge
import Verif.Props.Curve

/-! # The descriptor computed by `sec_init`, as used by the numerical routines -/

namespace Hcp

/-- what the numerical routines rely on -/
structure Shape.Good (c : Shape) : Prop where
  m : 2 ≤ c.m
  j1 : 1 ≤ c.j1
  len : c.j1 + c.ni.length = c.m
  sum : c.ni.sum = c.g
  pos : ∀ k ∈ c.ni, 0 < k

theorem sum_map_toNat : ∀ (l : List Int), (∀ x ∈ l, 0 ≤ x) → ((l.map Int.toNat).sum : Int) = l.sum
  | [], _ => rfl
  | a :: l, h => by
    have := sum_map_toNat l fun x hx => h x (by simp [hx])
    have h0 := h a (by simp)
    simp only [List.map_cons, List.sum_cons]
    omega

theorem shape_good {m n : Int} {c : Sec} (hn : 2 ≤ n) (h : secInit m n = .ok c) : c.shape.Good := by
  obtain ⟨hm, e1, e2, eδ, eg, ej, enj, hnj, eni⟩ := secInit_fields h hn
  obtain ⟨hg, hs, hl⟩ := C01_differentials_sum_to_genus hn h
  have hb := fun l hl => C02_blocks_nonempty (l := l) hn h hl
  have hδ0 : 0 < c.delta := by
    rw [eδ]; exact_mod_cast Int.gcd_pos_of_ne_zero_left _ (by omega)
  have hj1 : 1 ≤ c.j1 := by
    rw [ej]
    have := Int.ediv_nonneg (a := m + c.delta - 1) (b := n) (by omega) (by omega); omega
  have hlen : (c.ni.length : Int) = c.nj := hl
  have hsum := sum_map_toNat c.ni fun x hx => by have := hb x hx; omega
  refine ⟨?_, ?_, ?_, ?_, ?_⟩
  · simp only [Sec.shape]; omega
  · simp only [Sec.shape]; omega
  · simp only [Sec.shape, List.length_map]; omega
  · simp only [Sec.shape]; omega
  · intro k hk
    simp only [Sec.shape, List.mem_map] at hk
    obtain ⟨a, ha, rfl⟩ := hk
    have := hb a ha
    omega

theorem diffOf_spec : ∀ (ni : List Nat) (j r : Nat), r < ni.sum →
    ∃ k nij i, ni[k]? = some nij ∧ i < nij ∧ r = (ni.take k).sum + i ∧
      Spec.diffOf ni j r = (i, j + k)
  | [], _, _, h => by simp at h
  | n :: rest, j, r, h => by
    by_cases hr : r < n
    · exact ⟨0, n, r, rfl, hr, by simp, by simp [Spec.diffOf, hr]⟩
    · simp only [List.sum_cons] at h
      obtain ⟨k, nij, i, h1, h2, h3, h4⟩ := diffOf_spec rest (j + 1) (r - n) (by omega)
      refine ⟨k + 1, nij, i, by simpa using h1, h2, ?_, ?_⟩
      · simp only [List.take_succ_cons, List.sum_cons]; omega
      · rw [Spec.diffOf, if_neg hr, h4, show j + 1 + k = j + (k + 1) by omega]

theorem take_sum_le : ∀ (ni : List Nat) (k nij : Nat), ni[k]? = some nij →
    (ni.take k).sum + nij ≤ ni.sum
  | [], _, _, h => by simp at h
  | n :: rest, 0, nij, h => by simp at h; simp [h]
  | n :: rest, k + 1, nij, h => by
    have := take_sum_le rest k nij (by simpa using h)
    simp only [List.take_succ_cons, List.sum_cons]
    omega

theorem diffOf_block : ∀ (ni : List Nat) (j k nij i : Nat), ni[k]? = some nij → i < nij →
    Spec.diffOf ni j ((ni.take k).sum + i) = (i, j + k)
  | [], _, _, _, _, h, _ => by simp at h
  | n :: rest, j, 0, nij, i, h, hi => by
    simp at h; simp [Spec.diffOf, h, hi]
  | n :: rest, j, k + 1, nij, i, h, hi => by
    have := diffOf_block rest (j + 1) k nij i (by simpa using h) hi
    rw [show ((n :: rest).take (k + 1)).sum = n + (rest.take k).sum by simp, Spec.diffOf,
      if_neg (by omega), show n + (rest.take k).sum + i - n = (rest.take k).sum + i by omega, this,
      show j + 1 + k = j + (k + 1) by omega]

theorem diffOf_exp {c : Shape} (hc : c.Good) {r : Nat} (hr : r < c.g) :
    1 ≤ (Spec.diffOf c.ni c.j1 r).2 ∧ (Spec.diffOf c.ni c.j1 r).2 < c.m := by
  obtain ⟨k, nij, i, h1, h2, h3, h4⟩ := diffOf_spec c.ni c.j1 r (by rw [hc.sum]; exact hr)
  rw [h4]
  have := (List.getElem?_eq_some_iff.1 h1).1
  have := hc.len
  have := hc.j1
  simp only; omega

end Hcp
