import Verif.Proofs.TreeRank
import Verif.Proofs.PUReduce
import Mathlib.LinearAlgebra.Matrix.Block
import Mathlib.LinearAlgebra.Matrix.ToLinearEquiv
import Mathlib.Data.Finset.Sort
import Mathlib.Data.ZMod.Basic
import Mathlib.Algebra.Field.ZMod

/-!
# Principal minors of the intersection matrix of a hyperelliptic tree

A set of edges of a plane tree is a disjoint union of trees; the matrix of a tree has the same rank over every field.
-/

namespace Hcp
open Spec

/-- a square integer matrix with the same rank over every field has determinant `0` or `±1` -/
theorem det_of_rank {n s : Nat} (A : Matrix (Fin n) (Fin n) ℤ) (h : ∀ (F : Type) [Field F], (A.map (Int.cast : ℤ → F)).rank = s) : A.det.natAbs ≤ 1 := by
  have hdet : ∀ (F : Type) [Field F], (A.map (Int.cast : ℤ → F)).det = (A.det : F) := by
    intro F _
    have := (Int.castRingHom F).map_det A
    simpa [RingHom.mapMatrix_apply] using this.symm
  by_cases h0 : A.det = 0
  · rw [h0]; decide
  · have hs : s = n := by
      rw [← h ℚ, Matrix.rank_of_det_ne_zero, Fintype.card_fin]
      rw [hdet]; exact_mod_cast h0
    by_contra hc
    obtain ⟨p, hp, hd⟩ := Nat.exists_prime_and_dvd (n := A.det.natAbs) (by omega)
    have : Fact p.Prime := ⟨hp⟩
    have hz : (A.map (Int.cast : ℤ → ZMod p)).det = 0 := by
      rw [hdet, ZMod.intCast_zmod_eq_zero_iff_dvd]
      exact Int.natCast_dvd.2 hd
    obtain ⟨v, hv, hv0⟩ := Matrix.exists_mulVec_eq_zero_iff.2 hz
    have hr := LinearMap.finrank_range_add_finrank_ker (A.map (Int.cast : ℤ → ZMod p)).mulVecLin
    have e : Module.finrank (ZMod p) (LinearMap.range (A.map (Int.cast : ℤ → ZMod p)).mulVecLin) = n := (h (ZMod p)).trans hs
    rw [e, Module.finrank_fintype_fun_eq_card, Fintype.card_fin] at hr
    have hk : LinearMap.ker (A.map (Int.cast : ℤ → ZMod p)).mulVecLin = ⊥ := Submodule.finrank_eq_zero.1 (by omega)
    have : v ∈ LinearMap.ker (A.map (Int.cast : ℤ → ZMod p)).mulVecLin := hv0
    rw [hk] at this
    exact hv this

/-- the intersection matrix of a part of a tree of a hyperelliptic curve -/
structure Forest (N : Nat) (a b : Nat → Nat) (d Ya Yb : Nat → ℂ) (c : Nat → Nat → ℤ) : Prop where
  ab : ∀ k l, k ≤ l → l < N → a k ≠ b l
  bb : ∀ k l, k < l → l < N → b k ≠ b l
  hd : ∀ k < N, d k ≠ 0
  hYa : ∀ k < N, Ya k ≠ 0
  hYb : ∀ k < N, Yb k ≠ 0
  self : ∀ k < N, c k k = 0
  anti : ∀ k l, k < N → l < N → c k l = - c l k
  h1 : ∀ k l, k < l → l < N → a l = a k → ∃ S, Spec.SheetGap 2 (d k) (d l) (Ya k) (Ya l) S ∧ c k l = Spec.localNumber 2 0 0 S
  h2 : ∀ k l, k < l → l < N → a l = b k → ∃ S, Spec.SheetGap 2 (-d k) (d l) (Yb k) (Ya l) S ∧ c k l = - Spec.localNumber 2 0 0 S
  h3 : ∀ k l, k < l → l < N → a l ≠ a k → a l ≠ b k → c k l = 0

section
variable {N : Nat} {a b : Nat → Nat} {d Ya Yb : Nat → ℂ} {c : Nat → Nat → ℤ}

theorem Forest.sub (h : Forest N a b d Ya Yb c) {n : Nat} {f : Nat → Nat} (hlt : ∀ k < n, f k < N) (hmono : ∀ k l, k < l → l < n → f k < f l) :
    Forest n (a ∘ f) (b ∘ f) (d ∘ f) (Ya ∘ f) (Yb ∘ f) (fun i j => c (f i) (f j)) where
  ab k l hkl hl := by
    rcases eq_or_lt_of_le hkl with rfl | g
    · exact h.ab _ _ le_rfl (hlt _ hl)
    · exact h.ab _ _ (hmono k l g hl).le (hlt _ hl)
  bb k l hkl hl := h.bb _ _ (hmono k l hkl hl) (hlt _ hl)
  hd k hk := h.hd _ (hlt k hk)
  hYa k hk := h.hYa _ (hlt k hk)
  hYb k hk := h.hYb _ (hlt k hk)
  self k hk := h.self _ (hlt k hk)
  anti k l hk hl := h.anti _ _ (hlt k hk) (hlt l hl)
  h1 k l hkl hl e := h.h1 _ _ (hmono k l hkl hl) (hlt _ hl) e
  h2 k l hkl hl e := h.h2 _ _ (hmono k l hkl hl) (hlt _ hl) e
  h3 k l hkl hl e e' := h.h3 _ _ (hmono k l hkl hl) (hlt _ hl) e e'

/-- the tree of the first edge -/
inductive Conn (a b : Nat → Nat) : Nat → Prop
  | start {k} : a k = a 0 → Conn a b k
  | next {j k} : Conn a b j → j < k → a k = b j → Conn a b k

/-- a connected part is a tree -/
theorem Forest.det_conn (h : Forest N a b d Ya Yb c) (hc : ∀ k < N, Conn a b k) :
    (Matrix.of fun k l : Fin N => c k l).det.natAbs ≤ 1 := by
  have hrk : ∀ (F : Type) [Field F], ((Matrix.of fun k l : Fin N => c k l).map (Int.cast : ℤ → F)).rank = N + 1 - Nat.gcd 2 (N + 1) := by
    intro F _
    have := matrix_rank (m := 2) (N := N) (r0 := a 0) (a := a) (b := b) (d := d) (Ya := Ya) (Yb := Yb) (c := (c : IMat)) le_rfl
      (by
        intro k hk
        rcases hc k hk with e | ⟨-, hj, e⟩
        · exact Or.inl e
        · exact Or.inr ⟨_, hj, e⟩)
      (fun k hk => ⟨(h.ab 0 k (Nat.zero_le _) hk).symm, fun j hj => (h.bb j k hj hk).symm⟩) h.hd h.hYa h.hYb
      (by
        intro k hk α hα β hβ
        obtain rfl : α = 0 := by omega
        obtain rfl : β = 0 := by omega
        have hsn : Spec.selfNumber ((0 : Nat) : ℤ) ((0 : Nat) : ℤ) = 0 := rfl
        rw [hsn]
        simpa using h.self k hk)
      (by
        intro i j hi hj
        exact h.anti i j (by omega) (by omega))
      (by
        intro k l hkl hl e
        obtain ⟨S, hS, e2⟩ := h.h1 k l hkl hl e
        refine ⟨S, hS, fun α hα β hβ => ?_⟩
        obtain rfl : α = 0 := by omega
        obtain rfl : β = 0 := by omega
        simpa using e2)
      (by
        intro k l hkl hl e
        obtain ⟨S, hS, e2⟩ := h.h2 k l hkl hl e
        refine ⟨S, hS, fun α hα β hβ => ?_⟩
        obtain rfl : α = 0 := by omega
        obtain rfl : β = 0 := by omega
        simpa using e2)
      (by
        intro k l hkl hl e e' α hα β hβ
        obtain rfl : α = 0 := by omega
        obtain rfl : β = 0 := by omega
        simpa using h.h3 k l hkl hl e e') F
    have e : N * (2 - 1) = N := by omega
    have e2 : ((IMat.toMat (N * (2 - 1)) (c : IMat)).map (Int.cast : ℤ → F)).rank = ((Matrix.of fun k l : Fin N => c k l).map (Int.cast : ℤ → F)).rank := by
      rw [e]; rfl
    rw [e2] at this
    omega
  exact det_of_rank _ hrk

theorem Forest.apart (h : Forest N a b d Ya Yb c) {k l : Nat} (hk : k < N) (hl : l < N) (ck : Conn a b k) (cl : ¬ Conn a b l) : c k l = 0 := by
  rcases Nat.lt_trichotomy k l with g | rfl | g
  · refine h.h3 k l g hl (fun e => ?_) (fun e => cl (.next ck g e))
    rcases ck with e' | ⟨cj, hj, e'⟩
    · exact cl (.start (e.trans e'))
    · exact cl (.next cj (hj.trans g) (e.trans e'))
  · exact absurd ck cl
  · rw [h.anti k l hk hl, h.h3 l k g hk, neg_zero]
    · intro e
      rcases ck with e' | @⟨j, _, cj, hj, e'⟩
      · exact cl (.start (e.symm.trans e'))
      · by_cases hjl : j < l
        · exact cl (.next cj hjl (e.symm.trans e'))
        · exact h.ab l j (by omega) (by omega) (e.symm.trans e')
    · intro e
      rcases ck with e' | @⟨j, _, cj, hj, e'⟩
      · exact h.ab 0 l (Nat.zero_le _) hl (e'.symm.trans e)
      · have hb : b j = b l := e'.symm.trans e
        rcases Nat.lt_trichotomy j l with q | rfl | q
        · exact h.bb j l q hl hb
        · exact cl cj
        · exact h.bb l j q (by omega) hb.symm

/-- the matrix of an ordered family of indices -/
theorem det_ordered {N : Nat} (A : Matrix (Fin N) (Fin N) ℤ) (p : Fin N → Prop) [DecidablePred p] :
    ∃ f : Nat → Nat, (∀ k < Fintype.card {x // p x}, f k < N) ∧ (∀ k l, k < l → l < Fintype.card {x // p x} → f k < f l) ∧
      ∃ hf : ∀ k : Fin (Fintype.card {x // p x}), f k < N,
        (A.toSquareBlockProp p).det = (Matrix.of fun k l : Fin (Fintype.card {x // p x}) => A ⟨f k, hf k⟩ ⟨f l, hf l⟩).det := by
  let e : Fin (Fintype.card {x // p x}) ≃o {x // p x} := Fintype.orderIsoFinOfCardEq _ rfl
  let f : Nat → Nat := fun k => if h : k < Fintype.card {x // p x} then (e ⟨k, h⟩).1.val else 0
  have hfe : ∀ k (h : k < Fintype.card {x // p x}), f k = (e ⟨k, h⟩).1.val := fun k h => dif_pos h
  refine ⟨f, fun k hk => by rw [hfe k hk]; exact (e ⟨k, hk⟩).1.isLt, ?_, fun k => by rw [hfe k k.isLt]; exact (e ⟨k, k.isLt⟩).1.isLt, ?_⟩
  · intro k l hkl hl
    rw [hfe k (hkl.trans hl), hfe l hl]
    have : e ⟨k, hkl.trans hl⟩ < e ⟨l, hl⟩ := e.lt_iff_lt.2 hkl
    exact this
  · rw [← Matrix.det_submatrix_equiv_self e.toEquiv]
    congr 1
    ext k l
    have h1 : ∀ k : Fin (Fintype.card {x // p x}), (⟨f k, by rw [hfe k k.isLt]; exact (e ⟨k, k.isLt⟩).1.isLt⟩ : Fin N) = (e k).1 := fun k => Fin.ext (hfe k k.isLt)
    rw [Matrix.of_apply, h1, h1]
    rfl

theorem Forest.det : ∀ (N : Nat) {a b : Nat → Nat} {d Ya Yb : Nat → ℂ} {c : Nat → Nat → ℤ}, Forest N a b d Ya Yb c →
    (Matrix.of fun k l : Fin N => c k l).det.natAbs ≤ 1 := by
  intro N
  induction N using Nat.strong_induction_on with
  | _ N ih =>
    intro a b d Ya Yb c h
    classical
    by_cases hc : ∀ k < N, Conn a b k
    · exact h.det_conn hc
    · push Not at hc
      obtain ⟨l, hl, cl⟩ := hc
      let p : Fin N → Prop := fun k => Conn a b k
      rw [Matrix.twoBlockTriangular_det _ p (by
        intro i hi j hj
        change c i j = 0
        rw [h.anti _ _ i.isLt j.isLt, h.apart j.isLt i.isLt hj hi, neg_zero])]
      have hp0 : p ⟨0, by omega⟩ := .start rfl
      have c1 : Fintype.card {x // p x} < N := by
        have := Fintype.card_subtype_lt (p := p) (x := ⟨l, hl⟩) cl
        rwa [Fintype.card_fin] at this
      have c2 : Fintype.card {x // ¬ p x} < N := by
        have := Fintype.card_subtype_lt (p := fun x => ¬ p x) (x := ⟨0, by omega⟩) (not_not.2 hp0)
        rwa [Fintype.card_fin] at this
      obtain ⟨f, f1, f2, f3, ef⟩ := det_ordered (Matrix.of fun k l : Fin N => c k l) p
      obtain ⟨g, g1, g2, g3, eg⟩ := det_ordered (Matrix.of fun k l : Fin N => c k l) (fun x => ¬ p x)
      rw [Int.natAbs_mul, ef, eg]
      have k1 := ih _ c1 (h.sub f1 f2)
      have k2 := ih _ c2 (h.sub g1 g2)
      exact (Nat.mul_le_mul k1 k2).trans (by norm_num)

/-- **principal unimodularity** of the intersection matrix of a hyperelliptic tree -/
theorem Forest.pu (h : Forest N a b d Ya Yb c) : PrincipallyUnimodular (Matrix.of fun k l : Fin N => c k l) := by
  intro κ _ _ f
  classical
  by_cases hinj : Function.Injective f
  · obtain ⟨p, hp⟩ : ∃ p : Fin N → Prop, ∀ x, p x ↔ ∃ y, f y = x := ⟨_, fun _ => Iff.rfl⟩
    obtain ⟨g, g1, g2, g3, eg⟩ := det_ordered (Matrix.of fun k l : Fin N => c k l) p
    let φ : κ ≃ {x // p x} := Equiv.ofBijective (fun y => ⟨f y, (hp _).2 ⟨y, rfl⟩⟩)
      ⟨fun x y h => hinj (congrArg Subtype.val h), fun ⟨x, hx⟩ => by
        obtain ⟨y, rfl⟩ := (hp x).1 hx
        exact ⟨y, rfl⟩⟩
    have e : ((Matrix.of fun k l : Fin N => c k l).submatrix f f).det = ((Matrix.of fun k l : Fin N => c k l).toSquareBlockProp p).det := by
      rw [← Matrix.det_submatrix_equiv_self φ]
      rfl
    rw [e, eg]
    exact Forest.det _ (h.sub g1 g2)
  · unfold Function.Injective at hinj
    push Not at hinj
    obtain ⟨x, y, hxy, hne⟩ := hinj
    rw [Matrix.det_zero_of_row_eq hne]
    · decide
    · funext z
      simp only [Matrix.submatrix_apply, hxy]

end

end Hcp
