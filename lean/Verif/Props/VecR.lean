import Verif.Model.VecR
import Mathlib.Data.Complex.Basic
import Mathlib.Order.Bounds.Basic
import Mathlib.Tactic.NormNum
import Mathlib.Tactic.Linarith

/-!
# C89: `acb_vec_r`
-/

namespace Hcp

theorem acbVecRLoop_spec {A B : Type} {f : Option B → A → Res A} {g : A → A} (lb : A → ℝ) {u : Nat → A} {len : Nat} (hf : ∀ i < len, f none (u i) = .ok (g (u i))) : ∀ (todo k : Nat) (r0 : ArbT) (r : Nat → A), k + todo = len →
    (∀ i < k, r i = g (u i)) → (0 < k → IsLeast {t | ∃ i < k, t = lb (g (u i))} r0.mid) →
    ∃ out, acbVecRLoop f lb u todo k r0 r = .ok out ∧ out.1.rad = r0.rad ∧ (∀ i < len, out.2 i = g (u i)) ∧ (∀ i, len ≤ i → out.2 i = r i) ∧ (0 < len → IsLeast {t | ∃ i < len, t = lb (g (u i))} out.1.mid)
  | 0, k, r0, r, h, h1, h2 => by
    obtain rfl : k = len := h
    exact ⟨_, rfl, rfl, h1, fun _ _ => rfl, h2⟩
  | todo + 1, k, r0, r, h, h1, h2 => by
    rw [acbVecRLoop, hf k (by omega), Res.ok_bind]
    obtain ⟨out, a0, a1, a2, a3, a4⟩ := acbVecRLoop_spec lb hf todo (k + 1) (if k = 0 ∨ lb (g (u k)) < r0.mid then { r0 with mid := lb (g (u k)) } else r0) (Function.update r k (g (u k))) (by omega)
      (fun i hi => by
        by_cases e : i = k
        · rw [e, Function.update_self]
        · rw [Function.update_of_ne e, h1 i (by omega)])
      (fun _ => by
        by_cases hc : k = 0 ∨ lb (g (u k)) < r0.mid
        · rw [if_pos hc]
          refine ⟨⟨k, by omega, rfl⟩, ?_⟩
          rintro t ⟨i, hi, rfl⟩
          by_cases e : i = k
          · rw [e]
          · rcases hc with hc | hc
            · omega
            · exact hc.le.trans ((h2 (by omega)).2 ⟨i, by omega, rfl⟩)
        · rw [if_neg hc]
          push Not at hc
          obtain ⟨⟨i, hi, e⟩, hl⟩ := h2 (by omega)
          refine ⟨⟨i, by omega, e⟩, ?_⟩
          rintro t ⟨i, hi, rfl⟩
          by_cases e : i = k
          · rw [e]; exact hc.2
          · exact hl ⟨i, by omega, rfl⟩)
    exact ⟨out, a0, a1.trans (by split_ifs <;> rfl), a2, fun i hi => (a3 i hi).trans (Function.update_of_ne (by omega) _ _), a4⟩

/-- **C89 (part).** For a function which accepts the null pointer and gives `g(u_k)`: the call returns; for at least one point the midpoint of `r0` becomes the least of the lower bounds of `|Im g(u_k)|`, the cells `r_k` become `g(u_k)`, the other cells and the radius of `r0` keep their values.
Missing: the function of the library, which does not accept the null pointer (`C89_null_fails`). -/
theorem C89_least_partial {A B : Type} {f : Option B → A → Res A} {g : A → A} (lb : A → ℝ) (r0 : ArbT) (r : Nat → A) {u : Nat → A} {len : Nat} (hf : ∀ i < len, f none (u i) = .ok (g (u i))) :
    ∃ out, acbVecR f lb r0 r u len = .ok out ∧ (0 < len → IsLeast {t | ∃ i < len, t = lb (g (u i))} out.1.mid) ∧ (∀ i < len, out.2 i = g (u i)) ∧ (∀ i, len ≤ i → out.2 i = r i) ∧ out.1.rad = r0.rad ∧ (len = 0 → out = (r0, r)) := by
  obtain ⟨out, a0, a1, a2, a3, a4⟩ := acbVecRLoop_spec lb hf len 0 r0 r (Nat.zero_add _) (fun i hi => absurd hi (Nat.not_lt_zero i)) (fun hi => absurd hi (lt_irrefl 0))
  refine ⟨out, a0, a4, a2, a3, a1, fun h => ?_⟩
  subst h
  exact (Res.ok.inj a0).symm

/-- **C89 (part).** If the lower bounds are right, the midpoint of `r0` is at most `|Im z|` for every number `z` of every cell. -/
theorem C89_below_partial {B : Type} {f : Option B → Set ℂ → Res (Set ℂ)} {g : Set ℂ → Set ℂ} {lb : Set ℂ → ℝ} (hlb : ∀ s, ∀ z ∈ s, lb s ≤ |z.im|) {r0 : ArbT} {r u : Nat → Set ℂ} {len : Nat} (hf : ∀ i < len, f none (u i) = .ok (g (u i)))
    {out : ArbT × (Nat → Set ℂ)} (h : acbVecR f lb r0 r u len = .ok out) {i : Nat} (hi : i < len) {z : ℂ} (hz : z ∈ out.2 i) : out.1.mid ≤ |z.im| := by
  obtain ⟨out', h0, h1, h2, -⟩ := C89_least_partial lb r0 r hf
  obtain rfl := Res.ok.inj (h.symm.trans h0)
  rw [h2 i hi] at hz
  exact ((h1 (by omega)).2 ⟨i, hi, rfl⟩).trans (hlb _ z hz)

/-- **C89, negation.** With `acb_func_r_de`, the function of the library of this type, and at least one point, the null pointer is read: undefined behaviour, whatever the arguments are. -/
theorem C89_null_fails {A B : Type} (atanh asinh : A → A) (div : A → B → A) (lb : A → ℝ) (r0 : ArbT) (r u : Nat → A) {len : Nat} (h : 0 < len) : acbVecR (acbFuncRDe atanh asinh div) lb r0 r u len = .ub "null pointer" := by
  obtain ⟨l, rfl⟩ : ∃ l, len = l + 1 := ⟨len - 1, by omega⟩
  rfl

/-- **C89, negation.** The radius of `r0` is not reset: for every positive radius left there by the caller, there are right lower bounds and cells such that the ball `r0` holds numbers above `|Im z|` for a number `z` of a cell. -/
theorem C89_radius_fails (ρ : ℝ) (hρ : 0 < ρ) : ∃ (lb : Set ℂ → ℝ) (u : Nat → Set ℂ) (out : ArbT × (Nat → Set ℂ)), (∀ s, ∀ z ∈ s, lb s ≤ |z.im|) ∧ acbVecR (fun (_ : Option Unit) s => .ok s) lb ⟨0, ρ⟩ u u 1 = .ok out ∧ ∃ t, out.1.Has t ∧ ∃ z ∈ out.2 0, |z.im| < t := by
  obtain ⟨out, h0, h1, h2, -, h4, -⟩ := C89_least_partial (f := fun (_ : Option Unit) s => .ok s) (g := id) (fun _ => 0) ⟨0, ρ⟩ (fun _ => ({0} : Set ℂ)) (u := fun _ => ({0} : Set ℂ)) (len := 1) (fun _ _ => rfl)
  refine ⟨fun _ => 0, fun _ => {0}, out, fun _ _ _ => abs_nonneg _, h0, ρ, ?_, 0, ?_, by simpa using hρ⟩
  · obtain ⟨⟨i, hi, e⟩, -⟩ := h1 (by norm_num)
    unfold ArbT.Has
    rw [e, h4, sub_zero, abs_of_pos hρ]
  · rw [h2 0 (by norm_num)]
    rfl

/-- two points of heights 3 and 2 -/
example : ∃ out, acbVecR (fun (_ : Option Unit) (t : ℝ) => .ok t) (fun t => |t|) ⟨7, 0⟩ (fun _ => 0) (fun k => if k = 0 then -3 else 2) 2 = .ok out ∧ out.1.mid = 2 := by
  obtain ⟨out, h0, h1, -⟩ := C89_least_partial (f := fun (_ : Option Unit) (t : ℝ) => .ok t) (g := id) (fun t => |t|) ⟨7, 0⟩ (fun _ => 0) (u := fun k => if k = 0 then -3 else 2) (len := 2) (fun _ _ => rfl)
  obtain ⟨⟨i, hi, e⟩, hl⟩ := h1 (by norm_num)
  have h2 := hl ⟨1, by norm_num, rfl⟩
  refine ⟨out, h0, ?_⟩
  rw [e] at h2 ⊢
  obtain rfl | rfl : i = 0 ∨ i = 1 := by omega
  · norm_num at h2
  · norm_num

end Hcp
