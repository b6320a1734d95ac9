import Verif.Spec.Exact

/-! # Reasoning about loops, arrays, and related runs -/

namespace Hcp

theorem loopUp_inv {S : Type} {body : Nat → S → Res S} (I : Nat → S → Prop) :
    ∀ (cnt k : Nat) (s : S), I k s →
      (∀ i s, k ≤ i → i < k + cnt → I i s → ∃ s', body i s = .ok s' ∧ I (i + 1) s') →
      ∃ s', loopUp body cnt k s = .ok s' ∧ I (k + cnt) s'
  | 0, k, s, h, _ => ⟨s, rfl, h⟩
  | cnt + 1, k, s, h, hb => by
    obtain ⟨s1, e1, h1⟩ := hb k s le_rfl (by omega) h
    obtain ⟨s2, e2, h2⟩ := loopUp_inv I cnt (k + 1) s1 h1
      (fun i s a b c => hb i s (by omega) (by omega) c)
    refine ⟨s2, ?_, ?_⟩
    · simp [loopUp, e1, e2]
    · rwa [show k + (cnt + 1) = k + 1 + cnt by omega]

/-- `I i s`: state before the iteration with index `i - 1`. -/
theorem loopDown_inv {S : Type} {body : Nat → S → Res S} (I : Nat → S → Prop) :
    ∀ (cnt k : Nat) (s : S), I (k + cnt) s →
      (∀ i s, k ≤ i → i < k + cnt → I (i + 1) s → ∃ s', body i s = .ok s' ∧ I i s') →
      ∃ s', loopDown body cnt k s = .ok s' ∧ I k s'
  | 0, k, s, h, _ => ⟨s, rfl, h⟩
  | cnt + 1, k, s, h, hb => by
    obtain ⟨s1, e1, h1⟩ := hb (k + cnt) s (by omega) (by omega) h
    obtain ⟨s2, e2, h2⟩ := loopDown_inv I cnt k s1 h1
      (fun i s a b c => hb i s (by omega) (by omega) c)
    exact ⟨s2, by simp [loopDown, e1, e2], h2⟩

/-- Two outcomes related by `R`: both return related values, or both fail in the same way. -/
inductive RelRes {α β : Type} (R : α → β → Prop) : Res α → Res β → Prop
  | ok {a b} : R a b → RelRes R (.ok a) (.ok b)
  | abort (w) : RelRes R (.abort w) (.abort w)
  | ub (w) : RelRes R (.ub w) (.ub w)
  | diverge : RelRes R .diverge .diverge

theorem RelRes.bind {α β γ δ : Type} {R : α → β → Prop} {S : γ → δ → Prop}
    {x : Res α} {y : Res β} {f : α → Res γ} {g : β → Res δ} (h : RelRes R x y)
    (hf : ∀ a b, R a b → RelRes S (f a) (g b)) : RelRes S (x >>= f) (y >>= g) := by
  cases h with
  | ok h => exact hf _ _ h
  | abort w => exact .abort w
  | ub w => exact .ub w
  | diverge => exact .diverge

theorem RelRes.ok_left {α β : Type} {R : α → β → Prop} {x : Res α} {b : β}
    (h : RelRes R x (.ok b)) : ∃ a, x = .ok a ∧ R a b := by
  cases h with
  | ok h => exact ⟨_, rfl, h⟩

theorem loopUp_rel {S T : Type} {RS : S → T → Prop} {f : Nat → S → Res S} {g : Nat → T → Res T}
    (hb : ∀ i s t, RS s t → RelRes RS (f i s) (g i t)) :
    ∀ cnt k s t, RS s t → RelRes RS (loopUp f cnt k s) (loopUp g cnt k t)
  | 0, _, _, _, h => .ok h
  | cnt + 1, k, s, t, h => (hb k s t h).bind fun a b h => loopUp_rel hb cnt (k + 1) a b h

/-- the same with the range of the index at hand -/
theorem loopUp_rel_range {S T : Type} {RS : S → T → Prop} {f : Nat → S → Res S} {g : Nat → T → Res T} :
    ∀ cnt k s t, (∀ i s t, k ≤ i → i < k + cnt → RS s t → RelRes RS (f i s) (g i t)) → RS s t →
      RelRes RS (loopUp f cnt k s) (loopUp g cnt k t)
  | 0, _, _, _, _, h => .ok h
  | cnt + 1, k, s, t, hb, h => (hb k s t le_rfl (by omega) h).bind fun a b h =>
      loopUp_rel_range cnt (k + 1) a b (fun i s t h1 h2 => hb i s t (by omega) (by omega)) h

theorem loopDown_rel {S T : Type} {RS : S → T → Prop} {f : Nat → S → Res S} {g : Nat → T → Res T}
    (hb : ∀ i s t, RS s t → RelRes RS (f i s) (g i t)) :
    ∀ cnt k s t, RS s t → RelRes RS (loopDown f cnt k s) (loopDown g cnt k t)
  | 0, _, _, _, h => .ok h
  | cnt + 1, k, s, t, h => (hb (k + cnt) s t h).bind fun a b h => loopDown_rel hb cnt k a b h

variable {A B : Type} {R : A → B → Prop}

/-- arrays with related cells -/
def RelV (R : A → B → Prop) (v : Nat → A) (w : Nat → B) : Prop := ∀ i, R (v i) (w i)

theorem rdV_rel {sz i : Nat} {v : Nat → A} {w : Nat → B} (h : RelV R v w) :
    RelRes R (rdV sz v i) (rdV sz w i) := by
  unfold rdV; split
  · exact .ok (h i)
  · exact .ub _

theorem wrV_rel {sz i : Nat} {v : Nat → A} {w : Nat → B} {a : A} {b : B} (h : RelV R v w)
    (hab : R a b) : RelRes (RelV R) (wrV sz v i a) (wrV sz w i b) := by
  unfold wrV; split
  · refine .ok fun j => ?_
    split
    · exact hab
    · exact h j
  · exact .ub _

theorem rdV_ok {sz i : Nat} {v : Nat → A} (h : i < sz) : rdV sz v i = .ok (v i) := if_pos h
theorem wrV_ok {sz i : Nat} {v : Nat → A} {a : A} (h : i < sz) :
    wrV sz v i a = .ok fun j => if j = i then a else v j := if_pos h

end Hcp
