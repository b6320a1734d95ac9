import Verif.Basic
import Mathlib.Data.Real.Basic

/-!
# Model of `acb_func_r_de` and `acb_vec_r` (`arb/de_params.c` 10-32)

Midpoints are finite.  `A` stands for `acb_t`; a function of the type taken by `acb_vec_r` has an argument `l` which is a pointer, `none` for the null pointer.  `lb` is `arb_get_abs_lbound_arf` of the imaginary part.
-/

namespace Hcp

/-- `arb_t`: midpoint and radius -/
structure ArbT where
  mid : ℝ
  rad : ℝ

/-- the real numbers of a ball -/
def ArbT.Has (b : ArbT) (t : ℝ) : Prop := |t - b.mid| ≤ b.rad

/-- `acb_func_r_de`, de_params.c 10-16: `asinh(atanh(u)/l)`; `acb_div_arb` (14) reads the number `l` points to -/
def acbFuncRDe {A B : Type} (atanh asinh : A → A) (div : A → B → A) (l : Option B) (u : A) : Res A :=
  match l with
  | none => .ub "null pointer"
  | some l => .ok (asinh (div (atanh u) l))

open scoped Classical in
/-- loop of `acb_vec_r`, de_params.c 23-30, from round `k` on, with `todo` rounds left; the state is `r0` and the array `r`.  The function is called with the null pointer (25); only the midpoint of `r0` is written (28). -/
noncomputable def acbVecRLoop {A B : Type} (f : Option B → A → Res A) (lb : A → ℝ) (u : Nat → A) : Nat → Nat → ArbT → (Nat → A) → Res (ArbT × (Nat → A))
  | 0, _, r0, r => .ok (r0, r)
  | todo + 1, k, r0, r => do
    let v ← f none (u k)
    acbVecRLoop f lb u todo (k + 1) (if k = 0 ∨ lb v < r0.mid then { r0 with mid := lb v } else r0) (Function.update r k v)

/-- `acb_vec_r`, de_params.c 18-32 -/
noncomputable def acbVecR {A B : Type} (f : Option B → A → Res A) (lb : A → ℝ) (r0 : ArbT) (r u : Nat → A) (len : Nat) : Res (ArbT × (Nat → A)) := acbVecRLoop f lb u len 0 r0 r

end Hcp
