import Verif.Model.Constants
import Verif.Model.Tree
import Mathlib.Data.Real.Basic

/-!
# Model of `extraprec_tree` (`arb/ydata.c` 149-232)
-/

namespace Hcp

/-- the routines of Arb on real balls called by `mag_constants_edge` and `extraprec_tree`, at precision `64` (ydata.c 153) -/
structure MagOps (A B : Type) where
  /-- `acb_abs` -/
  abs : A → B
  /-- `arb_div` -/
  div : B → B → B
  /-- `arb_mul` -/
  mul : B → B → B
  /-- `arb_mul_2exp_si` -/
  mul2exp : B → Int → B
  /-- `arb_pow_ui` -/
  pow : B → Nat → B
  /-- `arb_root` -/
  root : B → Nat → B
  /-- `arb_inv` -/
  inv : B → B
  /-- `arb_bin_uiui` -/
  bin : Nat → Nat → B
  /-- `arb_get_mag`; nothing for an infinite magnitude -/
  mag : B → Option ℝ
  /-- `(long)mag_get_d_log2_approx` -/
  log2 : Option ℝ → Int

/-- `mag_max`; nothing stands for an infinite magnitude -/
noncomputable def magMax : Option ℝ → Option ℝ → Option ℝ
  | some s, some t => some (max s t)
  | _, _ => none

variable {A B W : Type} (X : Arith A) (M : MagOps A B)

/-- the loop over `l` (ydata.c 184-197) for given `i`, `l` running through a list -/
noncomputable def magL (mab mi : B) (i : Nat) : List Nat → Option ℝ → Option ℝ
  | [], s => s
  | l :: ls, s => magL mab mi i ls (magMax s (M.mag (M.mul (M.mul (M.bin (i - 1) l) (M.pow mab (i - 1 - l))) mi)))

/-- the loop over `i` (ydata.c 181-198), `i` running through a list; the state is `mi` and the maximum -/
noncomputable def magI (mab mba : B) : List Nat → B × Option ℝ → B × Option ℝ
  | [], s => s
  | i :: is, s => magI mab mba is (M.mul s.1 mba, magL M mab (M.mul s.1 mba) i (List.range i) s.2)

/-- the loop over `j` (ydata.c 178-199); the list is the tail of `c.ni` from `j` -/
noncomputable def magJ (mab mba mc : B) (j1 : Nat) : (j : Nat) → List Nat → Option ℝ → Option ℝ
  | _, [], s => s
  | j, nij :: rest, s => magJ mab mba mc j1 (j + 1) rest (magI M mab mba (List.range' 1 nij) (M.pow mc (j + j1), s)).2

/-- `mag_constants_edge` (ydata.c 149-205) -/
noncomputable def magEdge (x : Nat → A) (a b : Nat) (c : Shape) : Option ℝ :=
  let mab := M.abs (X.add (x b) (x a))
  let mba := M.abs (X.sub (x b) (x a))
  let mab := M.div mab mba
  let mba := M.mul2exp mba (-1)
  let mc := M.inv (M.root (M.pow mba c.n) c.m)
  magJ M mab mba mc c.j1 0 c.ni (some 0)

/-- `mag_constants_tree` (ydata.c 207-220), the loop over the edges -/
noncomputable def magTree (x : Nat → A) (c : Shape) : List (Edge W) → Option ℝ → Option ℝ
  | [], s => s
  | e :: es, s => magTree x c es (magMax s (magEdge X M x e.a e.b c))

/-- `extraprec_tree` (ydata.c 222-232) -/
noncomputable def extraprecTree (es : List (Edge W)) (x : Nat → A) (c : Shape) : Res Int :=
  chk (M.log2 (magTree X M x c es (some 0)) + 1)

/-- What Arb does at a precision below two bits is not specified. -/
def arbPrec (p : Int) : Res Unit := if p < 2 then .ub "precision" else .ok ()

end Hcp
