import Verif.Basic

/-!
# Interface with Arb, arrays and loops

The numerical code is written against a record `Arith A` of the primitives of Arb it calls; `A` is the type
of values (`acb_t`; real balls are regarded as complex ones).  The same model is then run
* over `ℂ` with the exact operations (`Verif.Spec.Exact`), which gives the value the code
  is meant to compute, and
* over any type of balls, related to `ℂ` by an enclosure relation (`Verif.Spec.Enclosure`).

`prec` arguments are dropped: they only influence the radii.
-/

namespace Hcp

/-- Arb primitives called by the modelled code. -/
structure Arith (A : Type) where
  /-- `acb_zero` -/
  zero : A
  /-- `acb_one` -/
  one : A
  /-- `acb_add` -/
  add : A → A → A
  /-- `acb_sub`, `acb_sub_arb` -/
  sub : A → A → A
  /-- `acb_mul`, `acb_mul_arb`, `arb_mul` -/
  mul : A → A → A
  /-- `acb_neg`, `arb_neg` -/
  neg : A → A
  /-- `acb_div`, `arb_div` -/
  div : A → A → A
  /-- `acb_inv` -/
  inv : A → A
  /-- `acb_pow_ui` -/
  pow : A → Nat → A
  /-- `acb_set_si`, `fmpz` operands of `acb_mul_fmpz`, `acb_addmul_fmpz` -/
  ofInt : Int → A
  /-- `acb_mul_2exp_si` -/
  mul2exp : A → Int → A
  /-- `acb_root_ui`: principal `m`-th root -/
  root : Nat → A → A
  /-- `acb_sqrt` -/
  sqrt : A → A
  /-- `acb_unit_root (n)`, `exp(2 i pi / n)` -/
  unitRoot : Nat → A
  /-- `acb_log`, principal branch -/
  log : A → A
  /-- `acb_exp` -/
  exp : A → A
  /-- `acb_div_onei`: division by `i` -/
  divI : A → A
  /-- `arb_const_pi` -/
  pi : A

/-- read of `v[i]` in an array of `sz` cells. -/
def rdV {A : Type} (sz : Nat) (v : Nat → A) (i : Nat) : Res A :=
  if i < sz then .ok (v i) else .ub "read out of range"

/-- write of `v[i]` in an array of `sz` cells. -/
def wrV {A : Type} (sz : Nat) (v : Nat → A) (i : Nat) (a : A) : Res (Nat → A) :=
  if i < sz then .ok fun j => if j = i then a else v j else .ub "write out of range"

/-- `for (i = k; i < k + cnt; i++) body(i)` -/
def loopUp {S : Type} (body : Nat → S → Res S) : (cnt k : Nat) → S → Res S
  | 0, _, s => .ok s
  | cnt + 1, k, s => do
    let s1 ← body k s
    loopUp body cnt (k + 1) s1

/-- `for (i = k + cnt - 1; i >= k; i--) body(i)` -/
def loopDown {S : Type} (body : Nat → S → Res S) : (cnt k : Nat) → S → Res S
  | 0, _, s => .ok s
  | cnt + 1, k, s => do
    let s1 ← body (k + cnt) s
    loopDown body cnt k s1

end Hcp
