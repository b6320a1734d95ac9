import Verif.Basic
import Mathlib.Order.Lattice

/-!
# Model of the sort of the branch points and of the error report (`arb/utils.c`)
-/

namespace Hcp

/-- Arb operations called by `acb_cmp_lex`; `B` is `acb_t`, `T` is `arb_t`. -/
structure CmpOps (B T : Type) where
  /-- `arb_sub` of the real parts with `MAG_BITS` bits -/
  subRe : B → B → T
  /-- `arb_sub` of the imaginary parts -/
  subIm : B → B → T
  /-- `arb_contains_zero` -/
  hasZero : T → Bool
  /-- `arb_is_positive` -/
  pos : T → Bool

/-- `acb_cmp_lex` (utils.c 135-147) -/
def cmpLex {B T : Type} (O : CmpOps B T) (a b : B) : Int :=
  let t := O.subRe a b
  let t := if O.hasZero t then O.subIm a b else t
  if O.pos t then 1 else -1

/-- inner loop of `acb_mat_print_error` (utils.c 116-128) on the columns `j, …, j + cnt - 1` of row `i`; the state is `(mag, im, jm)` and
`rad i j` the radii of the real and imaginary part. -/
def errRow {M : Type} [LinearOrder M] (rad : Nat → Nat → M × M) (i : Nat) : (cnt j : Nat) → M × Int × Int → M × Int × Int
  | 0, _, s => s
  | cnt + 1, j, s =>
    let t := max (rad i j).1 (rad i j).2
    errRow rad i cnt (j + 1) (if t > s.1 then (t, i, j) else s)

/-- outer loop of `acb_mat_print_error` (utils.c 113-129) -/
def errRows {M : Type} [LinearOrder M] (rad : Nat → Nat → M × M) (nc : Nat) : (cnt i : Nat) → M × Int × Int → M × Int × Int
  | 0, _, s => s
  | cnt + 1, i, s => errRows rad nc cnt (i + 1) (errRow rad i nc 0 s)

/-- `acb_mat_print_error` (utils.c 106-131): the value and the position printed, `zero` being the initial value of a `mag_t` -/
def printError {M : Type} [LinearOrder M] (zero : M) (rad : Nat → Nat → M × M) (nr nc : Nat) : M × Int × Int :=
  errRows rad nc nr 0 (zero, -1, -1)

end Hcp
