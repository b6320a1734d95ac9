import Verif.Model.Parse

/-!
# Model of `arb/example/periods.c` and of the stages of `abel_jacobi_compute`

The argument vector is the list of the arguments after the program name; `argv[argc]` is the null pointer, so that reading an operand
beyond the end is a call of `atol` (or of the parser) on a null pointer.
-/

namespace Hcp

/-! ## Flag bits (abel_jacobi.h 169-181) -/

def ajUseDe : Nat := 1 <<< 0
def ajNoTau : Nat := 1 <<< 1
def ajNoAb : Nat := 1 <<< 2
def ajNoInt : Nat := 1 <<< 3
def ajTrim : Nat := 1 <<< 4
def ajRootDef : Nat := 1 <<< 5
def ajRootTurn : Nat := 1 <<< 6
def ajRootProd : Nat := 1 <<< 7
def ajDeSame : Nat := 1 <<< 8
def ajVerbose : Nat := 5 <<< 9

/-- the printing functions (periods.c 74, 159, 161) -/
inductive FPrint where
  | printd | gp | error
  deriving DecidableEq, Repr

/-- the families `f_pol` (periods.c 18-43) -/
inductive FPol where
  | xn1 | exp | bern
  deriving DecidableEq, Repr

/-- local variables of `main` (periods.c 72-77) -/
structure Opts where
  print : Bool
  flag : Nat
  run : Int
  rev : Bool
  n : Int
  m : Int
  prec : Int
  digits : Int
  fPrint : FPrint
  fPol : Option FPol
  poly : IPoly

/-- initial values (periods.c 72-79) -/
def Opts.init : Opts where
  print := true
  flag := 0
  run := 1
  rev := false
  n := 5
  m := 2
  prec := 128
  digits := 0
  fPrint := .printd
  fPol := some .xn1
  poly := fun _ => 0

/-- `atol` of libc -/
def atol (s : List Char) : Int := match strtol s with
  | none => 0
  | some (v, _) => v

/-- `atol (argv[i++])`: the remaining arguments are those after `i` -/
def numArg (args : List (List Char)) : Res (Int × List (List Char)) := match args with
  | [] => .ub "atol(NULL)"
  | a :: r => .ok (atol a, r)

/-- conversion `long → int` of `run = atol (...)` (periods.c 170), modulo `2^32` -/
def toInt32 (x : Int) : Int := (x + 2 ^ 31) % 2 ^ 32 - 2 ^ 31

/-- `flag += AJ_VERBOSE` on `int` (periods.c 88) -/
def addVerbose (flag : Nat) : Res Nat :=
  if flag + ajVerbose < 2 ^ 31 then .ok (flag + ajVerbose) else .ub "signed overflow"

/-- the loop of `--coeffs` (periods.c 135-136): `cnt` is `n - j + 1` as long as this is positive. -/
def coeffsLoop : (cnt : Nat) → IPoly → List (List Char) → Res (IPoly × List (List Char))
  | 0, poly, args => .ok (poly, args)
  | _ + 1, poly, [] => .ok (poly, [])
  | cnt + 1, poly, a :: r => do
    let poly ← setCoeffSi poly cnt (atol a)
    coeffsLoop cnt poly r

/-- `--stoll` (periods.c 142-148) -/
def setStoll (poly : IPoly) : IPoly := fun k =>
  match k with
  | 6 => 82342800
  | 5 => -470135160
  | 4 => 52485681
  | 3 => 2396040466
  | 2 => 567207969
  | 1 => -985905640
  | 0 => 247747600
  | _ => poly k

/-- call of the parser on `argv[i++]` (periods.c 126-127), the rounds allowed being the length of the string -/
def polArg (poly : IPoly) (args : List (List Char)) : Res (IPoly × List (List Char)) := match args with
  | [] => .ub "fmpz_poly_parse(NULL)"
  | a :: r => match polyParse a.length poly a with
    | .ok (some p) => .ok (p, r)
    | .ok none => .abort "abort()"
    | .abort w => .abort w
    | .ub w => .ub w
    | .diverge => .diverge

/-- One round of the option loop (periods.c 84-178) on the argument `a`; `none` is `return usage ()`. -/
def stepArg (o : Opts) (a : List Char) (r : List (List Char)) : Res (Option (Opts × List (List Char))) :=
  if a = "-v".toList then do
    let f ← addVerbose o.flag
    .ok (some ({ o with flag := f }, r))
  else if a = "-m".toList then do
    let (v, r) ← numArg r
    .ok (some ({ o with m := v }, r))
  else if a = "--prec".toList then do
    let (v, r) ← numArg r
    .ok (some ({ o with prec := v }, r))
  else if a = "--de".toList then .ok (some ({ o with flag := o.flag ||| ajUseDe }, r))
  else if a = "--desame".toList then .ok (some ({ o with flag := o.flag ||| ajDeSame }, r))
  else if a = "--rootdef".toList then .ok (some ({ o with flag := o.flag ||| ajRootDef }, r))
  else if a = "--rootprod".toList then .ok (some ({ o with flag := o.flag ||| ajRootProd }, r))
  else if a = "--rootturn".toList then .ok (some ({ o with flag := o.flag ||| ajRootTurn }, r))
  else if a = "--xn1".toList then do
    let (v, r) ← numArg r
    .ok (some ({ o with n := v, fPol := some .xn1 }, r))
  else if a = "--exp".toList then do
    let (v, r) ← numArg r
    .ok (some ({ o with n := v, fPol := some .exp }, r))
  else if a = "--bern".toList then do
    let (v, r) ← numArg r
    .ok (some ({ o with n := v, fPol := some .bern }, r))
  else if a = "--bernrev".toList then do
    let (v, r) ← numArg r
    .ok (some ({ o with n := v, fPol := some .bern, rev := true }, r))
  else if a = "--pol".toList then do
    let (p, r) ← polArg o.poly r
    .ok (some ({ o with poly := p, fPol := none }, r))
  else if a = "--coeffs".toList then do
    let (v, r) ← numArg r
    let (p, r) ← coeffsLoop (v + 1).toNat o.poly r
    .ok (some ({ o with n := v, poly := p, fPol := none }, r))
  else if a = "--stoll".toList then .ok (some ({ o with poly := setStoll o.poly, fPol := none }, r))
  else if a = "--big".toList then .ok (some ({ o with flag := o.flag ||| ajNoTau }, r))
  else if a = "--int".toList then .ok (some ({ o with flag := o.flag ||| ajNoAb }, r))
  else if a = "--tree".toList then .ok (some ({ o with flag := o.flag ||| ajNoInt }, r))
  else if a = "--gp".toList then .ok (some ({ o with fPrint := .gp }, r))
  else if a = "--error".toList then .ok (some ({ o with fPrint := .error }, r))
  else if a = "--trim".toList then .ok (some ({ o with flag := o.flag ||| ajTrim }, r))
  else if a = "--digits".toList then do
    let (v, r) ← numArg r
    .ok (some ({ o with digits := v }, r))
  else if a = "--bench".toList then do
    let (v, r) ← numArg r
    .ok (some ({ o with run := toInt32 v, print := false }, r))
  else .ok none

/-- the option loop (periods.c 84-178); the first argument is the number of rounds allowed. -/
def argLoop : Nat → Opts → List (List Char) → Res (Option Opts)
  | _, o, [] => .ok (some o)
  | 0, _, _ :: _ => .diverge
  | fuel + 1, o, a :: r =>
    match stepArg o a r with
    | .ok none => .ok none
    | .ok (some (o', r')) => argLoop fuel o' r'
    | .abort w => .abort w
    | .ub w => .ub w
    | .diverge => .diverge

/-- reading of the arguments (periods.c 81-178): `none` is the usage message -/
def readArgs (args : List (List Char)) : Res (Option Opts) :=
  if args = [] then .ok none else argLoop args.length Opts.init args

/-- FLINT's families: numerators of the Bernoulli polynomial and of the exponential series, as `(degree, coefficients)`;
degree `-1` for zero. -/
structure Families where
  bern : Int → Int × IPoly
  exp : Int → Int × IPoly

/-- `fmpz_poly_numer` (periods.c 9-16): copy of the coefficients up to the degree -/
def polyNumer (num : IPoly) (d : Int) (h : IPoly) : IPoly := fun k => if (k : Int) ≤ d then h k else num k

/-- call of `f_pol` (periods.c 18-43, 183-184) -/
def applyFPol (F : Families) (o : Opts) : Res IPoly :=
  match o.fPol with
  | none => .ok o.poly
  | some .xn1 => do
    let p ← setCoeffSi o.poly 0 (-1)
    setCoeffSi p o.n 1
  | some .bern => .ok (polyNumer o.poly (F.bern o.n).1 (F.bern o.n).2)
  | some .exp => .ok (polyNumer o.poly (F.exp o.n).1 (F.exp o.n).2)

/-- `fmpz_poly_reverse (poly, poly, n)` (FLINT): reversal of the first `n` coefficients -/
def polyReverse (n : Int) (p : IPoly) : IPoly := fun k => if (k : Int) < n then p (n - 1 - k).toNat else 0

/-- the polynomial given to `abel_jacobi_init_poly` (periods.c 182-186) -/
def curvePoly (F : Families) (o : Opts) : Res IPoly := do
  let p ← applyFPol F o
  .ok (if o.rev then polyReverse o.n p else p)

/-! ## What is computed and printed -/

/-- the objects of `abel_jacobi_t` -/
inductive Obj where
  | tree | integrals | omega | tau
  deriving DecidableEq, Repr

/-- objects computed by one call of `abel_jacobi_compute` (aj_struct.c 73-182) for the given flags, in order -/
def computed (flag : Nat) : List Obj :=
  .tree :: (if flag &&& ajNoInt ≠ 0 then [] else
    .integrals :: (if flag &&& ajNoAb ≠ 0 then [] else
      .omega :: (if flag &&& ajNoTau ≠ 0 then [] else [.tau])))

/-- the object printed by `main` (periods.c 193-212) -/
def printed (o : Opts) : Option Obj :=
  if o.print then
    some (if o.flag &&& ajNoInt ≠ 0 then .tree
      else if o.flag &&& ajNoAb ≠ 0 then .integrals
      else if o.flag &&& ajNoTau ≠ 0 then .omega
      else .tau)
  else none

/-- objects computed by the loop of `main` (periods.c 190-191): nothing when `run ≤ 0` -/
def computedRun (o : Opts) : List Obj := if o.run ≤ 0 then [] else computed o.flag

/-- integration types (abel_jacobi.h 47) -/
inductive IntType where
  | d2 | gc | de
  deriving DecidableEq, Repr

/-- choice of the integration (aj_struct.c 80) -/
def intType (flag : Nat) (m n : Int) : IntType :=
  if flag &&& ajUseDe ≠ 0 ∨ (m > 2 ∧ n > 2) then .de else if m = 2 then .gc else .d2

end Hcp
