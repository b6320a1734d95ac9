import Verif.Basic

/-!
# Model of `arb/parse.c`

A C string is the list of its characters, the terminating zero being the end of the list; the parser never moves back, so a pointer is
the remaining list.
-/

namespace Hcp

/-- coefficients of a `fmpz_poly_t` -/
abbrev IPoly := Nat → Int

/-- `isspace` of the C locale, used by `strtol` -/
def isSpaceC (c : Char) : Bool := c = ' ' || (9 ≤ c.toNat && c.toNat ≤ 13)

/-- result of `strtol` for a value out of range (`LONG_MIN`, `LONG_MAX`) -/
def clampLong (v : Int) : Int := if v < slongMin then slongMin else if v > slongMax then slongMax else v

/-- leading white space skipped by `strtol` -/
def skipSpace : List Char → List Char
  | [] => []
  | c :: r => if isSpaceC c then skipSpace r else c :: r

/-- longest run of digits, accumulated in base ten, and what follows -/
def readDigits : Nat → List Char → Nat × List Char
  | acc, [] => (acc, [])
  | acc, c :: r => if c.isDigit then readDigits (10 * acc + (c.toNat - '0'.toNat)) r else (acc, c :: r)

/-- the digits after the optional sign: `none` when there is none -/
def readNat (s : List Char) : Option (Nat × List Char) :=
  match s with
  | c :: _ => if c.isDigit then some (readDigits 0 s) else none
  | [] => none

/-- `strtol (s, &end, 10)` of libc: `none` is `end == s` (no conversion), else the value and `end`. -/
def strtol (s : List Char) : Option (Int × List Char) :=
  match skipSpace s with
  | [] => none
  | c :: r =>
    if c = '-' then (readNat r).map fun (v, e) => (clampLong (-v), e)
    else if c = '+' then (readNat r).map fun (v, e) => (clampLong v, e)
    else (readNat (c :: r)).map fun (v, e) => (clampLong v, e)

/-- loop over spaces and signs (parse.c 17-22): state `s` and the pointer -/
def signRun : Int → List Char → Int × List Char
  | s, [] => (s, [])
  | s, c :: r =>
    if c = ' ' ∨ c = '+' ∨ c = '-' then signRun (if c = '-' then -1 else s) r
    else (s, c :: r)

/-- coefficient (parse.c 24-32): `none` is `return 0` -/
def readCoef (s : List Char) : Option (Int × List Char) :=
  match strtol s with
  | some r => some r
  | none => match s with
    | [] => none
    | c :: r => if c = 'x' then some (1, c :: r) else none

/-- loop over spaces and stars (parse.c 39-40) -/
def skipStars : List Char → List Char
  | [] => []
  | c :: r => if c = ' ' ∨ c = '*' then skipStars r else c :: r

/-- exponent after `^` (parse.c 63-66) -/
def readExp (s : List Char) : Int × List Char :=
  match strtol s with
  | none => (1, s)
  | some r => r

/-- what follows `x` (parse.c 57-70) -/
def readCaret (s : List Char) : Int × List Char :=
  match s with
  | [] => (1, [])
  | c :: r => if c = '^' then readExp r else (1, c :: r)

/-- variable and power (parse.c 48-71) -/
def readPower (s : List Char) : Int × List Char :=
  match s with
  | [] => (0, [])
  | c :: r => if c = 'x' then readCaret r else (0, c :: r)

/-- `fmpz_poly_set_coeff_si (poly, e, c)` (FLINT): a negative index addresses memory before the array; the array is enlarged to
`e + 1` cells, which overflows for the largest `slong`.  Exhaustion of the memory is not modelled. -/
def setCoeffSi (poly : IPoly) (e c : Int) : Res IPoly :=
  if e < 0 then .ub "negative coefficient index"
  else if e + 1 > slongMax then .ub "signed overflow"
  else .ok fun k => if k = e.toNat then c else poly k

/-- `accept_term` (parse.c 10-75): `none` is `return 0`, otherwise the polynomial and the new `ctx->str`. -/
def acceptTerm (poly : IPoly) (str : List Char) : Res (Option (IPoly × List Char)) :=
  let (s, str1) := signRun 1 str
  match readCoef str1 with
  | none => .ok none
  | some (c0, str2) => do
    let c ← chk (c0 * s)
    let (e, str4) := readPower (skipStars str2)
    let poly ← setCoeffSi poly e c
    .ok (some (poly, str4))

/-- `fmpz_poly_parse` (parse.c 77-93): `none` is `return 0` (the polynomial is then partially modified and not used by the caller).
The first argument is the number of rounds of the `while` loop allowed. -/
def polyParse : Nat → IPoly → List Char → Res (Option IPoly)
  | _, poly, [] => .ok (some poly)
  | 0, _, _ :: _ => .diverge
  | fuel + 1, poly, c :: r =>
    match acceptTerm poly (c :: r) with
    | .ok none => .ok none
    | .ok (some (poly', rest)) => polyParse fuel poly' rest
    | .abort w => .abort w
    | .ub w => .ub w
    | .diverge => .diverge

end Hcp
