import Mathlib.Data.Rat.Defs
import Mathlib.Algebra.Order.Ring.Rat
import Mathlib.Algebra.Order.Field.Basic

/-!
# How PARI/GP reads a matrix of complex numbers

Blanks are ignored; the matrix is between brackets, rows are separated by semicolons, entries by commas; an entry is a sum of terms, each of them a decimal number or a decimal number times `I`.
-/

namespace Hcp.Spec

/-- a non empty string of digits -/
def digits (s : List Char) : Option Nat :=
  if s ≠ [] ∧ s.all Char.isDigit then some (Nat.ofDigitChars 10 s 0) else none

/-- an optional sign followed by digits (exponent) -/
def expo : List Char → Option Int
  | '-' :: s => (digits s).map fun n => -(n : Int)
  | '+' :: s => (digits s).map fun n => (n : Int)
  | s => (digits s).map fun n => (n : Int)

/-- `digits`, `digits.` or `digits.digits` -/
def mantissa (s : List Char) : Option ℚ :=
  match s.span (· ≠ '.') with
  | (ip, []) => (digits ip).map fun n => (n : ℚ)
  | (ip, _ :: []) => (digits ip).map fun n => (n : ℚ)
  | (ip, _ :: fp) => (digits ip).bind fun n => (digits fp).map fun (f : Nat) => (n : ℚ) + (f : ℚ) / 10 ^ fp.length

/-- a decimal number without sign -/
def unsigned (s : List Char) : Option ℚ :=
  match s.span (· ≠ 'e') with
  | (mt, []) => mantissa mt
  | (mt, _ :: ex) => (mantissa mt).bind fun v => (expo ex).map fun k => v * 10 ^ k

/-- a decimal number -/
def number : List Char → Option ℚ
  | '-' :: s => (unsigned s).map fun v => -v
  | '+' :: s => unsigned s
  | s => unsigned s

/-- a term: a number, or a number times `I`; the result is (real part, imaginary part) -/
def term (s : List Char) : Option (ℚ × ℚ) :=
  match s.span (· ≠ '*') with
  | (x, []) => (number x).map fun v => (v, 0)
  | (x, ['*', 'I']) => (number x).map fun v => (0, v)
  | _ => none

/-- the first term of a sum and what follows: a sign begins a new term unless it is the first character (`prev = none`) or follows the `e` of an exponent -/
def firstTerm : (prev : Option Char) → List Char → List Char × List Char
  | _, [] => ([], [])
  | prev, c :: s =>
    if (c = '+' ∨ c = '-') ∧ prev ≠ none ∧ prev ≠ some 'e' then ([], c :: s)
    else (c :: (firstTerm (some c) s).1, (firstTerm (some c) s).2)

/-- a sum of terms (at most `k`) -/
def sum : (k : Nat) → List Char → Option (ℚ × ℚ)
  | 0, _ => none
  | k + 1, s =>
    let p := firstTerm none s
    if p.2 = [] then term p.1
    else (term p.1).bind fun x => (sum k p.2).map fun y => (x.1 + y.1, x.2 + y.2)

/-- an entry -/
def entry (s : List Char) : Option (ℚ × ℚ) := sum s.length s

/-- a row -/
def row (s : List Char) : Option (List (ℚ × ℚ)) := (s.splitOn ',').mapM entry

/-- the rows between the brackets -/
def rows (s : List Char) : Option (List (List (ℚ × ℚ))) :=
  if s = [] then some [] else (s.splitOn ';').mapM row

/-- a matrix: its rows -/
def gpMatrix (s : List Char) : Option (List (List (ℚ × ℚ))) :=
  match s.filter (· ≠ ' ') with
  | '[' :: t => if t.getLast? = some ']' then rows t.dropLast else none
  | _ => none

/-- a list of pairs `[a`, `b]` -/
def pairs : List (List Char) → Option (List (Nat × Nat))
  | [] => some []
  | ('[' :: a) :: b :: r =>
    if b.getLast? = some ']' then
      (digits a).bind fun x => (digits b.dropLast).bind fun y => (pairs r).map fun l => (x, y) :: l
    else none
  | _ => none

/-- a vector `[r, n, [a,b], …]`: the text of `r`, the number `n`, the pairs; blanks and new lines are ignored -/
def gpTree (s : List Char) : Option (List Char × Nat × List (Nat × Nat)) :=
  match s.filter fun c => c ≠ ' ' ∧ c ≠ '\n' with
  | '[' :: t =>
    if t.getLast? = some ']' then
      match t.dropLast.splitOn ',' with
      | r :: n :: l => (digits n).bind fun k => (pairs l).map fun e => (r, k, e)
      | _ => none
    else none
  | _ => none

/-- the text of a decimal number: sign, integer part, fractional part, exponent -/
structure DecText where
  neg : Bool
  ip : List Char
  fp : Option (List Char)
  ex : Option (Option Bool × List Char)
  ip_ne : ip ≠ []
  ip_dig : ∀ c ∈ ip, c.isDigit = true
  fp_dig : ∀ f, fp = some f → ∀ c ∈ f, c.isDigit = true
  ex_ne : ∀ b e, ex = some (b, e) → e ≠ []
  ex_dig : ∀ b e, ex = some (b, e) → ∀ c ∈ e, c.isDigit = true

/-- the exponent as text -/
def exText : Option (Option Bool × List Char) → List Char
  | none => []
  | some (none, e) => 'e' :: e
  | some (some true, e) => 'e' :: '-' :: e
  | some (some false, e) => 'e' :: '+' :: e

/-- the fractional part as text -/
def fpText : Option (List Char) → List Char
  | none => []
  | some f => '.' :: f

/-- the text -/
def DecText.text (t : DecText) : List Char :=
  (if t.neg then ['-'] else []) ++ (t.ip ++ fpText t.fp ++ exText t.ex)

/-- value of the fractional part -/
def fpVal : Option (List Char) → ℚ
  | none => 0
  | some f => Nat.ofDigitChars 10 f 0 / 10 ^ f.length

/-- the exponent -/
def exVal : Option (Option Bool × List Char) → Int
  | none => 0
  | some (some true, e) => -(Nat.ofDigitChars 10 e 0 : Int)
  | some (_, e) => (Nat.ofDigitChars 10 e 0 : Int)

/-- the number -/
def DecText.value (t : DecText) : ℚ :=
  (if t.neg then -1 else 1) * ((Nat.ofDigitChars 10 t.ip 0 + fpVal t.fp) * 10 ^ exVal t.ex)

end Hcp.Spec
