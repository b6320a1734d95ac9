import Verif.Props.CliFlags

/-!
# C33: the working precision of the families
-/

namespace Hcp

open Spec

variable {A B C W : Type} {O : MatOps}

/-- the options naming a family of polynomials -/
def familyOpt : FPol → List Char
  | .xn1 => "--xn1".toList
  | .exp => "--exp".toList
  | .bern => "--bern".toList

/-- **C33 (negation).** `main` evaluates `prec + n + 40` on longs when a family is chosen: for all decimal texts of numbers `p` and `n`, the command line `--prec p --xn1 n` (or `--exp`, `--bern`) is a signed overflow as soon as
`p + n` or `p + n + 40` does not fit, whatever the libraries do. -/
theorem C33_precision_fails (E : MainEnv A B C W O) (fuel : Nat) (f : FPol) {wp wn : List Char} {p n : Int} (hp : Literal wp p) (hn : Literal wn n) (fp : FitsSlong p) (fn : FitsSlong n) (h : ¬ FitsSlong (p + n) ∨ ¬ FitsSlong (p + n + 40)) :
    periodsMain E fuel ["--prec".toList, wp, familyOpt f, wn] = .ub "signed overflow" := by
  have ep : atol wp = p := C77_exact hp fp (atol_reads wp)
  have en : atol wn = n := C77_exact hn fn (atol_reads wn)
  have hread : readArgs ["--prec".toList, wp, familyOpt f, wn] = .ok (some { Opts.init with prec := p, n := n, fPol := some f }) := by
    rw [← ep, ← en]
    cases f <;> rfl
  have hpol : polPrec { Opts.init with prec := p, n := n, fPol := some f } = .ub "signed overflow" := by
    unfold polPrec
    dsimp only
    by_cases h1 : FitsSlong (p + n)
    · rw [chk_ok h1, Res.ok_bind]
      unfold chk
      rw [if_neg (h.resolve_left (not_not.2 h1))]
      rfl
    · unfold chk
      rw [if_neg h1]
      rfl
  unfold periodsMain
  rw [hread, Res.ok_bind]
  unfold mainOpts
  dsimp only
  rw [hpol]
  rfl

/-- `--prec 9223372036854775800 --xn1 5`: both operands are longs, their sum fits, not with 40 added -/
example : FitsSlong 9223372036854775800 ∧ FitsSlong 5 ∧ FitsSlong (9223372036854775800 + 5) ∧ ¬ FitsSlong (9223372036854775800 + 5 + 40) ∧
    atol "9223372036854775800".toList = 9223372036854775800 := by
  refine ⟨?_, ?_, ?_, ?_, ?_⟩
  · unfold FitsSlong slongMin slongMax; omega
  · unfold FitsSlong slongMin slongMax; omega
  · unfold FitsSlong slongMin slongMax; omega
  · unfold FitsSlong slongMin slongMax; omega
  · decide +kernel

end Hcp
