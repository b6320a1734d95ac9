import Verif.Basic

/-!
# `arb/se_curve.c`, `jmin`/`imax` of `arb/abel_jacobi.h`, checks of `abel_jacobi_init_poly`
-/

namespace Hcp

/-- `superelliptic_curve` (abel_jacobi.h 30-42).  The polynomial itself is not
kept (only its degree `n` matters here); the array `ni` is a list of length `nj`. -/
structure Sec where
  m : Int
  n : Int
  delta : Int
  g : Int
  j1 : Int
  nj : Int
  ni : List Int
  deriving DecidableEq, Repr

/-- `jmin` (abel_jacobi.h 125-129), every intermediate result overflow-checked. -/
def jmin (m n d : Int) : Res Int := do
  let s ← chk (m + d)
  let t ← chk (s - 1)
  let q ← cdiv t n
  chk (1 + q)

/-- `imax` (abel_jacobi.h 130-135). -/
def imax (j m n d : Int) : Res Int := do
  let jn ← chk (j * n)
  let t ← chk (jn - d)
  let i ← cdiv t m
  if i < n then .ok i else chk (n - 1)

/-- the loop of `sec_init` (se_curve.c 43-44): `k` remaining iterations,
starting at index `j`. -/
def niLoop (m n d j1 : Int) : Nat → Int → Res (List Int)
  | 0, _ => .ok []
  | k + 1, j => do
      let s ← chk (j1 + j)
      let i ← imax s m n d
      let rest ← niLoop m n d j1 k (j + 1)
      .ok (i :: rest)

/-- `flint_malloc(cnt * sizeof(slong))` (se_curve.c 42): the byte count is
computed in `size_t`; a negative count becomes a huge request on which FLINT
aborts.  Simplification: requests of a non-negative count of at most 2^59 words
are assumed to succeed, larger ones abort. -/
def mallocWords (cnt : Int) : Res Unit :=
  if cnt < 0 ∨ 2 ^ 59 < cnt then .abort "flint_malloc: out of memory" else .ok ()

/-- `sec_init` (se_curve.c 20-52).  `n_gcd` takes its arguments as `ulong`. -/
def secInit (m n : Int) : Res Sec :=
  if m < 2 then .abort "need exponent m > 1" else do
  let delta : Int := (Nat.gcd (toUlong m) (toUlong n) : Nat)
  let m1 ← chk (m - 1)
  let n1 ← chk (n - 1)
  let p ← chk (m1 * n1)
  let q ← chk (p - delta)
  let r ← chk (q + 1)
  let g ← cdiv r 2
  let j1 ← jmin m n delta
  let nj ← chk (m - j1)
  mallocWords nj
  let ni ← niLoop m n delta j1 nj.toNat 0
  .ok { m := m, n := n, delta := delta, g := g, j1 := j1, nj := nj, ni := ni }

/-- the checks of `abel_jacobi_init_poly` (aj_struct.c 19-36) on a polynomial of
degree `n` (`-1` for the zero polynomial); `sqfree` is the answer of
`fmpz_poly_is_squarefree`.  The allocations that follow (37-56) are modelled in
`Verif.Model.Lifecycle`. -/
def initPoly (m n : Int) (sqfree : Bool) : Res Sec := do
  let c ← secInit m n
  if c.g < 1 then .abort "no periods if genus < 1" else
  if sqfree = false then .abort "polynomial must be squarefree" else
  .ok c

/-- number of edges requested by `abel_jacobi_init_poly` (aj_struct.c 42):
`n - 1 - (delta == m)`. -/
def treeEdges (c : Sec) : Int := c.n - 1 - (if c.delta = c.m then 1 else 0)

end Hcp
