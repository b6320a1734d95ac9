import Verif.Basic

/-!
# Model of `arb/spanning_tree.c`

Weights live in an arbitrary type with the comparisons the C code performs on
`double`; points and the parameter functions are arbitrary as well.
Sizes are natural numbers (the product `len * (len - 1)` is assumed not to overflow).
-/

namespace Hcp

/-- the operations on `double` used by `spanning_tree.c`: `x < y`, the constants `0.` and `-1` and
the truth value of `!x`. -/
structure WOps (W : Type) where
  lt : W → W → Bool
  isZero : W → Bool
  zero : W
  negOne : W

/-- `edge_t` (abel_jacobi.h 86-93), without the unused field `data`. -/
structure Edge (W : Type) where
  a : Nat
  b : Nat
  r : W
  deriving DecidableEq

variable {W : Type}

/-- `param_edge` (spanning_tree.c 35-49); `f` is `param(w[i], w[j], w[k])` as a function of `k`. -/
def paramEdge (o : WOps W) (f : Nat → W) (i j len : Nat) : W :=
  (List.range len).foldl
    (fun p k => if k == i || k == j then p
      else if o.lt p o.zero || o.lt (f k) p then f k else p) o.negOne

/-- store at the next free position of an array with `cap` cells. -/
def pushChecked {α : Type} (cap : Nat) (l : List α) (x : α) : Res (List α) :=
  if l.length < cap then .ok (l ++ [x]) else .ub "e[k] out of range"

/-- inner loop on `j` of `edges_init` (spanning_tree.c 59-65); `cnt` iterations remain. -/
def edgesRow (cap : Nat) (wt : Nat → Nat → W) (i : Nat) : (cnt j : Nat) → List (Edge W) → Res (List (Edge W))
  | 0, _, l => .ok l
  | cnt + 1, j, l => do
    let l' ← pushChecked cap l { a := i, b := j, r := wt i j }
    edgesRow cap wt i cnt (j + 1) l'

/-- outer loop on `i` of `edges_init` (spanning_tree.c 57-66); `cnt = len - i`. -/
def edgesLoop (cap : Nat) (wt : Nat → Nat → W) (len : Nat) : (cnt i : Nat) → List (Edge W) → Res (List (Edge W))
  | 0, _, l => .ok l
  | cnt + 1, i, l => do
    let l' ← edgesRow cap wt i (len - (i + 1)) (i + 1) l
    edgesLoop cap wt len cnt (i + 1) l'

/-- `edges_init` (spanning_tree.c 51-67) on the array of `cap` cells allocated by the caller. -/
def edgesInit (cap : Nat) (wt : Nat → Nat → W) (len : Nat) : Res (List (Edge W)) :=
  edgesLoop cap wt len len 0 []

/-- `tree_struct` (abel_jacobi.h 95-103) without `data`. -/
structure Tree (W : Type) where
  n : Nat
  min : Nat
  r : W
  e : List (Edge W)
  deriving DecidableEq

/-- `tree_init` (spanning_tree.c 136-144). -/
def treeInit (o : WOps W) (n : Nat) : Tree W := { n := n, min := 0, r := o.zero, e := [] }

/-- read `t[v]` in the array of `len` flags. -/
def readFlag (len : Nat) (t : Nat → Bool) (v : Nat) : Res Bool :=
  if v < len then .ok (t v) else .ub "t[v] out of range"

/-- the loop `for (i = n - 1; k && t[e[i].a] == t[e[i].b]; i--);` (spanning_tree.c 112);
the argument is `i + 1`, so `0` is an access to `e[-1]`. -/
def scanDown (len : Nat) (e : List (Edge W)) (t : Nat → Bool) (first : Bool) : Nat → Res Nat
  | 0 => .ub "e[-1]"
  | i + 1 =>
    if first then .ok i
    else match e[i]? with
      | none => .ub "e[i] out of range"
      | some x => do
        let ta ← readFlag len t x.a
        let tb ← readFlag len t x.b
        if ta == tb then scanDown len e t first i else .ok i

/-- `edge_flip` (spanning_tree.c 10-12). -/
def Edge.flip (x : Edge W) : Edge W := { x with a := x.b, b := x.a }

/-- local state of the selection loop. -/
structure Sel (W : Type) where
  e : List (Edge W)
  t : Nat → Bool
  tree : Tree W

/-- "save worst edge and complexity estimate" (spanning_tree.c 123-128). -/
def saveWorst (o : WOps W) (tr : Tree W) (k : Nat) (x : Edge W) : Tree W :=
  if o.isZero tr.r || o.lt x.r tr.r then { tr with r := x.r, min := k } else tr

/-- one iteration of the selection loop (spanning_tree.c 106-129). -/
def selStep (o : WOps W) (len k : Nat) (s : Sel W) : Res (Sel W) := do
  let i ← scanDown len s.e s.t (k == 0) s.e.length
  match s.e[i]? with
  | none => .ub "e[i] out of range"
  | some x0 => do
    let tb ← readFlag len s.t x0.b
    let x := if tb then x0.flip else x0
    let _ ← readFlag len s.t x.a
    let _ ← readFlag len s.t x.b
    let t := fun v => if v = x.a ∨ v = x.b then true else s.t v
    let tr := { s.tree with e := s.tree.e ++ [x] }
    .ok { e := s.e.set i x, t := t, tree := saveWorst o tr k x }

/-- the selection loop (spanning_tree.c 105-129). -/
def selLoop (o : WOps W) (len : Nat) : (cnt k : Nat) → Sel W → Res (Sel W)
  | 0, _, s => .ok s
  | cnt + 1, k, s => do
    let s' ← selStep o len k s
    selLoop o len cnt (k + 1) s'

/-- `spanning_tree` (spanning_tree.c 75-134).  `wt i j` is `param_edge(param, w, i, j, len)`;
`sort` is `qsort` with `edge_cmp` (69-73, 99); the old contents of `tree->e` are overwritten.  The choice of
`param` from `type` (91-96) is made by the caller, `wt` being arbitrary. -/
def spanningTree (o : WOps W) (sort : List (Edge W) → List (Edge W)) (wt : Nat → Nat → W) (tr : Tree W)
    (len : Nat) : Res (Tree W) := do
  let e ← edgesInit (len * (len - 1) / 2) wt len
  let s ← selLoop o len tr.n 0 { e := sort e, t := fun _ => false, tree := { tr with e := [] } }
  .ok s.tree

end Hcp
