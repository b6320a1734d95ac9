import Verif.Model.Life
import Verif.Model.Integrate

/-!
# Model of the working memory

Blocks which are allocated during a call and are not referenced from the object: integration schemes, working numbers and working matrices.
The heap is the one of `Verif.Model.Life`.  A number which has been initialised owns one block (its digits; the library allocates it when
the number gets a mantissa of more than two words, which is the case of the numbers here as soon as the precision exceeds 128 bits), an array
of numbers owns one block for the array and one per number, a matrix is one block.
-/

namespace Hcp

/-- an array of numbers: the block of the array, the blocks of the numbers -/
structure NVec where
  arr : Nat
  digits : List Nat

/-- `_arb_vec_init(len)`, `_acb_vec_init(len)` -/
def vecInit (len : Nat) (h : Heap) : NVec × Heap :=
  let (arr, h) := h.alloc
  let (ds, h) := Heap.allocN len h
  (⟨arr, ds⟩, h)

/-- `_arb_vec_clear(v, k)`, `_acb_vec_clear(v, k)`: clears the `k` first numbers and frees the array; undefined when there are fewer. -/
def vecClear (v : NVec) (k : Nat) (h : Heap) : Res Heap :=
  if k ≤ v.digits.length then do
    let h ← Heap.freeAll (v.digits.take k) h
    h.free v.arr
  else .ub "number outside of the array"

/-- `_arb_vec_cos_pi` (gc_int.c 10-36): `x` has `len + 1` entries (17), `t` is a working number (20-23), `_acb_vec_clear(x, len)` (35). -/
def cosPiMem (c : NVec) (len : Nat) (h : Heap) : Res Heap := do
  let (x, h) := vecInit (len + 1) h
  let (t, h) := h.alloc
  Heap.touchAll (x.arr :: x.digits) h
  let h ← h.free t
  Heap.touchAll (c.arr :: c.digits) h
  vecClear x len h

/-- `gc_int_t` (abel_jacobi.h): `n`, `len` and the nodes -/
structure GcMem where
  n : Nat
  len : Nat
  x : NVec

/-- `gc_int_init` (gc_int.c 38-46) -/
def gcIntInitMem (n : Nat) (h : Heap) : Res (GcMem × Heap) := do
  let len := n / 2
  let (x, h) := vecInit len h
  if n ≠ 0 then do
    let h ← cosPiMem x len h
    .ok (⟨n, len, x⟩, h)
  else .ok (⟨n, len, x⟩, h)

/-- `gc_int_clear` (gc_int.c 48-52) -/
def gcIntClearMem (gc : GcMem) (h : Heap) : Res Heap := vecClear gc.x gc.len h

/-- test and replacement of the scheme (integrals_gc.c 102-106) -/
def refreshGcMem (cn cg : Nat) (gc : GcMem) (n : Nat) (h : Heap) : Res (GcMem × Heap) :=
  if gcReplace gc.n n cn cg then do
    let h ← gcIntClearMem gc h
    gcIntInitMem n h
  else .ok (gc, h)

/-- `integrals_edge_gc` (integrals_gc.c 95-112): `n` is the result of `gc_params`, `cn` and `cg` are `c.n` and `c.g`; the error bound `e`; four working
numbers of `gc_integrals_precomp` (integrals_gc.c 80-83), which reads the nodes. -/
def edgeGcMem (cn cg : Nat) (gc : GcMem) (n : Nat) (h : Heap) : Res (GcMem × Heap) := do
  let (e, h) := h.alloc
  let (gc, h) ← refreshGcMem cn cg gc n h
  let (tmp, h) := Heap.allocN 4 h
  Heap.touchAll (gc.x.arr :: gc.x.digits) h
  let h ← Heap.freeAll tmp h
  let h ← h.free e
  .ok (gc, h)

/-- loop over the edges (integrals_gc.c 133-137) -/
def edgesGcMem (cn cg : Nat) : List Nat → GcMem → Heap → Res (GcMem × Heap)
  | [], gc, h => .ok (gc, h)
  | n :: ns, gc, h => do
    let (gc, h) ← edgeGcMem cn cg gc n h
    edgesGcMem cn cg ns gc h

/-- `integrals_tree_gc` (integrals_gc.c 120-140); `ns` are the numbers of nodes of the edges, in the order of the loop. -/
def treeGcMem (cn cg : Nat) (ns : List Nat) (h : Heap) : Res Heap := do
  let (t, h) := h.alloc
  let (gc, h) ← gcIntInitMem 0 h
  let (gc, h) ← edgesGcMem cn cg ns gc h
  let h ← gcIntClearMem gc h
  h.free t

/-- `de_int_t` (abel_jacobi.h): `n`, the numbers `h`, `l`, `e`, `factor`, the three arrays; `none`: not initialised -/
structure DeMem where
  n : Nat
  body : Option (List Nat × NVec × NVec × NVec)

/-- `de_int_init` (de_int.c 32-100): four numbers (44-46, 55), seven working numbers (52, 62-67, 92-98), three arrays (58-60). -/
def deIntInitMem (n : Nat) (h : Heap) : Res (DeMem × Heap) :=
  if n ≠ 0 then do
    let (fs, h) := Heap.allocN 4 h
    let (x, h) := vecInit n h
    let (dx, h) := vecInit n h
    let (ch2m, h) := vecInit n h
    let (tmp, h) := Heap.allocN 7 h
    Heap.touchAll (x.digits ++ dx.digits ++ ch2m.digits) h
    let h ← Heap.freeAll tmp h
    .ok (⟨n, some (fs, x, dx, ch2m)⟩, h)
  else .ok (⟨n, none⟩, h)

/-- `de_int_clear` (de_int.c 102-115) -/
def deIntClearMem (de : DeMem) (h : Heap) : Res Heap :=
  if de.n ≠ 0 then
    match de.body with
    | none => .ub "scheme not initialised"
    | some (fs, x, dx, ch2m) => do
      let h ← Heap.freeAll fs h
      let h ← vecClear x de.n h
      let h ← vecClear dx de.n h
      vecClear ch2m de.n h
  else .ok h

/-- reads of the scheme by `de_integrals_precomp` and of `de->e` (integrals_de.c 165-166) -/
def deReadMem (de : DeMem) (h : Heap) : Res Unit :=
  match de.body with
  | none => .ub "scheme not initialised"
  | some (fs, x, dx, ch2m) => Heap.touchAll (fs ++ x.arr :: x.digits ++ dx.arr :: dx.digits ++ ch2m.arr :: ch2m.digits) h

/-- test and replacement of the scheme (integrals_de.c 152-163) -/
def refreshDeMem (cn cg : Nat) (same : Bool) (de : DeMem) (n : Nat) (h : Heap) : Res (DeMem × Heap) :=
  if de.n = 0 ∨ same = false then
    (if deReplace de.n n cn cg then do
      let h ← deIntClearMem de h
      deIntInitMem n h
    else .ok (de, h))
  else .ok (de, h)

/-- `integrals_edge_de` (integrals_de.c 141-173): `n` is the result of `de_params`, `cn` and `cg` are `c.n` and `c.g`, `same` is the flag `AJ_DE_SAME`;
`de_integrals_precomp` has four working numbers and an array of `m` numbers (integrals_de.c 20-25, 112-116). -/
def edgeDeMem (cn cg : Nat) (m : Nat) (same : Bool) (de : DeMem) (n : Nat) (h : Heap) : Res (DeMem × Heap) := do
  let (hle, h) := Heap.allocN 3 h
  let (de, h) ← refreshDeMem cn cg same de n h
  let (tmp, h) := Heap.allocN 4 h
  let (z, h) := vecInit m h
  deReadMem de h
  let h ← Heap.freeAll tmp h
  let h ← vecClear z m h
  let h ← Heap.freeAll hle h
  .ok (de, h)

/-- loop over the edges (integrals_de.c 188-192) -/
def edgesDeMem (cn cg : Nat) (m : Nat) (same : Bool) : List Nat → DeMem → Heap → Res (DeMem × Heap)
  | [], de, h => .ok (de, h)
  | n :: ns, de, h => do
    let (de, h) ← edgeDeMem cn cg m same de n h
    edgesDeMem cn cg m same ns de h

/-- `integrals_tree_de` (integrals_de.c 175-200) -/
def treeDeMem (cn cg : Nat) (m : Nat) (same : Bool) (ns : List Nat) (h : Heap) : Res Heap := do
  let (t, h) := h.alloc
  let (de, h) ← edgesDeMem cn cg m same ns ⟨0, none⟩ h
  let h ← deIntClearMem de h
  h.free t

/-- `shift_number` (intersections_tree.c 98-129): `rho` and `psi` are initialised (104-105); nothing is cleared. -/
def shiftNumberMem (h : Heap) : Heap := (Heap.allocN 2 h).2

/-- one pair of edges (intersections_tree.c 165-191); `is_neg_abad` (131-142) initialises and clears one number. -/
def pairMem (ek el : Nat × Nat) (h : Heap) : Res Heap :=
  if ek.1 ≠ el.1 ∧ ek.2 ≠ el.1 then .ok h
  else if el.1 = ek.1 then
    let h := shiftNumberMem h
    let (r, h) := h.alloc
    h.free r
  else if el.1 = ek.2 then .ok (shiftNumberMem h)
  else .abort "invalid tree"

/-- inner loop (intersections_tree.c 163-192) -/
def rowMem (ek : Nat × Nat) : List (Nat × Nat) → Heap → Res Heap
  | [], h => .ok h
  | el :: ls, h => do
    let h ← pairMem ek el h
    rowMem ek ls h

/-- `intersection_tree` (intersections_tree.c 144-194) for the edges `(a, b)` of the tree -/
def intersectionMem : List (Nat × Nat) → Heap → Res Heap
  | [], h => .ok h
  | ek :: ls, h => do
    let h ← rowMem ek ls h
    intersectionMem ls h

/-- `acb_mat_solve_real` (tau_matrix.c 47-110): eight allocations (61-66, 73-74), then `a`, `b`, `t`, `c`, `d` are cleared (100-104), `x` is
initialised a second time (105), and `LU` and `perm` are freed (106-107). -/
def solveRealMem (n m : Nat) (h : Heap) : Res Heap :=
  if n = 0 ∨ m = 0 then .ok h
  else do
    let (abtcd, h) := Heap.allocN 5 h
    let (_, h) := h.alloc
    let (perm, h) := h.alloc
    let (lu, h) := h.alloc
    let h ← Heap.freeAll abtcd h
    let (_, h) := h.alloc
    let h ← h.free lu
    h.free perm

/-- `acb_mat_solve_charpoly` (tau_matrix.c 112-133): `chi` and `AB` -/
def solveCharpolyMem (h : Heap) : Res Heap := do
  let (bs, h) := Heap.allocN 2 h
  Heap.freeAll bs h

/-- `acb_mat_solve_multi` (tau_matrix.c 136-179): `ok1`, `ok2`, `ok3` are the results of the three solvers; `det` is initialised (142) and
never cleared; `i`, `iA`, `iB` are initialised and cleared (163-176).  The determinant is assumed to exclude zero (otherwise `abort`). -/
def solveMultiMem (n m : Nat) (ok1 ok2 ok3 : Bool) (h : Heap) : Res Heap :=
  if ok1 then .ok h
  else do
    let (_, h) := h.alloc
    let h ← solveRealMem n m h
    if ok2 then .ok h
    else do
      let (is, h) := Heap.allocN 3 h
      let h ← solveRealMem n m h
      let h ← if ok3 then .ok h else solveCharpolyMem h
      Heap.freeAll is h

end Hcp
