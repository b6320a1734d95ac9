import Verif.Basic
import Verif.Model.Cli

/-!
# Model of the memory held by an `abel_jacobi_t`

The heap is the list of the live blocks.  Every array or matrix referenced from the object is one block (the digits of large numbers inside
a block belong to it).  Blocks allocated during one call and not referenced from the object
(integration schemes, working numbers and matrices) are in `Verif.Model.SchemeMem`.
-/

namespace Hcp

/-- heap: next unused address and addresses of the live blocks -/
structure Heap where
  next : Nat
  live : List Nat

/-- `flint_malloc`, `_acb_vec_init`, `acb_mat_init`, …: a new block -/
def Heap.alloc (h : Heap) : Nat × Heap := (h.next, ⟨h.next + 1, h.next :: h.live⟩)

/-- `k` successive allocations -/
def Heap.allocN : Nat → Heap → List Nat × Heap
  | 0, h => ([], h)
  | k + 1, h =>
    let (p, h) := h.alloc
    let (ps, h) := Heap.allocN k h
    (p :: ps, h)

/-- `flint_free`: undefined on an address which is not a live block -/
def Heap.free (p : Nat) (h : Heap) : Res Heap :=
  if p ∈ h.live then .ok ⟨h.next, h.live.erase p⟩ else .ub "invalid free"

/-- successive deallocations -/
def Heap.freeAll : List Nat → Heap → Res Heap
  | [], h => .ok h
  | p :: ps, h => do
    let h ← h.free p
    Heap.freeAll ps h

/-- read or write in a block: undefined when it is not live -/
def Heap.touch (p : Nat) (h : Heap) : Res Unit := if p ∈ h.live then .ok () else .ub "use of a freed block"

/-- accesses to several blocks -/
def Heap.touchAll : List Nat → Heap → Res Unit
  | [], _ => .ok ()
  | p :: ps, h => do
    h.touch p
    Heap.touchAll ps h

/-- a loop (abel_jacobi.h 97-101): the number of terms and the block -/
structure LoopPtr where
  n : Nat
  ptr : Nat

/-- blocks referenced by `abel_jacobi_t` (abel_jacobi.h 21-34, 79-101, 121-152); `g` and `tn` are the genus and the number of edges. -/
structure AjMem where
  g : Nat
  tn : Nat
  pol : Nat
  ni : Nat
  roots : Nat
  edges : Nat
  data : Nat
  dataU : List Nat
  loopA : Nat
  loopB : Nat
  la : List LoopPtr
  lb : List LoopPtr
  integrals : Nat
  omega0 : Nat
  omega1 : Nat
  tau : Nat
  proj : Nat

/-- `abel_jacobi_init_poly` (aj_struct.c 19-55) on a usable curve: `sec_init` (se_curve.c 39, 44), roots (aj_struct.c 41), `tree_init`
(spanning_tree.c 130-138; `data` is the null pointer, here the address `0`, never allocated), `homol_init` (homol.c 31-38),
four complex matrices and `proj` (aj_struct.c 48-53). -/
def ajInit (g tn : Nat) (h : Heap) : AjMem × Heap :=
  let (pol, h) := h.alloc
  let (ni, h) := h.alloc
  let (roots, h) := h.alloc
  let (edges, h) := h.alloc
  let (loopA, h) := h.alloc
  let (loopB, h) := h.alloc
  let (integrals, h) := h.alloc
  let (omega0, h) := h.alloc
  let (omega1, h) := h.alloc
  let (tau, h) := h.alloc
  let (proj, h) := h.alloc
  ({ g, tn, pol, ni, roots, edges, data := 0, dataU := [], loopA, loopB, la := List.replicate g ⟨0, 0⟩, lb := List.replicate g ⟨0, 0⟩,
     integrals, omega0, omega1, tau, proj }, h)

/-- `tree_ydata_init` (ydata.c 131-138): the array and one vector per edge -/
def ydataInit (a : AjMem) (h : Heap) : AjMem × Heap :=
  let (data, h) := h.alloc
  let (us, h) := Heap.allocN a.tn h
  ({ a with data := data, dataU := us }, h)

/-- `tree_ydata_clear` (ydata.c 140-147); the pointers stay in the object. -/
def ydataClear (a : AjMem) (h : Heap) : Res Heap := do
  h.touch a.data
  let h ← Heap.freeAll a.dataU h
  h.free a.data

/-- `loop_init` for the lengths given (homol.c 9-14) -/
def loopsInit : List Nat → Heap → List LoopPtr × Heap
  | [], h => ([], h)
  | n :: ns, h =>
    let (p, h) := h.alloc
    let (ls, h) := loopsInit ns h
    (⟨n, p⟩ :: ls, h)

/-- `symplectic_basis` (symplectic_basis.c 42-86): reads the edges, writes new loops in the two arrays.  (The code alternates between the
two arrays, which only changes the addresses.) -/
def basisMem (a : AjMem) (na nb : List Nat) (h : Heap) : Res (AjMem × Heap) := do
  h.touch a.edges
  Heap.touchAll (a.data :: a.dataU) h
  h.touch a.loopA
  h.touch a.loopB
  let (la, h) := loopsInit na h
  let (lb, h) := loopsInit nb h
  .ok ({ a with la := la, lb := lb }, h)

/-- `abel_jacobi_compute` (aj_struct.c 72-182) for flags `flag`, `na` and `nb` being the numbers of terms of the loops found -/
def ajCompute (a : AjMem) (flag : Nat) (na nb : List Nat) (h : Heap) : Res (AjMem × Heap) := do
  Heap.touchAll [a.roots, a.edges, a.pol, a.ni] h
  let (a, h) := ydataInit a h
  let (a, h) ← basisMem a na nb h
  if flag &&& ajNoInt ≠ 0 then .ok (a, h)
  else do
    let (integrals, h) := h.alloc
    let a := { a with integrals := integrals }
    Heap.touchAll (a.integrals :: a.edges :: a.data :: a.dataU) h
    let h ← ydataClear a h
    if flag &&& ajNoAb ≠ 0 then .ok (a, h)
    else do
      Heap.touchAll ([a.omega0, a.omega1, a.loopA, a.loopB, a.integrals] ++ a.la.map LoopPtr.ptr ++ a.lb.map LoopPtr.ptr) h
      if flag &&& ajNoTau ≠ 0 then .ok (a, h)
      else do
        Heap.touchAll [a.tau, a.omega0, a.omega1] h
        .ok (a, h)

/-- `loop_clear` on an array of loops (homol.c 16-21, 44-45) -/
def loopsClear (ls : List LoopPtr) : List Nat := (ls.filter fun l => l.n ≠ 0).map LoopPtr.ptr

/-- `abel_jacobi_clear` (aj_struct.c 57-70), `tree_clear` (spanning_tree.c 140-144), `homol_clear` (homol.c 40-49),
`sec_clear` (se_curve.c 55-60) -/
def ajClear (a : AjMem) (h : Heap) : Res Heap := do
  let h ← Heap.freeAll [a.roots, a.integrals, a.omega0, a.omega1, a.tau, a.proj, a.edges] h
  h.touch a.loopA
  let h ← Heap.freeAll (loopsClear a.la) h
  let h ← h.free a.loopA
  h.touch a.loopB
  let h ← Heap.freeAll (loopsClear a.lb) h
  let h ← h.free a.loopB
  Heap.freeAll [a.pol, a.ni] h

/-- one call of `abel_jacobi_compute`: flags and numbers of terms of the loops it finds -/
structure Call where
  flag : Nat
  na : List Nat
  nb : List Nat

/-- successive calls of `abel_jacobi_compute` -/
def ajCalls : List Call → AjMem → Heap → Res (AjMem × Heap)
  | [], a, h => .ok (a, h)
  | c :: cs, a, h => do
    let (a, h) ← ajCompute a c.flag c.na c.nb h
    ajCalls cs a h

/-- `init; compute*; clear` on an empty heap (address 0 is the null pointer) -/
def ajHistory (g tn : Nat) (cs : List Call) : Res Heap := do
  let (a, h) := ajInit g tn ⟨1, []⟩
  let (a, h) ← ajCalls cs a h
  ajClear a h

end Hcp
