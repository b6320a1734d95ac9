import Verif.Model.Integrate

/-!
# Model of the direct call of the double-exponential rule (`arb/integrals_de.c`, lines 120-140)
-/

namespace Hcp

variable {A : Type}

/-- `de_integrals` (integrals_de.c 120-140). `par u d i j m prec` stands for the results of `de_params(e, h, l, u, d, 0, i, j, m, prec)`: `DePar.err` is the addition of the bound `e`, which is stored in the
scheme (line 132) and not used afterwards. `sz` is the length of the array `u`; `big` of the root routine is the test of `integrals_de.c` 28-31 on the precision and the number of points. -/
def deIntegrals (X : Arith A) (T : Tests A) (F : Fns A) (par : (Nat → A) → Nat → Nat → Nat → Nat → Nat → Res (DePar A)) (sz : Nat) (u : Nat → A) (d1 d : Nat) (c : Shape) (flag prec : Nat) : Res (Nat → A) := do
  let p ← par u d (c.n - 1) c.j1 c.m prec
  let de ← deIntInit X F p.h p.lam p.n p.err c.m
  deIntegralsPrecomp X T sz u d1 d c de flag (decide (1000 < prec) && decide (5 < d))

end Hcp
