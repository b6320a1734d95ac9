import Verif.Proofs.Main
import Verif.Props.LeadingCoeff

/-!
# C60: the program `periods`, from the command line to what it prints
-/

namespace Hcp
open Spec

variable {A B C W : Type} {O : MatOps} {R : A → ℂ → Prop} {RB : B → ℝ → Prop}

/-- **C60 (partial).** For every command line with exactly one option selecting the curve (not `--bernrev`, see C35), anywhere among any other options: if the program does not print its usage message and `main` reaches the printing, then
the polynomial is the documented one, it is squarefree of degree at least 2, `m` and the precision are the operands of the last `-m` and `--prec` (default 2 and 128), the number of differentials is the genus;
unless `--bench` occurs something is printed; and whatever is printed is the object asked for (the tree, the integrals, the matrices of periods, or `tau`), and it is right for the curve `y^m = f(x)` in the sense of C59,
provided that the run meets the conditions of C56 (`GoodRun`).
Missing: the factor of C59 on the integrals and periods, the conditions of C56, several options selecting the curve (C35). -/
theorem C60_program_partial {RM : {n m : Nat} → O.M n m → Matrix (Fin n) (Fin m) ℝ → Prop} {RC : {n m : Nat} → O.C n m → Matrix (Fin n) (Fin m) ℂ → Prop} {RK : O.K → ℂ → Prop} (M : MatEncl O RM RC RK)
    {E : MainEnv A B C W O} (S : E.Sound R RB RC) {pre post : List Cmd} {cv : Cmd} (hpre : ∀ d ∈ pre, d.isCurve = false) (hpost : ∀ d ∈ post, d.isCurve = false) (hcur : cv.isCurve = true) (hside : SideCond cv)
    (hcomp : Complete (pre ++ cv :: post)) {fuel : Nat} {r : MainRun A W O} (hrun : periodsMain E fuel (argv (pre ++ cv :: post)) = .ok (some r))
    (hgood : ∀ out x, ∀ P : Polynomial ℤ, r.out = some out → P.coeff = r.poly → RootsOf P x → GoodRun (E.aj r.poly) R fuel r.c r.o.flag P.natDegree x out) :
    ∃ P : Polynomial ℤ, P.coeff = r.poly ∧ Documented E.fam P.coeff cv ∧ 2 ≤ P.natDegree ∧ Squarefree (P.map (Int.castRingHom ℚ)) ∧ 2 ≤ r.o.m ∧ IsGenus r.o.m P.natDegree r.c.shape.g ∧
      (((∀ v, Cmd.num .m v ∉ pre ++ cv :: post) → r.o.m = 2) ∧ ∀ p v q, pre ++ cv :: post = p ++ .num .m v :: q → (∀ w, Cmd.num .m w ∉ q) → r.o.m = atol v) ∧
      (((∀ v, Cmd.num .prec v ∉ pre ++ cv :: post) → r.o.prec = 128) ∧ ∀ p v q, pre ++ cv :: post = p ++ .num .prec v :: q → (∀ w, Cmd.num .prec w ∉ q) → r.o.prec = atol v) ∧
      ((∀ v, Cmd.num .bench v ∉ pre ++ cv :: post) → ∃ s, r.shown = some s) ∧
      ∀ s, r.shown = some s → ∃ out, r.out = some out ∧ ajRun (E.aj r.poly) fuel r.c r.o.flag r.o.prec (treeInit (E.aj r.poly).wops (treeEdges r.c).toNat) = .ok out ∧ ShownIs s out (asked (pre ++ cv :: post)) ∧
        ∃ x, RootsOf P x ∧ (∀ k, R ((E.aj r.poly).roots (out.intprec + 10) k) (x k)) ∧ ∃ α Z ca cb cc Q, α ^ r.o.m.toNat = (P.leadingCoeff : ℂ) ∧
          PolyRight (fun j => α ^ j) (E.aj r.poly) R RC r.o.m.toNat (P.map (Int.castRingHom ℂ)) x r.c out Z ca cb cc Q := by
  -- the options
  unfold periodsMain at hrun
  simp only [Res.bind_eq_ok] at hrun
  obtain ⟨oo, hread, hrun⟩ := hrun
  cases oo with
  | none => cases hrun
  | some o =>
  simp only [Res.bind_eq_ok] at hrun
  obtain ⟨r', hmain, hrun⟩ := hrun
  obtain rfl := Option.some.inj (Res.ok.inj hrun)
  have hcmds : runCmds Opts.init (pre ++ cv :: post) = .ok o := by
    unfold readArgs at hread
    split at hread
    · cases hread
    · rw [argLoop_cmds _ _ _ le_rfl hcomp, Res.bind_eq_ok] at hread
      obtain ⟨o1, h1, h2⟩ := hread
      cases h2
      exact h1
  obtain ⟨p, hp, hdoc⟩ := C35_one_option_partial E.fam pre post cv hpre hpost hcur hside hcomp o hread
  unfold mainOpts at hmain
  simp only [Res.bind_eq_ok] at hmain
  obtain ⟨_, -, p', hp', c, hc, out, hloop, hr⟩ := hmain
  obtain rfl := Res.ok.inj (hp.symm.trans hp')
  obtain rfl := Res.ok.inj hr
  dsimp only at *
  -- the polynomial
  obtain ⟨P, rfl⟩ := ((Bdd.cmds _ (⟨0, fun _ _ => rfl⟩ : Bdd Opts.init.poly) hcmds).curve hp).poly
  obtain ⟨hsec, hm, hn, hg, hsq⟩ := initPoly_degree hc
  have hP0 : P ≠ 0 := by
    rintro rfl
    have : (0 : Polynomial ℤ).coeff = fun _ => 0 := funext fun k => Polynomial.coeff_zero k
    rw [this, S.degree0] at hn
    omega
  rw [S.degree P hP0] at hsec hn
  have hdeg : 2 ≤ P.natDegree := by omega
  have hsf := (S.sqfree P hdeg).1 hsq
  obtain ⟨⟨l1, l2⟩, ⟨l3, l4⟩, l5⟩ := runCmds_last _ hcmds
  obtain ⟨-, hfl⟩ := runCmds_flag _ _ _ hcmds
  simp only [Opts.init, Nat.zero_testBit, false_or, Bool.false_eq_true] at hfl
  have e1 : (o.flag &&& ajNoInt ≠ 0) ↔ Cmd.flag .tree ∈ pre ++ cv :: post := (and_flag o.flag 3).trans (hfl .tree)
  have e2 : (o.flag &&& ajNoAb ≠ 0) ↔ Cmd.flag .int ∈ pre ++ cv :: post := (and_flag o.flag 2).trans (hfl .int)
  have e3 : (o.flag &&& ajNoTau ≠ 0) ↔ Cmd.flag .big ∈ pre ++ cv :: post := (and_flag o.flag 1).trans (hfl .big)
  have hpr := runCmds_print _ _ _ hcmds fun _ => rfl
  -- a run that prints makes one call
  have hone : o.print = true → ∃ ao, out = some ao ∧ ajRun (E.aj P.coeff) fuel c o.flag o.prec (treeInit (E.aj P.coeff).wops (treeEdges c).toNat) = .ok ao := by
    intro h
    rw [hpr h] at hloop
    simp only [show (1 : Int).toNat = 0 + 1 from rfl, computeLoop, Res.bind_eq_ok] at hloop
    obtain ⟨ao, h1, h2⟩ := hloop
    exact ⟨ao, (Res.ok.inj h2).symm, h1⟩
  have hshow : ∀ ao, out = some ao → ajRun (E.aj P.coeff) fuel c o.flag o.prec (treeInit (E.aj P.coeff).wops (treeEdges c).toNat) = .ok ao → o.print = true →
      ∃ s, MainRun.shown (⟨o, P.coeff, c, out⟩ : MainRun A W O) = some s ∧ ShownIs s ao (asked (pre ++ cv :: post)) := by
    intro ao hao hrun hprint
    obtain ⟨-, -, -, a4, a5⟩ := ajRun_ok hrun
    unfold MainRun.shown printed asked
    simp only [hprint, if_true, hao]
    by_cases c1 : o.flag &&& ajNoInt = 0
    · rw [if_neg (not_not.2 c1), if_neg (fun h => (e1.2 h) c1)]
      obtain ⟨-, I, i1, -, i2, i3⟩ := a4 c1
      by_cases c2 : o.flag &&& ajNoAb = 0
      · rw [if_neg (not_not.2 c2), if_neg (fun h => (e2.2 h) c2)]
        obtain ⟨om0, om1, -, -, w1, w2, w3⟩ := i2 c2
        by_cases c3 : o.flag &&& ajNoTau = 0
        · rw [if_neg (not_not.2 c3), if_neg (fun h => (e3.2 h) c3)]
          obtain ⟨t, -, w4⟩ := w2 c3
          simp only [w4, Option.map_some]
          exact ⟨_, rfl, _, _, _, rfl, w1, w4⟩
        · rw [if_pos c3, if_pos (e3.1 c3)]
          simp only [w1, Option.map_some]
          exact ⟨_, rfl, _, _, rfl, w1⟩
      · rw [if_pos c2, if_pos (e2.1 c2)]
        simp only [i1, Option.map_some]
        exact ⟨_, rfl, _, rfl, i1⟩
    · rw [if_pos c1, if_pos (e1.1 c1)]
      exact ⟨_, rfl, rfl⟩
  refine ⟨P, rfl, hdoc, hdeg, hsf, hm, isGenus_shape hn hsec, ⟨l1, l2⟩, ⟨l3, l4⟩, ?_, ?_⟩
  · intro hb
    have hprint : o.print = true := l5 hb
    obtain ⟨ao, h1, h2⟩ := hone hprint
    obtain ⟨s, hs, -⟩ := hshow ao h1 h2 hprint
    exact ⟨s, hs⟩
  · intro s hs
    have hprint : o.print = true := by
      by_contra h
      unfold MainRun.shown printed at hs
      simp only [h, if_false] at hs
      cases hs
    obtain ⟨ao, h1, h2⟩ := hone hprint
    obtain ⟨s', hs', hsh⟩ := hshow ao h1 h2 hprint
    obtain rfl := Option.some.inj (hs.symm.trans hs')
    refine ⟨ao, h1, h2, hsh, ?_⟩
    obtain ⟨t1, -⟩ := ajRun_ok h2
    obtain ⟨mN, hmN⟩ : ∃ mN : Nat, o.m = mN := ⟨o.m.toNat, by omega⟩
    rw [hmN] at hsec
    have hec := C03_edge_count hdeg hsec
    have hte : ((treeInit (E.aj P.coeff).wops (treeEdges c).toNat).n : Int) = treeEdges c := by
      obtain ⟨_, _, k2, _⟩ := secInit_fields hsec hn
      unfold treeInit treeEdges
      simp only
      split <;> omega
    have hip : 2 ≤ ao.intprec + 10 := (ajTree_ok (S.aj _).sortEdges hdeg hsec hte t1).2.2.2.2.2
    obtain ⟨x, hx, hxR⟩ := S.roots P hdeg hsf _ hip
    have hG := hgood ao x P h1 rfl hx
    obtain ⟨Y, ca, cb, cc, Q, hR⟩ := C56_compute_partial M (S.aj P.coeff) hdeg hsec hg hte h2 (roots_inj hsf hx) hxR hG.resolved hG.free hG.gc hG.de
    have hmp : 0 < mN := by omega
    obtain ⟨α, hα⟩ := IsAlgClosed.exists_pow_nat_eq (P.leadingCoeff : ℂ) hmp
    have hmN' : o.m.toNat = mN := by omega
    rw [hmN']
    exact ⟨x, hx, hxR, α, _, _, _, cc, Q, hα, C59_roots_partial hR hx (by exact_mod_cast Polynomial.leadingCoeff_ne_zero.2 hP0) hmp hα⟩

/-- **C60 (two branch points).** For a polynomial of degree 2, without `--de`, the conditions of C56 hold for every run: whatever the program prints is the object asked for and it is right in the sense of C59. -/
theorem C60_two_points {RM : {n m : Nat} → O.M n m → Matrix (Fin n) (Fin m) ℝ → Prop} {RC : {n m : Nat} → O.C n m → Matrix (Fin n) (Fin m) ℂ → Prop} {RK : O.K → ℂ → Prop} (M : MatEncl O RM RC RK)
    {E : MainEnv A B C W O} (S : E.Sound R RB RC) {pre post : List Cmd} {cv : Cmd} (hpre : ∀ d ∈ pre, d.isCurve = false) (hpost : ∀ d ∈ post, d.isCurve = false) (hcur : cv.isCurve = true) (hside : SideCond cv)
    (hcomp : Complete (pre ++ cv :: post)) (hde : Cmd.flag .de ∉ pre ++ cv :: post) {fuel : Nat} {r : MainRun A W O} (hrun : periodsMain E fuel (argv (pre ++ cv :: post)) = .ok (some r)) (hdeg : E.degree r.poly = 2)
    {s : Shown A W O r.c.shape.g} (hs : r.shown = some s) :
    ∃ P : Polynomial ℤ, P.coeff = r.poly ∧ Documented E.fam P.coeff cv ∧ P.natDegree = 2 ∧ ∃ out, r.out = some out ∧ ShownIs s out (asked (pre ++ cv :: post)) ∧ ∃ x, RootsOf P x ∧
      ∃ α Z ca cb cc Q, α ^ r.o.m.toNat = (P.leadingCoeff : ℂ) ∧ PolyRight (fun j => α ^ j) (E.aj r.poly) R RC r.o.m.toNat (P.map (Int.castRingHom ℂ)) x r.c out Z ca cb cc Q := by
  have hty : ∀ out, r.out = some out → out.type = .d2 := by
    unfold periodsMain at hrun
    simp only [Res.bind_eq_ok] at hrun
    obtain ⟨oo, hread, hrun⟩ := hrun
    cases oo with
    | none => cases hrun
    | some o =>
    simp only [Res.bind_eq_ok] at hrun
    obtain ⟨r', hmain, hrun⟩ := hrun
    obtain rfl := Option.some.inj (Res.ok.inj hrun)
    have hcmds : runCmds Opts.init (pre ++ cv :: post) = .ok o := by
      unfold readArgs at hread
      split at hread
      · cases hread
      · rw [argLoop_cmds _ _ _ le_rfl hcomp, Res.bind_eq_ok] at hread
        obtain ⟨o1, h1, h2⟩ := hread
        cases h2
        exact h1
    obtain ⟨-, hfl⟩ := runCmds_flag _ _ _ hcmds
    simp only [Opts.init, Nat.zero_testBit, false_or, Bool.false_eq_true] at hfl
    have e0 : o.flag &&& ajUseDe = 0 := by
      by_contra h
      exact hde (((and_flag o.flag 0).trans (hfl .de)).1 h)
    unfold mainOpts at hmain
    simp only [Res.bind_eq_ok] at hmain
    obtain ⟨_, -, p, -, c, hc, out, hloop, hr⟩ := hmain
    obtain rfl := Res.ok.inj hr
    dsimp only at *
    intro ao hao
    obtain ⟨tr, htr⟩ : ∃ tr, ajRun (E.aj p) fuel c o.flag o.prec tr = .ok ao := by
      have key : ∀ (k : Nat) (tr : Tree W) (last : Option (AjOut A W O c.shape.g)), (∀ a, last = some a → ∃ tr, ajRun (E.aj p) fuel c o.flag o.prec tr = .ok a) →
          computeLoop (E.aj p) fuel c o.flag o.prec k tr last = .ok out → ∃ tr, ajRun (E.aj p) fuel c o.flag o.prec tr = .ok ao := by
        intro k
        induction k with
        | zero =>
          intro tr last hl h
          unfold computeLoop at h
          obtain rfl := Res.ok.inj h
          exact hl ao hao
        | succ k ih =>
          intro tr last hl h
          simp only [computeLoop, Res.bind_eq_ok] at h
          obtain ⟨a, h1, h2⟩ := h
          exact ih _ _ (fun b hb => ⟨tr, by obtain rfl := Option.some.inj hb; exact h1⟩) h2
      exact key _ _ none (fun _ h => by cases h) hloop
    obtain ⟨-, h2, -⟩ := ajRun_ok htr
    rw [h2]
    obtain ⟨hsec, hm, hn, hg, -⟩ := initPoly_degree hc
    rw [hdeg] at hsec
    obtain ⟨_, k1, k2, _⟩ := secInit_fields hsec le_rfl
    have hm2 : o.m ≠ 2 := fun h => by
      have := genus_two_points hsec h
      omega
    unfold intType
    rw [if_neg, if_neg]
    · omega
    · rw [k2]
      push Not
      exact ⟨e0, fun _ => le_rfl⟩
  obtain ⟨P, h1, h2, h3, -, -, -, -, -, -, h4⟩ := C60_program_partial M S hpre hpost hcur hside hcomp hrun fun out x P hout _ _ =>
    ⟨fun h => absurd (hty out hout) h, fun h => by simp [hty out hout] at h, fun h => by simp [hty out hout] at h, fun h => by simp [hty out hout] at h⟩
  obtain ⟨out, k1, -, k2, x, k3, -, k4⟩ := h4 s hs
  have hd : P.natDegree = 2 := by
    have hP0 : P ≠ 0 := by rintro rfl; simp at h3
    have := S.degree P hP0
    rw [h1, hdeg] at this
    omega
  exact ⟨P, h1, h2, hd, out, k1, k2, x, k3, k4⟩

/-- **C60 (usage).** Without arguments, or with an argument that is not an option, nothing is computed: the program returns its usage message exactly when the reading of the arguments says so. -/
theorem C60_usage (E : MainEnv A B C W O) (fuel : Nat) (args : List (List Char)) : periodsMain E fuel args = .ok none ↔ readArgs args = .ok none := by
  unfold periodsMain
  constructor
  · intro h
    simp only [Res.bind_eq_ok] at h
    obtain ⟨o, h1, h2⟩ := h
    cases o with
    | none => exact h1
    | some o =>
      simp only [Res.bind_eq_ok] at h2
      obtain ⟨r, -, h2⟩ := h2
      cases h2
  · intro h
    rw [h]
    rfl

/-- the command line of the README, `periods -m 2 --pol 4 1 0 -2 3 0` -/
def readmeArgs : List (List Char) := ["-m", "2", "--pol", "4", "1", "0", "-2", "3", "0"].map String.toList

/-- the same with the option that reads such operands, `periods -m 2 --coeffs 4 1 0 -2 3 0` -/
def readmeCoeffs : List (List Char) := ["-m", "2", "--coeffs", "4", "1", "0", "-2", "3", "0"].map String.toList

/-- **C60 (the example of the README).** The command line given there computes nothing and prints the usage message; the one with `--coeffs` is read as `y^2 = x^4 - 2 x^2 + 3 x`, the curve announced there. -/
theorem C60_readme_fails (E : MainEnv A B C W O) (fuel : Nat) : periodsMain E fuel readmeArgs = .ok none ∧
    ∃ o p, readArgs readmeCoeffs = .ok (some o) ∧ o.m = 2 ∧ curvePoly E.fam o = .ok p ∧ ∀ k : Nat, p k = [0, 3, -2, 0, 1].getD k 0 := by
  refine ⟨(C60_usage E fuel _).2 (by rfl), _, _, rfl, rfl, rfl, fun k => ?_⟩
  match k with
  | 0 => rfl
  | 1 => rfl
  | 2 => rfl
  | 3 => rfl
  | 4 => rfl
  | k + 5 => rfl

end Hcp
