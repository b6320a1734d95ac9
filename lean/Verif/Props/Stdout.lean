import Verif.Spec.Stdout
import Verif.Props.PrintGp
import Verif.Props.PrintTree
import Verif.Props.Main

/-!
# C65: the text on the standard output with `--gp`
-/

namespace Hcp
open Spec

variable {A B C W : Type} {O : MatOps} {R : A → ℂ → Prop} {RB : B → ℝ → Prop}

/-- the rational midpoint, zero for what is not finite -/
def ratMid : Arf → ℚ
  | .fin q => q
  | _ => 0

theorem close_of {d : Int} {ρ q : ℝ} {v z : ℝ} (h1 : |z - q| ≤ ρ) (h2 : |v - q| ≤ |q| * 10 ^ (1 - d)) : |v - z| ≤ ρ + (|z| + ρ) * 10 ^ (1 - d) := by
  have h3 : |q| ≤ |z| + ρ := by
    have : |q| - |z| ≤ |q - z| := abs_sub_abs_le_abs_sub q z
    rw [abs_sub_comm] at this
    linarith
  have h4 : (0 : ℝ) < 10 ^ (1 - d) := by positivity
  have h5 : |v - z| ≤ |v - q| + |z - q| := by
    rw [abs_sub_comm z q]; exact abs_sub_le v q z
  have : |q| * 10 ^ (1 - d) ≤ (|z| + ρ) * 10 ^ (1 - d) := mul_le_mul_of_nonneg_right h3 h4.le
  linarith

/-- a matrix without infinite midpoints is printed like a finite one -/
theorem printGp_finite (L : PrintLib) (d : Int) (rows : List (List (Arf × Arf))) (h : ∀ r ∈ rows, ∀ z ∈ r, NoInf z) :
    printGp L d rows = printGp L d ((rows.map (·.map fun z => (ratMid z.1, ratMid z.2))).map (·.map finArf)) := by
  rw [← C62_nan_fails]
  congr 1
  rw [List.map_map]
  refine List.map_congr_left fun r hr => ?_
  simp only [Function.comp_apply, List.map_map]
  refine List.map_congr_left fun z hz => ?_
  obtain ⟨x, y⟩ := z
  obtain ⟨h1, h2, h3, h4⟩ := h r hr _ hz
  cases x <;> cases y <;> simp_all [nanZeroC, nanZero, finArf, ratMid]

/-- no new line inside a matrix -/
theorem printGp_line {L : PrintLib} (hL : PrintOk L) (d : Int) (M : List (List (ℚ × ℚ))) : '\n' ∉ printGp L d (M.map (·.map finArf)) := by
  have hch : ∀ q : ℚ, (Arf.fin q).sgn ≠ 0 → '\n' ∉ L.printd (.fin q) d := by
    intro q hq h
    obtain ⟨t, h1, -⟩ := hL.fin q d (by rintro rfl; exact hq (by simp [sgn_fin]))
    rw [h1] at h
    rcases text_chars t _ h with h | h | h | h | h <;> revert h <;> decide
  have hgen : ∀ z : Arf × Arf, (z.1.sgn ≠ 0 → '\n' ∉ L.printd z.1 d) → (z.2.sgn ≠ 0 → '\n' ∉ L.printd z.2 d) → '\n' ∉ printEntry L d z := by
    intro z h1 h2 h
    simp only [printEntry, List.mem_append] at h
    rcases h with (h | h) | h
    · split at h <;> simp at h
    · split at h
      · rename_i c
        rw [List.mem_append] at h
        rcases h with h | h
        · exact h1 c h
        · split at h
          · simp at h
          · split at h <;> simp at h
      · simp at h
    · split at h
      · rename_i c
        rw [List.mem_append] at h
        rcases h with h | h
        · exact h2 c h
        · simp at h
      · simp at h
  have hent : ∀ q : ℚ × ℚ, '\n' ∉ printEntry L d (finArf q) := fun q => hgen _ (hch q.1) (hch q.2)
  have hvec : ∀ (r : List (ℚ × ℚ)) (k : Nat), '\n' ∉ printVec L d [',', ' '] k (r.map finArf) := by
    intro r
    induction r with
    | nil => intro k; simp [printVec]
    | cons q r ih =>
      intro k h
      simp only [List.map_cons, printVec, List.mem_append] at h
      rcases h with (h | h) | h
      · split at h <;> simp at h
      · exact hent q h
      · exact ih _ h
  have hrows : ∀ (M : List (List (ℚ × ℚ))) (i : Nat), '\n' ∉ printRows L d i (M.map (·.map finArf)) := by
    intro M
    induction M with
    | nil => intro k; simp [printRows]
    | cons r M ih =>
      intro k h
      simp only [List.map_cons, printRows, List.mem_append] at h
      rcases h with (h | h) | h
      · split at h <;> simp at h
      · exact hvec r _ h
      · exact ih _ h
  intro h
  simp only [printGp, List.cons_append, List.mem_cons, List.mem_append, List.not_mem_nil, or_false] at h
  rcases h with h | h | h
  · cases h
  · exact hrows M 0 h
  · cases h

/-- what is read for a matrix of balls -/
theorem read_cells {T : TextLib A W O} {RC : {n m : Nat} → O.C n m → Matrix (Fin n) (Fin m) ℂ → Prop} {rad : A → Option (ℝ × ℝ)} (hL : PrintOk T.L) (hT : T.Sound R RC rad) (d : Int) {nr nc : Nat} (hnc : 1 ≤ nc)
    (a : Nat → Nat → A) (hinf : ∀ i < nr, ∀ j < nc, NoInf (T.mid (a i j))) : '\n' ∉ fPrintText T .gp d (rowsOf nr nc a) ∧ fPrintText T .gp d (rowsOf nr nc a) ≠ [] ∧
      ∃ M', gpMatrix (fPrintText T .gp d (rowsOf nr nc a)) = some M' ∧ ∀ z : Fin nr → Fin nc → ℂ, (∀ (i : Fin nr) (j : Fin nc), R (a i j) (z i j)) → ReadClose d rad M' a z := by
  have hfin := printGp_finite T.L d ((rowsOf nr nc a).map (·.map T.mid)) (by
    intro r hr z hz
    simp only [rowsOf, List.map_map, List.mem_map, Function.comp_apply, List.mem_range] at hr
    obtain ⟨i, hi, rfl⟩ := hr
    simp only [List.mem_map, List.mem_range, Function.comp_apply] at hz
    obtain ⟨j, hj, rfl⟩ := hz
    exact hinf i hi j hj)
  set Mq : List (List (ℚ × ℚ)) := ((rowsOf nr nc a).map (·.map T.mid)).map (·.map fun z => (ratMid z.1, ratMid z.2)) with hMq
  have e0 : fPrintText T .gp d (rowsOf nr nc a) = printGp T.L d (Mq.map (·.map finArf)) := hfin
  have eM : Mq = rowsOf nr nc fun i j => (ratMid (T.mid (a i j)).1, ratMid (T.mid (a i j)).2) := by
    simp [hMq, rowsOf, List.map_map, Function.comp_def]
  obtain ⟨M', h1, h2⟩ := C62_gp_partial hL d Mq (by
    intro r hr
    rw [eM] at hr
    simp only [rowsOf, List.mem_map, List.mem_range] at hr
    obtain ⟨i, hi, rfl⟩ := hr
    intro h
    have := congrArg List.length h
    simp at this
    omega)
  rw [e0]
  refine ⟨printGp_line hL d Mq, by simp [printGp], M', h1, fun z hz => ?_⟩
  rw [eM] at h2
  have hlen : M'.length = nr := by
    have := h2.length_eq
    simpa [rowsOf] using this
  have hrow : ∀ i row, M'[i]? = some row → i < nr ∧ List.Forall₂ (Rounded d) row ((List.range nc).map fun j => (ratMid (T.mid (a i j)).1, ratMid (T.mid (a i j)).2)) := by
    intro i row hi
    obtain ⟨hi', rfl⟩ := List.getElem?_eq_some_iff.1 hi
    have h3 := h2.get hi' (by simp [rowsOf]; omega)
    simp only [List.get_eq_getElem, rowsOf, List.getElem_map, List.getElem_range] at h3
    exact ⟨by omega, h3⟩
  refine ⟨hlen, fun row hrow' => ?_, fun i j row v hi hj ρ hρ => ?_⟩
  · obtain ⟨i, hi, rfl⟩ := List.getElem_of_mem hrow'
    have := (hrow i _ (List.getElem?_eq_getElem hi)).2.length_eq
    simpa using this
  · obtain ⟨hin, h3⟩ := hrow i row hi
    obtain ⟨i, hin'⟩ := i
    obtain ⟨j, hjn⟩ := j
    dsimp only at *
    obtain ⟨hj', rfl⟩ := List.getElem?_eq_some_iff.1 hj
    have h4 := h3.get hj' (by simpa using hjn)
    simp only [List.get_eq_getElem, List.getElem_map, List.getElem_range] at h4
    obtain ⟨q, hq, b1, b2⟩ := hT.ball _ _ ρ (hz ⟨i, hin'⟩ ⟨j, hjn⟩) hρ
    rw [hq] at h4
    simp only [ratMid] at h4
    obtain ⟨r1, r2⟩ := h4
    have cast : ∀ (v q : ℚ), |v - q| ≤ |q| * 10 ^ (1 - d) → |(v : ℝ) - q| ≤ |(q : ℝ)| * 10 ^ (1 - d) := by
      intro v q h
      have : ((|v - q| : ℚ) : ℝ) ≤ ((|q| * 10 ^ (1 - d) : ℚ) : ℝ) := by exact_mod_cast h
      push_cast at this
      exact this
    exact ⟨close_of b1 (cast _ _ r1), close_of b2 (cast _ _ r2)⟩

theorem gpLines_one {s : List Char} {M : List (List (ℚ × ℚ))} (h1 : '\n' ∉ s) (h2 : s ≠ []) (h : gpMatrix s = some M) : gpLines (s ++ ['\n']) = some [M] := by
  unfold gpLines
  rw [List.splitOn_append_cons_self, List.splitOn_eq_singleton h1]
  simp [h2, h]

theorem gpLines_two {s t : List Char} {M N : List (List (ℚ × ℚ))} (h1 : '\n' ∉ s) (h2 : s ≠ []) (h : gpMatrix s = some M) (k1 : '\n' ∉ t) (k2 : t ≠ []) (k : gpMatrix t = some N) :
    gpLines (s ++ ['\n'] ++ t ++ ['\n']) = some [M, N] := by
  unfold gpLines
  have e : s ++ ['\n'] ++ t ++ ['\n'] = s ++ '\n' :: (t ++ ['\n']) := by simp
  rw [e, List.splitOn_append_cons_self, List.splitOn_append_cons_self, List.splitOn_eq_singleton h1, List.splitOn_eq_singleton k1]
  simp [h2, h, k2, k]

/-- the format and the digits -/
theorem runCmds_format : ∀ (cmds : List Cmd) {o o' : Opts}, runCmds o cmds = .ok o' → Cmd.error ∉ cmds → (o.fPrint = .gp ∨ Cmd.gp ∈ cmds → o'.fPrint = .gp) ∧
    ((∀ v, Cmd.num .digits v ∉ cmds) → o'.digits = o.digits) ∧ ∀ pre v post, cmds = pre ++ .num .digits v :: post → (∀ w, Cmd.num .digits w ∉ post) → o'.digits = atol v
  | [], o, o', h, _ => by
    cases h
    simp
  | c :: cmds, o, o', h, he => by
    simp only [runCmds, Res.bind_eq_ok] at h
    obtain ⟨o1, h1, h2⟩ := h
    obtain ⟨i0, i1, i2⟩ := runCmds_format cmds h2 fun h => he (List.mem_cons_of_mem _ h)
    have key : (o.fPrint = .gp ∨ c = .gp → o1.fPrint = .gp) ∧ ((∀ v, c ≠ .num .digits v) → o1.digits = o.digits) ∧ (∀ v, c = .num .digits v → o1.digits = atol v) := by
      cases c with
      | num k v =>
        cases h1
        cases k <;> simp [setNum]
      | verbose =>
        simp only [runCmd, Res.bind_eq_ok] at h1
        obtain ⟨q, _, h1⟩ := h1
        cases h1
        simp
      | pol s =>
        simp only [runCmd, Res.bind_eq_ok] at h1
        obtain ⟨q, _, h1⟩ := h1
        cases h1
        simp
      | coeffs n cs =>
        simp only [runCmd, Res.bind_eq_ok] at h1
        obtain ⟨q, _, h1⟩ := h1
        cases h1
        simp
      | error => exact absurd (List.mem_cons_self ..) he
      | _ => cases h1; simp
    obtain ⟨k0, k1, k2⟩ := key
    refine ⟨fun h => ?_, fun h => ?_, fun pre v post e hp => ?_⟩
    · refine i0 ?_
      rcases h with h | h
      · exact Or.inl (k0 (Or.inl h))
      · rcases List.mem_cons.1 h with h | h
        · exact Or.inl (k0 (Or.inr h.symm))
        · exact Or.inr h
    · rw [i1 fun v hv => h v (List.mem_cons_of_mem _ hv), k1 fun v hv => h v (hv ▸ List.mem_cons_self ..)]
    · cases pre with
      | nil =>
        obtain ⟨rfl, rfl⟩ := List.cons.inj e
        rw [i1 hp, k2 v rfl]
      | cons d pre =>
        obtain ⟨rfl, rfl⟩ := List.cons.inj e
        exact i2 pre v post rfl hp

/-- the options and the curve of a run -/
theorem main_shape {E : MainEnv A B C W O} {fuel : Nat} {cmds : List Cmd} (hcomp : Complete cmds) {r : MainRun A W O} (hrun : periodsMain E fuel (argv cmds) = .ok (some r)) :
    runCmds Opts.init cmds = .ok r.o ∧ initPoly r.o.m (E.degree r.poly) (E.sqfree r.poly) = .ok r.c := by
  unfold periodsMain at hrun
  simp only [Res.bind_eq_ok] at hrun
  obtain ⟨oo, hread, hrun⟩ := hrun
  cases oo with
  | none => cases hrun
  | some o =>
  simp only [Res.bind_eq_ok] at hrun
  obtain ⟨r', hmain, hrun⟩ := hrun
  obtain rfl := Option.some.inj (Res.ok.inj hrun)
  unfold mainOpts at hmain
  simp only [Res.bind_eq_ok] at hmain
  obtain ⟨_, -, p', hp', c, hc, out, hloop, hr⟩ := hmain
  obtain rfl := Res.ok.inj hr
  refine ⟨?_, hc⟩
  unfold readArgs at hread
  split at hread
  · cases hread
  · rw [argLoop_cmds _ _ _ le_rfl hcomp, Res.bind_eq_ok] at hread
    obtain ⟨o1, h1, h2⟩ := hread
    cases h2
    exact h1

/-- **C65 (partial).** For every command line with exactly one option selecting the curve (not `--bernrev`), with `--gp`, without `--error`, `-v` and `--bench`, anywhere among any other options: if the program comes to the printing, the run meeting the conditions of C56, and
no midpoint is infinite, then a text is printed, and GP reads in it the object asked for: with `--tree` the edges of the tree, with `--int` a matrix of one row for each edge and one column for each differential, with `--big` two
`g` by `g` matrices, and otherwise one `g` by `g` matrix; every number read differs from the exact value (that of C59) by no more than the radius of the ball computed and one unit of the last of the digits asked for.
Missing: the verbose mode, the formats of Arb, the conditions of C60. -/
theorem C65_stdout_partial {RM : {n m : Nat} → O.M n m → Matrix (Fin n) (Fin m) ℝ → Prop} {RC : {n m : Nat} → O.C n m → Matrix (Fin n) (Fin m) ℂ → Prop} {RK : O.K → ℂ → Prop} (M : MatEncl O RM RC RK)
    {E : MainEnv A B C W O} (S : E.Sound R RB RC) {T : TextLib A W O} {rad : A → Option (ℝ × ℝ)} (hL : PrintOk T.L) (hT : T.Sound R RC rad) (hlf : ∀ w, ∀ c ∈ T.lf w, c ≠ ',' ∧ c ≠ ' ' ∧ c ≠ '\n')
    {pre post : List Cmd} {cv : Cmd} (hpre : ∀ d ∈ pre, d.isCurve = false) (hpost : ∀ d ∈ post, d.isCurve = false) (hcur : cv.isCurve = true) (hside : SideCond cv)
    (hcomp : Complete (pre ++ cv :: post)) (hgp : Cmd.gp ∈ pre ++ cv :: post) (herr : Cmd.error ∉ pre ++ cv :: post) (_hv : Cmd.verbose ∉ pre ++ cv :: post) (hbench : ∀ v, Cmd.num .bench v ∉ pre ++ cv :: post)
    {fuel : Nat} {r : MainRun A W O} (hrun : periodsMain E fuel (argv (pre ++ cv :: post)) = .ok (some r))
    (hgood : ∀ out x, ∀ P : Polynomial ℤ, r.out = some out → P.coeff = r.poly → RootsOf P x → GoodRun (E.aj r.poly) R fuel r.c r.o.flag P.natDegree x out)
    (hinf : ∀ s, r.shown = some s → s.NoInf T (treeEdges r.c).toNat) :
    ∃ P : Polynomial ℤ, Documented E.fam P.coeff cv ∧ IsGenus r.o.m P.natDegree r.c.shape.g ∧ ∃ (d : Int) (txt : List Char), periodsText E T fuel (argv (pre ++ cv :: post)) = .ok (some txt) ∧
      ((∀ v, Cmd.num .digits v ∉ pre ++ cv :: post) → d = T.dflt r.o.prec) ∧ (∀ p v q, pre ++ cv :: post = p ++ .num .digits v :: q → (∀ w, Cmd.num .digits w ∉ q) → atol v ≠ 0 → d = atol v) ∧
      ∃ out, r.out = some out ∧ ∃ x, RootsOf P x ∧ ∃ α Z ca cb cc Q, α ^ r.o.m.toNat = (P.leadingCoeff : ℂ) ∧
        PolyRight (fun j => α ^ j) (E.aj r.poly) R RC r.o.m.toNat (P.map (Int.castRingHom ℂ)) x r.c out Z ca cb cc Q ∧ ∃ tau, (∀ t, out.tau = some t → RC t tau ∧
        ((∀ tau', periodsOf r.o.m.toNat x out.tree.e Z r.c.shape out.loopA * tau' = periodsOf r.o.m.toNat x out.tree.e Z r.c.shape out.loopB ↔ tau' = tau) ∨
          periodsOf r.o.m.toNat x out.tree.e Z r.c.shape out.loopA * tau = -periodsOf r.o.m.toNat x out.tree.e Z r.c.shape out.loopB)) ∧
        TextRight T rad d txt (fun j => α ^ j) r.o.m.toNat x r.c out Z tau (asked (pre ++ cv :: post)) := by
  obtain ⟨P, hP, hdoc, hdeg, hsf, hm, hgen, -, -, hpr, hall⟩ := C60_program_partial M S hpre hpost hcur hside hcomp hrun hgood
  obtain ⟨hcmds, hinit⟩ := main_shape hcomp hrun
  obtain ⟨hf, hd1, hd2⟩ := runCmds_format _ hcmds herr
  have hgpf := hf (Or.inr hgp)
  obtain ⟨s, hs⟩ := hpr hbench
  obtain ⟨out, hout, hrunaj, hsh, x, hx, hxR, α, Z, ca, cb, cc, Q, hα, hR⟩ := hall s hs
  obtain ⟨hsec, -, hn, hg, -⟩ := initPoly_degree hinit
  have hP0 : P ≠ 0 := by rintro rfl; simp at hdeg
  rw [← hP, S.degree P hP0] at hsec hn
  obtain ⟨mN, hmN⟩ : ∃ mN : Nat, r.o.m = mN := ⟨r.o.m.toNat, by omega⟩
  rw [hmN] at hsec
  have hte : ((treeInit (E.aj r.poly).wops (treeEdges r.c).toNat).n : Int) = treeEdges r.c := by
    obtain ⟨_, _, k2, _⟩ := secInit_fields hsec hn
    unfold treeInit treeEdges
    simp only
    split <;> omega
  obtain ⟨hlen, -, hsize, -⟩ := ajTree_ok (S.aj _).sortEdges hdeg hsec hte (ajRun_ok hrunaj).1
  have hec := C03_tree_size hdeg hsec
  have hnr : (treeEdges r.c).toNat = out.tree.e.length := by
    by_cases h : mN ∣ P.natDegree
    · have h1 := hsize.1 h
      have h2 := hec.1 h
      omega
    · have h1 := hsize.2 h
      have h2 := hec.2 h
      omega
  have hNI := hinf s hs
  rw [hnr] at hNI
  have htext : ∀ txt, s.text T .gp (textDigits T r.o) out.tree.e.length = .ok txt → periodsText E T fuel (argv (pre ++ cv :: post)) = .ok (some txt) := by
    intro txt h
    unfold periodsText MainRun.text
    rw [hrun, Res.ok_bind]
    simp only [hs, hgpf, hnr, h, Res.ok_bind]
  have hdig : ((∀ v, Cmd.num .digits v ∉ pre ++ cv :: post) → textDigits T r.o = T.dflt r.o.prec) ∧
      (∀ p v q, pre ++ cv :: post = p ++ .num .digits v :: q → (∀ w, Cmd.num .digits w ∉ q) → atol v ≠ 0 → textDigits T r.o = atol v) := by
    refine ⟨fun h => ?_, fun p v q e h h0 => ?_⟩
    · rw [textDigits, hd1 h]
      rfl
    · rw [textDigits, hd2 p v q e h, if_neg h0]
  obtain ⟨tau, htau⟩ : ∃ tau, ∀ t, out.tau = some t → RC t tau ∧
        ((∀ tau', periodsOf r.o.m.toNat x out.tree.e Z r.c.shape out.loopA * tau' = periodsOf r.o.m.toNat x out.tree.e Z r.c.shape out.loopB ↔ tau' = tau) ∨
          periodsOf r.o.m.toNat x out.tree.e Z r.c.shape out.loopA * tau = -periodsOf r.o.m.toNat x out.tree.e Z r.c.shape out.loopB) := by
    cases hot : out.tau with
    | none => exact ⟨0, fun t h => by cases h⟩
    | some t =>
      obtain ⟨om0, om1, hom⟩ : ∃ om0 om1, out.omega = some (om0, om1) := by
        obtain ⟨-, -, -, a4, a5⟩ := ajRun_ok hrunaj
        by_cases c1 : r.o.flag &&& ajNoInt = 0
        · obtain ⟨-, I, i1, -, i2, i3⟩ := a4 c1
          by_cases c2 : r.o.flag &&& ajNoAb = 0
          · obtain ⟨om0, om1, -, -, w1, -⟩ := i2 c2
            exact ⟨_, _, w1⟩
          · rw [(i3 c2).2] at hot
            cases hot
        · rw [(a5 c1).2.2] at hot
          cases hot
      obtain ⟨tau, k1, k2⟩ := hR.tau om0 om1 t hom hot
      refine ⟨tau, fun t' h => ?_⟩
      obtain rfl := Option.some.inj h
      exact ⟨k1, k2.imp_right fun h => h.2.2.2⟩
  suffices ∃ txt, s.text T .gp (textDigits T r.o) out.tree.e.length = .ok txt ∧ TextRight T rad (textDigits T r.o) txt (fun j => α ^ j) r.o.m.toNat x r.c out Z tau (asked (pre ++ cv :: post)) by
    obtain ⟨txt, h1, h2⟩ := this
    exact ⟨P, hdoc, hgen, _, txt, htext txt h1, hdig.1, hdig.2, out, hout, x, hx, α, Z, ca, cb, cc, Q, hα, hR, tau, htau, h2⟩
  generalize asked (pre ++ cv :: post) = ob at hsh ⊢
  generalize textDigits T r.o = d
  cases ob with
  | tree =>
    obtain rfl : s = .tree out.tree := hsh
    obtain ⟨u, h1, h2⟩ := C63_tree T.lf out.tree hlen.symm (hlf _)
    refine ⟨u ++ ['\n'], by simp only [Shown.text, h1, Res.ok_bind], ?_⟩
    rw [hlen] at h2
    show gpTree _ = _
    rw [← h2]
    unfold gpTree
    simp
  | integrals =>
    obtain ⟨I, rfl, hI⟩ := hsh
    obtain ⟨h1, h2, M', h3, h4⟩ := read_cells hL hT d hg I hNI
    refine ⟨_, rfl, I, M', hI, gpLines_one h1 h2 h3, h4 _ fun i j => ?_⟩
    exact hR.integrals I hI i _ (List.getElem?_eq_getElem i.2) j _ _ j.2 rfl
  | omega =>
    obtain ⟨om0, om1, rfl, hom⟩ := hsh
    obtain ⟨h1, h2, M0, h3, h4⟩ := read_cells hL hT d hg om0 fun i hi j hj => (hNI i hi j hj).1
    obtain ⟨k1, k2, M1, k3, k4⟩ := read_cells hL hT d hg om1 fun i hi j hj => (hNI i hi j hj).2
    refine ⟨_, rfl, om0, om1, M0, M1, hom, gpLines_two h1 h2 h3 k1 k2 k3, h4 _ fun i j => ?_, k4 _ fun i j => ?_⟩
    · exact (hR.omega om0 om1 hom i j _ _ rfl).1
    · exact (hR.omega om0 om1 hom i j _ _ rfl).2
  | tau =>
    obtain ⟨om0, om1, t, rfl, hom, ht⟩ := hsh
    obtain ⟨h1, h2, M', h3, h4⟩ := read_cells hL hT d hg (T.cell t) hNI
    exact ⟨_, rfl, t, M', ht, gpLines_one h1 h2 h3, h4 _ fun i j => hT.cell t tau (htau t ht).1 i j⟩

/-- `--bench` switches the printing off, whatever comes after -/
theorem runCmds_bench : ∀ (cmds : List Cmd) {o o' : Opts}, runCmds o cmds = .ok o' → (o.print = false ∨ ∃ v, Cmd.num .bench v ∈ cmds) → o'.print = false
  | [], o, o', h, hb => by
    cases h
    rcases hb with h | ⟨v, h⟩
    · exact h
    · cases h
  | c :: cmds, o, o', h, hb => by
    simp only [runCmds, Res.bind_eq_ok] at h
    obtain ⟨o1, h1, h2⟩ := h
    refine runCmds_bench cmds h2 ?_
    have key : o.print = false ∨ (∃ v, c = .num .bench v) → o1.print = false := by
      cases c with
      | num k v =>
        cases h1
        cases k <;> simp [setNum]
      | verbose =>
        simp only [runCmd, Res.bind_eq_ok] at h1
        obtain ⟨q, _, h1⟩ := h1
        cases h1
        simp
      | pol s =>
        simp only [runCmd, Res.bind_eq_ok] at h1
        obtain ⟨q, _, h1⟩ := h1
        cases h1
        simp
      | coeffs n cs =>
        simp only [runCmd, Res.bind_eq_ok] at h1
        obtain ⟨q, _, h1⟩ := h1
        cases h1
        simp
      | _ => cases h1; simp
    rcases hb with h | ⟨v, h⟩
    · exact Or.inl (key (Or.inl h))
    · rcases List.mem_cons.1 h with h | h
      · exact Or.inl (key (Or.inr ⟨v, h.symm⟩))
      · exact Or.inr ⟨v, h⟩

/-- **C65 (`--bench`).** With `--bench` anywhere among the options nothing is printed, whatever is asked for. -/
theorem C65_bench {E : MainEnv A B C W O} (T : TextLib A W O) {cmds : List Cmd} (hcomp : Complete cmds) {v : List Char} (hb : Cmd.num .bench v ∈ cmds) {fuel : Nat} {txt : List Char}
    (h : periodsText E T fuel (argv cmds) = .ok (some txt)) : txt = [] := by
  unfold periodsText at h
  rw [Res.bind_eq_ok] at h
  obtain ⟨rr, h1, h2⟩ := h
  cases rr with
  | none => cases h2
  | some r =>
    simp only [Res.bind_eq_ok] at h2
    obtain ⟨s, h3, h4⟩ := h2
    obtain rfl := Option.some.inj (Res.ok.inj h4)
    have hpr := runCmds_bench _ (main_shape hcomp h1).1 (Or.inr ⟨v, hb⟩)
    unfold MainRun.text MainRun.shown printed at h3
    simp only [hpr, Bool.false_eq_true, if_false] at h3
    exact (Res.ok.inj h3).symm

end Hcp
