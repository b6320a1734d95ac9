import Verif.Proofs.Cli
import Verif.Props.Parse
import Mathlib.Tactic.LinearCombination
import Mathlib.Tactic.NormNum

/-!
# C33, C34, C35: the command line
-/

namespace Hcp

open Spec

/-! ## C33: outcomes -/

theorem atol_le (s : List Char) : atol s ≤ slongMax := by
  unfold atol
  split
  · decide
  · rename_i v r h
    obtain ⟨w, x, _, _, rfl⟩ := strtol_some h
    unfold clampLong
    split
    · decide
    · split <;> omega

/-- an argument of `--pol` on which the parser has undefined behaviour contains such a term -/
def BadTerm (s : List Char) : Prop := ∃ (a b : List Char) (t : Written), s = a ++ t.str ++ b ∧ t.WF ∧
  (t.exp < 0 ∨ slongMax ≤ t.exp ∨ t.numVal ≤ slongMin ∧ '-' ∈ t.signs)

theorem polArg_outcomes (p : IPoly) (s : List Char) (r : List (List Char)) :
    polArg p (s :: r) ≠ .diverge ∧ ((∃ w, polArg p (s :: r) = .ub w) → BadTerm s) := by
  simp only [polArg]
  rcases C32_total_partial s s.length p le_rfl with ⟨q, h⟩ | ⟨⟨w, h⟩, hbad⟩
  · rw [h]
    cases q <;> simp
  · rw [h]
    exact ⟨by simp, fun _ => hbad⟩

theorem coeffsLoop_outcomes : ∀ (cnt : Nat) (p : IPoly) (r : List (List Char)),
    (∃ q, coeffsLoop cnt p r = .ok q) ∨ (∃ w, coeffsLoop cnt p r = .ub w) ∧ slongMax < cnt
  | 0, p, r => Or.inl ⟨_, rfl⟩
  | cnt + 1, p, [] => Or.inl ⟨_, rfl⟩
  | cnt + 1, p, a :: r => by
    by_cases h : (cnt : Int) < slongMax
    · simp only [coeffsLoop, setCoeffSi_ok (by omega) h, Res.ok_bind]
      rcases coeffsLoop_outcomes cnt (fun k => if k = (cnt : Int).toNat then atol a else p k) r with h1 | ⟨h1, h2⟩
      · exact Or.inl h1
      · exact Or.inr ⟨h1, by omega⟩
    · right
      have h1 : setCoeffSi p cnt (atol a) = .ub "signed overflow" := by
        unfold setCoeffSi
        rw [if_neg (by omega), if_pos (by omega)]
      simp only [coeffsLoop, h1, Res.ub_bind]
      exact ⟨⟨_, rfl⟩, by push_cast; omega⟩

theorem or_flag (x : Nat) (f : FlagOpt) : (x ||| 2 ^ f.bit) / 512 = x / 512 ∧ ∀ i < 9, (x ||| 2 ^ f.bit).testBit i =
    (x.testBit i || decide (f.bit = i)) := by
  constructor
  · have h := Nat.or_div_two_pow (a := x) (b := 2 ^ f.bit) (n := 9)
    rw [show (2 : Nat) ^ 9 = 512 from rfl] at h
    rw [h, show 2 ^ f.bit / 512 = 0 by cases f <;> rfl, Nat.or_zero]
  · intro i _
    rw [Nat.testBit_or, Nat.testBit_two_pow]

theorem add_verbose (x : Nat) : (x + ajVerbose) / 512 = x / 512 + 5 ∧ ∀ i < 9, (x + ajVerbose).testBit i = x.testBit i := by
  have hv : ajVerbose = 2560 := rfl
  rw [hv]
  constructor
  · omega
  · intro i hi
    have h1 := Nat.testBit_mod_two_pow (x + 2560) 9 i
    have h2 := Nat.testBit_mod_two_pow x 9 i
    rw [show (x + 2560) % 2 ^ 9 = x % 2 ^ 9 by norm_num; omega, h2] at h1
    simpa [hi] using h1.symm

/-- effect of one command on the flags -/
theorem runCmd_flag {o o' : Opts} {c : Cmd} (h : runCmd o c = .ok o') :
    o'.flag / 512 = o.flag / 512 + (if c = .verbose then 5 else 0) ∧
    (∀ f : FlagOpt, o'.flag.testBit f.bit = (o.flag.testBit f.bit || decide (c = .flag f))) := by
  have hb : ∀ f : FlagOpt, f.bit < 9 := by intro f; cases f <;> decide
  have hinj : ∀ f f' : FlagOpt, f.bit = f'.bit ↔ f = f' := by intro f f'; cases f <;> cases f' <;> decide
  cases c with
  | verbose =>
    simp only [runCmd, addVerbose] at h
    split at h
    · cases h
      have := add_verbose o.flag
      exact ⟨by simp [this.1], fun f => by simp [this.2 _ (hb f)]⟩
    · cases h
  | flag f =>
    cases h
    have := or_flag o.flag f
    refine ⟨by simp [this.1], fun f' => ?_⟩
    rw [this.2 _ (hb f')]
    congr 1
    simp only [decide_eq_decide, Cmd.flag.injEq]
    exact hinj f f'
  | num k v => cases h; cases k <;> simp [setNum]
  | gp => cases h; simp
  | error => cases h; simp
  | stoll => cases h; simp
  | pol s =>
    simp only [runCmd, Res.bind_eq_ok] at h
    obtain ⟨q, _, h⟩ := h
    cases h
    simp
  | coeffs n cs =>
    simp only [runCmd, Res.bind_eq_ok] at h
    obtain ⟨q, _, h⟩ := h
    cases h
    simp

/-- what one round of the loop can do -/
theorem stepArg_outcomes (o : Opts) (a : List Char) (r : List (List Char)) :
    stepArg o a r ≠ .diverge ∧ ((∃ w, stepArg o a r = .ub w) →
      a = "-v".toList ∧ 2 ^ 31 ≤ o.flag + 2560 ∨ r = [] ∧ a ∈ operandOptions ∨
      (∃ s r', a = "--pol".toList ∧ r = s :: r' ∧ BadTerm s) ∨ ∃ s r', a = "--coeffs".toList ∧ r = s :: r' ∧ atol s = slongMax) := by
  have triv : ∀ {x : Res (Option (Opts × List (List Char)))} {P : Prop}, (∃ y, x = .ok y) →
      x ≠ .diverge ∧ ((∃ w, x = .ub w) → P) := by
    rintro x P ⟨y, rfl⟩
    exact ⟨by simp, fun h => by obtain ⟨w, h⟩ := h; cases h⟩
  have numc : ∀ (P : Prop) (f : Int × List (List Char) → Opts × List (List Char)), a ∈ operandOptions →
      (numArg r >>= fun q => (.ok (some (f q)) : Res (Option (Opts × List (List Char))))) ≠ .diverge ∧
      ((∃ w, (numArg r >>= fun q => (.ok (some (f q)) : Res (Option (Opts × List (List Char))))) = .ub w) →
        P ∨ r = [] ∧ a ∈ operandOptions ∨
        (∃ s r', a = "--pol".toList ∧ r = s :: r' ∧ BadTerm s) ∨ ∃ s r', a = "--coeffs".toList ∧ r = s :: r' ∧ atol s = slongMax) := by
    intro P f ha
    cases r with
    | nil => exact ⟨by simp [numArg], fun _ => Or.inr (Or.inl ⟨rfl, ha⟩)⟩
    | cons v r => exact ⟨by simp [numArg], fun h => by obtain ⟨w, h⟩ := h; cases h⟩
  unfold stepArg
  by_cases h1 : a = "-v".toList
  · rw [if_pos h1]
    unfold addVerbose
    split
    · exact triv ⟨_, rfl⟩
    · rename_i h
      refine ⟨by simp, fun _ => Or.inl ⟨h1, ?_⟩⟩
      have : ajVerbose = 2560 := rfl
      omega
  rw [if_neg h1]
  by_cases h1 : a = "-m".toList
  · rw [if_pos h1]; exact numc _ _ (by subst h1; decide)
  rw [if_neg h1]
  by_cases h1 : a = "--prec".toList
  · rw [if_pos h1]; exact numc _ _ (by subst h1; decide)
  rw [if_neg h1]
  by_cases h1 : a = "--de".toList
  · rw [if_pos h1]; exact triv ⟨_, rfl⟩
  rw [if_neg h1]
  by_cases h1 : a = "--desame".toList
  · rw [if_pos h1]; exact triv ⟨_, rfl⟩
  rw [if_neg h1]
  by_cases h1 : a = "--rootdef".toList
  · rw [if_pos h1]; exact triv ⟨_, rfl⟩
  rw [if_neg h1]
  by_cases h1 : a = "--rootprod".toList
  · rw [if_pos h1]; exact triv ⟨_, rfl⟩
  rw [if_neg h1]
  by_cases h1 : a = "--rootturn".toList
  · rw [if_pos h1]; exact triv ⟨_, rfl⟩
  rw [if_neg h1]
  by_cases h1 : a = "--xn1".toList
  · rw [if_pos h1]; exact numc _ _ (by subst h1; decide)
  rw [if_neg h1]
  by_cases h1 : a = "--exp".toList
  · rw [if_pos h1]; exact numc _ _ (by subst h1; decide)
  rw [if_neg h1]
  by_cases h1 : a = "--bern".toList
  · rw [if_pos h1]; exact numc _ _ (by subst h1; decide)
  rw [if_neg h1]
  by_cases h1 : a = "--bernrev".toList
  · rw [if_pos h1]; exact numc _ _ (by subst h1; decide)
  rw [if_neg h1]
  by_cases h1 : a = "--pol".toList
  · rw [if_pos h1]
    cases r with
    | nil => exact ⟨by simp [polArg], fun _ => Or.inr (Or.inl ⟨rfl, by subst h1; decide⟩)⟩
    | cons s r =>
      have := polArg_outcomes o.poly s r
      cases hq : polArg o.poly (s :: r) with
      | ok q => exact triv ⟨_, rfl⟩
      | abort w => exact ⟨by simp, fun h => by obtain ⟨w, h⟩ := h; cases h⟩
      | ub w => exact ⟨by simp, fun _ => Or.inr (Or.inr (Or.inl ⟨s, r, h1, rfl, this.2 ⟨w, hq⟩⟩))⟩
      | diverge => exact absurd hq this.1
  rw [if_neg h1]
  by_cases h1 : a = "--coeffs".toList
  · rw [if_pos h1]
    cases r with
    | nil => exact ⟨by simp [numArg], fun _ => Or.inr (Or.inl ⟨rfl, by subst h1; decide⟩)⟩
    | cons s r =>
      simp only [numArg, Res.ok_bind]
      rcases coeffsLoop_outcomes (atol s + 1).toNat o.poly r with ⟨q, hq⟩ | ⟨⟨w, hq⟩, hbig⟩
      · rw [hq]
        exact triv ⟨_, rfl⟩
      · rw [hq]
        refine ⟨by simp, fun _ => Or.inr (Or.inr (Or.inr ⟨s, r, h1, rfl, ?_⟩))⟩
        have := atol_le s
        unfold slongMax at *
        omega
  rw [if_neg h1]
  by_cases h1 : a = "--stoll".toList
  · rw [if_pos h1]; exact triv ⟨_, rfl⟩
  rw [if_neg h1]
  by_cases h1 : a = "--big".toList
  · rw [if_pos h1]; exact triv ⟨_, rfl⟩
  rw [if_neg h1]
  by_cases h1 : a = "--int".toList
  · rw [if_pos h1]; exact triv ⟨_, rfl⟩
  rw [if_neg h1]
  by_cases h1 : a = "--tree".toList
  · rw [if_pos h1]; exact triv ⟨_, rfl⟩
  rw [if_neg h1]
  by_cases h1 : a = "--gp".toList
  · rw [if_pos h1]; exact triv ⟨_, rfl⟩
  rw [if_neg h1]
  by_cases h1 : a = "--error".toList
  · rw [if_pos h1]; exact triv ⟨_, rfl⟩
  rw [if_neg h1]
  by_cases h1 : a = "--trim".toList
  · rw [if_pos h1]; exact triv ⟨_, rfl⟩
  rw [if_neg h1]
  by_cases h1 : a = "--digits".toList
  · rw [if_pos h1]; exact numc _ _ (by subst h1; decide)
  rw [if_neg h1]
  by_cases h1 : a = "--bench".toList
  · rw [if_pos h1]; exact numc _ _ (by subst h1; decide)
  rw [if_neg h1]
  exact triv ⟨_, rfl⟩

theorem argLoop_outcomes : ∀ (fuel : Nat) (o : Opts) (args : List (List Char)) (k : Nat), args.length ≤ fuel →
    o.flag / 512 = 5 * k →
    argLoop fuel o args ≠ .diverge ∧ ((∃ w, argLoop fuel o args = .ub w) →
      838860 < k + args.count "-v".toList ∨ (∃ pre a, args = pre ++ [a] ∧ a ∈ operandOptions) ∨
      (∃ pre s post, args = pre ++ "--pol".toList :: s :: post ∧ BadTerm s) ∨
      ∃ pre s post, args = pre ++ "--coeffs".toList :: s :: post ∧ atol s = slongMax) := by
  intro fuel
  induction fuel with
  | zero =>
    intro o args k hf _
    cases args with
    | nil => exact ⟨by simp [argLoop], fun h => by obtain ⟨w, h⟩ := h; cases h⟩
    | cons a r => simp at hf
  | succ fuel ih =>
    intro o args k hf hk
    cases args with
    | nil => exact ⟨by simp [argLoop], fun h => by obtain ⟨w, h⟩ := h; cases h⟩
    | cons a r =>
      obtain ⟨hd, hub⟩ := stepArg_outcomes o a r
      unfold argLoop
      split
      · exact ⟨by simp, fun h => by obtain ⟨w, h⟩ := h; cases h⟩
      · rename_i o1 r1 hs
        obtain ⟨c, h1, h2, _⟩ := stepArg_inv hs
        have hflag := (runCmd_flag h2).1
        have hlen : 0 < c.args.length := by cases c <;> simp [Cmd.args]
        have hl : (a :: r).length = c.args.length + r1.length := by rw [h1, List.length_append]
        have hcnt : (a :: r).count "-v".toList = c.args.count "-v".toList + r1.count "-v".toList := by
          rw [h1, List.count_append]
        obtain ⟨i1, i2⟩ := ih o1 r1 (k + if c = .verbose then 1 else 0) (by omega)
          (by rw [hflag, hk]; split <;> omega)
        refine ⟨i1, fun hw => ?_⟩
        rcases i2 hw with h3 | ⟨pre, x, h3, h4⟩ | ⟨pre, s, post, h3, h4⟩ | ⟨pre, s, post, h3, h4⟩
        · left
          rw [hcnt]
          split at h3
          · rename_i hc
            subst hc
            have : Cmd.verbose.args.count "-v".toList = 1 := by decide
            omega
          · omega
        · exact Or.inr (Or.inl ⟨c.args ++ pre, x, by rw [h1, h3]; simp, h4⟩)
        · exact Or.inr (Or.inr (Or.inl ⟨c.args ++ pre, s, post, by rw [h1, h3]; simp, h4⟩))
        · exact Or.inr (Or.inr (Or.inr ⟨c.args ++ pre, s, post, by rw [h1, h3]; simp, h4⟩))
      · exact ⟨by simp, fun h => by obtain ⟨w, h⟩ := h; cases h⟩
      · rename_i w hs
        refine ⟨by simp, fun _ => ?_⟩
        rcases hub ⟨w, hs⟩ with ⟨h1, h2⟩ | ⟨h1, h2⟩ | ⟨s, r', h1, h2, h3⟩ | ⟨s, r', h1, h2, h3⟩
        · left
          subst h1
          rw [List.count_cons_self]
          have := Nat.zero_le (List.count "-v".toList r)
          omega
        · subst h1
          exact Or.inr (Or.inl ⟨[], a, rfl, h2⟩)
        · subst h1 h2
          exact Or.inr (Or.inr (Or.inl ⟨[], s, r', rfl, h3⟩))
        · subst h1 h2
          exact Or.inr (Or.inr (Or.inr ⟨[], s, r', rfl, h3⟩))
      · rename_i hs
        exact absurd hs hd

/-- **C33 (partial).** For every argument vector: reading the options terminates, and never has undefined behaviour unless the last argument
is an option that needs an operand, or `--pol` is given a string with a negative or huge exponent (or `-2^63`), or
`--coeffs` a degree `≥ 2^63 - 1`, or there are more than 838860 options `-v`. -/
theorem C33_outcomes_partial (args : List (List Char)) : readArgs args ≠ .diverge ∧ ((∃ w, readArgs args = .ub w) →
    (∃ pre a, args = pre ++ [a] ∧ a ∈ operandOptions) ∨ (∃ pre s post, args = pre ++ "--pol".toList :: s :: post ∧ BadTerm s) ∨
    (∃ pre s post, args = pre ++ "--coeffs".toList :: s :: post ∧ atol s = slongMax) ∨ 838860 < args.count "-v".toList) := by
  unfold readArgs
  split
  · exact ⟨by simp, fun h => by obtain ⟨w, h⟩ := h; cases h⟩
  · obtain ⟨h1, h2⟩ := argLoop_outcomes args.length Opts.init args 0 le_rfl rfl
    refine ⟨h1, fun h => ?_⟩
    rcases h2 h with h | h | h | h
    · exact Or.inr (Or.inr (Or.inr (by omega)))
    · exact Or.inl h
    · exact Or.inr (Or.inl h)
    · exact Or.inr (Or.inr (Or.inl h))

/-- **C33 (accepted vectors).** The program goes on to compute exactly on the non-empty vectors that spell a list of options with their operands,
and the settings are those obtained by applying the options from left to right. -/
theorem C33_accepted (args : List (List Char)) (o : Opts) : readArgs args = .ok (some o) ↔
    args ≠ [] ∧ ∃ cmds, args = argv cmds ∧ Complete cmds ∧ runCmds Opts.init cmds = .ok o := by
  unfold readArgs
  by_cases h0 : args = []
  · simp [h0]
  · rw [if_neg h0]
    constructor
    · exact fun h => ⟨h0, argLoop_inv _ _ _ _ h⟩
    · rintro ⟨-, cmds, rfl, h1, h2⟩
      rw [argLoop_cmds _ _ _ le_rfl h1, h2]
      rfl

/-- commands with all their operands -/
def Full : Cmd → Prop
  | .coeffs n cs => cs.length = (atol n + 1).toNat
  | _ => True

theorem argLoop_prefix : ∀ (cmds : List Cmd) (fuel : Nat) (o o' : Opts) (rest : List (List Char)), (∀ c ∈ cmds, Full c) →
    runCmds o cmds = .ok o' → cmds.length ≤ fuel → argLoop fuel o (argv cmds ++ rest) = argLoop (fuel - cmds.length) o' rest
  | [], fuel, o, o', rest, _, h, _ => by cases h; rfl
  | c :: cmds, fuel, o, o', rest, hfull, h, hf => by
    simp only [runCmds, Res.bind_eq_ok] at h
    obtain ⟨o1, h1, h2⟩ := h
    have hc : CompleteHead c (argv cmds ++ rest) := by
      have := hfull c (by simp)
      cases c <;> first | trivial | exact Or.inl this
    obtain ⟨a, r, h3, h4⟩ := stepArg_cmd o c (argv cmds ++ rest) hc
    have h5 : argv (c :: cmds) ++ rest = a :: r := by rw [← h3]; simp [argv]
    simp only [List.length_cons] at hf ⊢
    obtain ⟨f, rfl⟩ : ∃ f, fuel = f + 1 := ⟨fuel - 1, by omega⟩
    rw [h5]
    conv_lhs => unfold argLoop
    rw [h4, h1]
    simp only [Res.ok_bind]
    rw [argLoop_prefix cmds f o1 o' rest (fun c hc => hfull c (by simp [hc])) h2 (by omega)]
    congr 1
    omega

/-- **C33 (negation).** After any valid options, a last option without its operand makes the program call `atol` (or the parser) on the null
pointer after the end of `argv`. -/
theorem C33_missing_operand_fails (cmds : List Cmd) (hfull : ∀ c ∈ cmds, Full c) (o : Opts) (h : runCmds Opts.init cmds = .ok o)
    (a : List Char) (ha : a ∈ operandOptions) :
    readArgs (argv cmds ++ [a]) = .ub "atol(NULL)" ∨ readArgs (argv cmds ++ [a]) = .ub "fmpz_poly_parse(NULL)" := by
  unfold readArgs
  rw [if_neg (by simp)]
  have hlen : cmds.length ≤ (argv cmds).length := by
    clear h hfull
    induction cmds with
    | nil => simp
    | cons c cmds ih =>
      have hl : 0 < c.args.length := by cases c <;> simp [Cmd.args]
      simp only [argv, List.map_cons, List.flatten_cons, List.length_append, List.length_cons] at ih ⊢
      omega
  rw [argLoop_prefix cmds _ _ o _ hfull h (by simp; omega)]
  obtain ⟨f, hf⟩ : ∃ f, (argv cmds ++ [a]).length - cmds.length = f + 1 := ⟨(argv cmds ++ [a]).length - cmds.length - 1, by
    simp only [List.length_append, List.length_cons, List.length_nil]; omega⟩
  rw [hf]
  simp only [operandOptions, List.mem_cons, List.not_mem_nil, or_false] at ha
  rcases ha with rfl | rfl | rfl | rfl | rfl | rfl | rfl | rfl | rfl | rfl
  · exact Or.inl rfl
  · exact Or.inl rfl
  · exact Or.inl rfl
  · exact Or.inl rfl
  · exact Or.inl rfl
  · exact Or.inl rfl
  · exact Or.inl rfl
  · exact Or.inl rfl
  · exact Or.inr rfl
  · exact Or.inl rfl

/-- Instance: `periods -v --xn1 7 --prec`. -/
example : (∀ c ∈ [Cmd.verbose, .num .xn1 "7".toList], Full c) ∧ ∃ o, runCmds Opts.init [Cmd.verbose, .num .xn1 "7".toList] = .ok o := by
  constructor
  · intro c hc
    simp only [List.mem_cons, List.not_mem_nil, or_false] at hc
    rcases hc with rfl | rfl <;> trivial
  · refine ⟨_, (?_ : _ = Res.ok { Opts.init with flag := 2560, fPol := some .xn1, n := atol "7".toList })⟩
    simp [runCmds, runCmd, addVerbose, Opts.init, ajVerbose, setNum]

/-- **C33 (negation).** `--xn1 n` with any negative number is accepted and then writes before the coefficient array. -/
theorem C33_negative_degree_fails (F : Families) (s : List Char) (hs : atol s < 0) :
    ∃ o, readArgs ["--xn1".toList, s] = .ok (some o) ∧ curvePoly F o = .ub "negative coefficient index" := by
  refine ⟨_, rfl, ?_⟩
  simp only [curvePoly, applyFPol, Opts.init]
  rw [setCoeffSi_ok (by decide) (by decide)]
  simp only [Res.ok_bind, setCoeffSi, if_pos hs, Res.ub_bind]

example : atol "-3".toList < 0 := by decide

/-- **C33 (usage).** An argument that is no option at the place of an option gives the usage message; so do the options `--quiet` and `--exprev`
that the message advertises. -/
theorem C33_usage (o : Opts) (r : List (List Char)) : stepArg o "--quiet".toList r = .ok none ∧ stepArg o "--exprev".toList r = .ok none :=
  ⟨rfl, rfl⟩

/-! ## C34: flags and output -/

theorem runCmds_flag : ∀ (cmds : List Cmd) (o o' : Opts), runCmds o cmds = .ok o' →
    o'.flag / 512 = o.flag / 512 + 5 * cmds.count .verbose ∧
    (∀ f : FlagOpt, o'.flag.testBit f.bit = true ↔ o.flag.testBit f.bit = true ∨ Cmd.flag f ∈ cmds)
  | [], o, o', h => by cases h; simp
  | c :: cmds, o, o', h => by
    simp only [runCmds, Res.bind_eq_ok] at h
    obtain ⟨o1, h1, h2⟩ := h
    obtain ⟨h3, h4⟩ := runCmd_flag h1
    obtain ⟨h5, h6⟩ := runCmds_flag cmds o1 o' h2
    constructor
    · rw [h5, h3, List.count_cons]
      by_cases hc : c = .verbose
      · simp [hc]; omega
      · simp [hc]
    · intro f
      rw [h6, h4]
      simp only [Bool.or_eq_true, decide_eq_true_eq, List.mem_cons, eq_comm (a := c)]
      tauto

theorem runCmds_print : ∀ (cmds : List Cmd) (o o' : Opts), runCmds o cmds = .ok o' → (o.print = true → o.run = 1) →
    (o'.print = true → o'.run = 1)
  | [], o, o', h => by cases h; exact id
  | c :: cmds, o, o', h => by
    simp only [runCmds, Res.bind_eq_ok] at h
    obtain ⟨o1, h1, h2⟩ := h
    intro h0
    refine runCmds_print cmds o1 o' h2 ?_
    cases c with
    | verbose =>
      simp only [runCmd, Res.bind_eq_ok] at h1
      obtain ⟨q, _, h1⟩ := h1
      cases h1
      exact h0
    | num k v =>
      cases h1
      cases k <;> first | exact h0 | (intro h; cases h)
    | pol s =>
      simp only [runCmd, Res.bind_eq_ok] at h1
      obtain ⟨q, _, h1⟩ := h1
      cases h1
      exact h0
    | coeffs n cs =>
      simp only [runCmd, Res.bind_eq_ok] at h1
      obtain ⟨q, _, h1⟩ := h1
      cases h1
      exact h0
    | _ => cases h1; exact h0

theorem and_flag (x i : Nat) : x &&& 2 ^ i ≠ 0 ↔ x.testBit i = true := by
  constructor
  · intro h
    by_contra hb
    apply h
    apply Nat.eq_of_testBit_eq
    intro j
    rw [Nat.testBit_and, Nat.testBit_two_pow, Nat.zero_testBit]
    by_cases hj : i = j
    · subst hj
      simpa using hb
    · simp [hj]
  · intro h h0
    have := congrArg (fun y => y.testBit i) h0
    simp only [Nat.testBit_and, Nat.testBit_two_pow_self, h, Nat.zero_testBit] at this
    cases this

/-- **C34 (flags).** For every accepted argument vector there is one reading as a list of commands, and each of the nine computation flags is
set exactly when its option occurs, whatever the number of options `-v`; the verbosity is set exactly when `-v` occurs. -/
theorem C34_flags (args : List (List Char)) (o : Opts) (h : readArgs args = .ok (some o)) :
    ∃ cmds, args = argv cmds ∧ Complete cmds ∧ (∀ f : FlagOpt, o.flag.testBit f.bit = true ↔ Cmd.flag f ∈ cmds) ∧
      o.flag / 512 = 5 * cmds.count .verbose ∧ (ajVerbose ≤ o.flag ↔ Cmd.verbose ∈ cmds) := by
  unfold readArgs at h
  split at h
  · cases h
  · obtain ⟨cmds, h1, h2, h3⟩ := argLoop_inv _ _ _ _ h
    obtain ⟨h4, h5⟩ := runCmds_flag cmds _ _ h3
    simp only [Opts.init, Nat.zero_div, Nat.zero_add, Nat.zero_testBit, false_or, Bool.false_eq_true] at h4 h5
    refine ⟨cmds, h1, h2, h5, h4, ?_⟩
    have hv : ajVerbose = 2560 := rfl
    rw [← List.count_pos_iff, hv]
    omega

/-- Instance of C34: `periods -v --de -v --big`. -/
example : ∃ o, readArgs ["-v".toList, "--de".toList, "-v".toList, "--big".toList] = .ok (some o) ∧ o.flag = 2 * 2560 + 1 + 2 :=
  ⟨_, rfl, rfl⟩

/-- **C34 (output).** For every accepted argument vector: whatever is printed was computed by this run, and it is the tree if `--tree` occurs,
otherwise the integrals if `--int` occurs, otherwise the big period matrix if `--big` occurs, otherwise `tau`.  It is also
the last object computed. -/
theorem C34_output (args : List (List Char)) (o : Opts) (h : readArgs args = .ok (some o)) :
    ∃ cmds, args = argv cmds ∧ Complete cmds ∧ ∀ x, printed o = some x →
      x ∈ computedRun o ∧ (computedRun o).getLast? = some x ∧
      x = (if Cmd.flag .tree ∈ cmds then .tree else if Cmd.flag .int ∈ cmds then .integrals
        else if Cmd.flag .big ∈ cmds then .omega else .tau) := by
  unfold readArgs at h
  split at h
  · cases h
  · obtain ⟨cmds, h1, h2, h3⟩ := argLoop_inv _ _ _ _ h
    obtain ⟨-, h5⟩ := runCmds_flag cmds _ _ h3
    simp only [Opts.init, Nat.zero_testBit, false_or, Bool.false_eq_true] at h5
    have hp := runCmds_print cmds _ _ h3 (fun _ => rfl)
    refine ⟨cmds, h1, h2, fun x hx => ?_⟩
    unfold printed at hx
    split at hx
    · rename_i hpr
      have hrun := hp hpr
      have e1 : (o.flag &&& ajNoInt ≠ 0) ↔ Cmd.flag .tree ∈ cmds := (and_flag o.flag 3).trans (h5 .tree)
      have e2 : (o.flag &&& ajNoAb ≠ 0) ↔ Cmd.flag .int ∈ cmds := (and_flag o.flag 2).trans (h5 .int)
      have e3 : (o.flag &&& ajNoTau ≠ 0) ↔ Cmd.flag .big ∈ cmds := (and_flag o.flag 1).trans (h5 .big)
      simp only [computedRun, hrun, computed, e1, e2, e3] at hx ⊢
      rw [if_neg (by decide)]
      by_cases c1 : Cmd.flag .tree ∈ cmds
      · simp only [c1, if_true] at hx ⊢
        cases hx
        simp
      · by_cases c2 : Cmd.flag .int ∈ cmds
        · simp only [c1, c2, if_true, if_false] at hx ⊢
          cases hx
          simp
        · by_cases c3 : Cmd.flag .big ∈ cmds
          · simp only [c1, c2, c3, if_true, if_false] at hx ⊢
            cases hx
            simp
          · simp only [c1, c2, c3, if_false] at hx ⊢
            cases hx
            simp
    · cases hx

/-! ## C35: the curve -/

theorem runCmds_append : ∀ (xs ys : List Cmd) (o : Opts), runCmds o (xs ++ ys) = (runCmds o xs >>= fun o => runCmds o ys)
  | [], ys, o => rfl
  | c :: xs, ys, o => by
    simp only [List.cons_append, runCmds, bind_assoc]
    congr 1
    funext o1
    exact runCmds_append xs ys o1

theorem keep_curve : ∀ (cmds : List Cmd) (o o' : Opts), (∀ c ∈ cmds, c.isCurve = false) → runCmds o cmds = .ok o' →
    o'.poly = o.poly ∧ o'.fPol = o.fPol ∧ o'.rev = o.rev ∧ o'.n = o.n
  | [], o, o', _, h => by cases h; simp
  | c :: cmds, o, o', hc, h => by
    simp only [runCmds, Res.bind_eq_ok] at h
    obtain ⟨o1, h1, h2⟩ := h
    have ih := keep_curve cmds o1 o' (fun d hd => hc d (by simp [hd])) h2
    have h0 := hc c (by simp)
    have key : o1.poly = o.poly ∧ o1.fPol = o.fPol ∧ o1.rev = o.rev ∧ o1.n = o.n := by
      cases c with
      | verbose =>
        simp only [runCmd, Res.bind_eq_ok] at h1
        obtain ⟨q, _, h1⟩ := h1
        cases h1
        simp
      | num k v =>
        cases h1
        cases k <;> first | exact ⟨rfl, rfl, rfl, rfl⟩ | cases h0
      | flag f => cases h1; simp
      | gp => cases h1; simp
      | error => cases h1; simp
      | stoll => cases h0
      | pol s => cases h0
      | coeffs n cs => cases h0
    rw [ih.1, ih.2.1, ih.2.2.1, ih.2.2.2]
    exact key

theorem coeffsLoop_value : ∀ (cnt : Nat) (p : IPoly) (cs : List (List Char)) (q : IPoly × List (List Char)), cs.length = cnt →
    coeffsLoop cnt p cs = .ok q → ∀ k, q.1 k = if k < cnt then atol (cs.getD (cnt - 1 - k) []) else p k
  | 0, p, cs, q, _, h, k => by
    simp only [coeffsLoop, Res.ok.injEq] at h
    subst h
    simp
  | cnt + 1, p, [], q, hl, h, k => by simp at hl
  | cnt + 1, p, a :: cs, q, hl, h, k => by
    simp only [coeffsLoop, Res.bind_eq_ok] at h
    obtain ⟨p1, h1, h2⟩ := h
    have ih := coeffsLoop_value cnt p1 cs q (by simpa using hl) h2 k
    rw [ih]
    unfold setCoeffSi at h1
    rw [if_neg (by omega)] at h1
    split at h1
    · cases h1
    · cases h1
      by_cases hk : k < cnt
      · rw [if_pos hk, if_pos (by omega)]
        obtain ⟨d, hd⟩ : ∃ d, cnt + 1 - 1 - k = d + 1 := ⟨cnt - k - 1, by omega⟩
        rw [hd, List.getD_cons_succ]
        congr 2
        omega
      · rw [if_neg hk]
        by_cases hk2 : k = cnt
        · subst hk2
          simp
        · simp [hk2, show ¬ k < cnt + 1 by omega]

/-- side conditions of the single options: the degree is positive and in range, `--coeffs` has its `n + 1` coefficients -/
def SideCond : Cmd → Prop
  | .num .xn1 v => 0 < atol v ∧ atol v < slongMax
  | .coeffs n cs => 0 ≤ atol n ∧ cs.length = (atol n + 1).toNat
  | .num .bernrev _ => False
  | _ => True

/-- **C35 (one option).** When exactly one option selecting the curve occurs, anywhere among any other options, and it is not `--bernrev`, the
polynomial used is the documented one. -/
theorem C35_one_option_partial (F : Families) (pre post : List Cmd) (c : Cmd) (hpre : ∀ d ∈ pre, d.isCurve = false)
    (hpost : ∀ d ∈ post, d.isCurve = false) (hcur : c.isCurve = true) (hside : SideCond c)
    (hcomp : Complete (pre ++ c :: post)) (o : Opts) (h : readArgs (argv (pre ++ c :: post)) = .ok (some o)) :
    ∃ p, curvePoly F o = .ok p ∧ Documented F p c := by
  have hrun : runCmds Opts.init (pre ++ c :: post) = .ok o := by
    unfold readArgs at h
    split at h
    · cases h
    · rw [argLoop_cmds _ _ _ le_rfl hcomp, Res.bind_eq_ok] at h
      obtain ⟨o1, h1, h2⟩ := h
      cases h2
      exact h1
  rw [runCmds_append, Res.bind_eq_ok] at hrun
  obtain ⟨o1, h1, h2⟩ := hrun
  simp only [runCmds, Res.bind_eq_ok] at h2
  obtain ⟨o2, h2, h3⟩ := h2
  obtain ⟨a1, a2, a3, a4⟩ := keep_curve pre _ _ hpre h1
  obtain ⟨b1, b2, b3, b4⟩ := keep_curve post _ _ hpost h3
  simp only [Opts.init] at a1 a2 a3 a4
  simp only [curvePoly, applyFPol, b1, b2, b3, b4]
  cases c with
  | verbose => cases hcur
  | flag f => cases hcur
  | gp => cases hcur
  | error => cases hcur
  | num k v =>
    cases k with
    | m => cases hcur
    | prec => cases hcur
    | digits => cases hcur
    | bench => cases hcur
    | xn1 =>
      cases h2
      simp only [SideCond] at hside
      simp only [setNum, a1, a3]
      rw [setCoeffSi_ok (by decide) (by decide)]
      simp only [Res.ok_bind]
      rw [setCoeffSi_ok (by omega) hside.2]
      refine ⟨_, rfl, ?_⟩
      intro k
      simp only [Bool.false_eq_true, if_false]
      by_cases hk : k = (atol v).toNat
      · rw [if_pos hk, if_pos (c := (k : Int) = atol v) (by omega), if_neg (by omega)]
        rfl
      · rw [if_neg hk, if_neg (c := (k : Int) = atol v) (by omega)]
        by_cases hk0 : k = 0
        · rw [if_pos (by simpa using hk0), if_pos hk0]
          rfl
        · rw [if_neg (by simpa using hk0), if_neg hk0]
          rfl
    | exp =>
      cases h2
      simp only [setNum, a1, a3]
      refine ⟨_, rfl, ?_⟩
      intro k
      rfl
    | bern =>
      cases h2
      simp only [setNum, a1, a3]
      refine ⟨_, rfl, ?_⟩
      intro k
      rfl
    | bernrev => exact hside.elim
  | stoll =>
    cases h2
    simp only [a1, a3]
    refine ⟨_, rfl, ?_⟩
    intro k
    rcases k with _ | _ | _ | _ | _ | _ | _ | k <;> rfl
  | pol s =>
    simp only [runCmd, Res.bind_eq_ok] at h2
    obtain ⟨q, h4, h5⟩ := h2
    cases h5
    simp only [a3]
    refine ⟨_, rfl, ?_⟩
    simp only [polArg, a1] at h4
    simp only [Documented, Bool.false_eq_true, if_false]
    split at h4
    · rename_i p hp
      cases h4
      exact hp
    all_goals cases h4
  | coeffs n cs =>
    simp only [runCmd, Res.bind_eq_ok] at h2
    obtain ⟨q, h4, h5⟩ := h2
    cases h5
    simp only [SideCond] at hside
    simp only [a3]
    refine ⟨_, rfl, ?_⟩
    have hv := coeffsLoop_value _ _ _ _ hside.2 h4
    simp only [Documented, Bool.false_eq_true, if_false]
    constructor
    · intro j hj
      rw [hv, if_pos (by omega)]
      congr 2
      omega
    · intro k hk
      rw [hv, if_neg (by omega), a1]

/-- Instance of C35: `periods -m 3 --coeffs 2 1 0 -5 -v`. -/
example : SideCond (.coeffs "2".toList ["1".toList, "0".toList, "-5".toList]) ∧
    Complete ([Cmd.num .m "3".toList] ++ .coeffs "2".toList ["1".toList, "0".toList, "-5".toList] :: [.verbose]) ∧
    ∃ o, readArgs (argv ([Cmd.num .m "3".toList] ++ .coeffs "2".toList ["1".toList, "0".toList, "-5".toList] :: [.verbose])) = .ok (some o) := by
  refine ⟨⟨by decide, by decide⟩, ?_, ⟨_, rfl⟩⟩
  simp only [List.cons_append, List.nil_append, Complete]
  exact ⟨Or.inl (by decide), trivial⟩

/-- **C35 (no option, negation).** Without any option selecting the curve (and at least one argument) the polynomial is `x^5 - 1`, not
the documented `x^5 + 1`. -/
theorem C35_default_fails (F : Families) (cmds : List Cmd) (hc : ∀ d ∈ cmds, d.isCurve = false) (hcomp : Complete cmds) (o : Opts)
    (h : readArgs (argv cmds) = .ok (some o)) :
    ∃ p, curvePoly F o = .ok p ∧ ∀ k : Nat, p k = if k = 5 then 1 else if k = 0 then -1 else 0 := by
  have hrun : runCmds Opts.init cmds = .ok o := by
    unfold readArgs at h
    split at h
    · cases h
    · rw [argLoop_cmds _ _ _ le_rfl hcomp, Res.bind_eq_ok] at h
      obtain ⟨o1, h1, h2⟩ := h
      cases h2
      exact h1
  obtain ⟨b1, b2, b3, b4⟩ := keep_curve cmds _ _ hc hrun
  simp only [curvePoly, applyFPol, b1, b2, b3, b4, Opts.init]
  rw [setCoeffSi_ok (by decide) (by decide)]
  simp only [Res.ok_bind]
  rw [setCoeffSi_ok (by decide) (by decide)]
  refine ⟨_, rfl, fun k => ?_⟩
  simp only [Bool.false_eq_true, if_false]
  rfl

/-- **C35 (several options, negation).** After `--pol s`, the option `--xn1 n` does not select `x^n - 1`: every coefficient of the first
polynomial other than the two set remains. -/
theorem C35_overlay_fails (F : Families) (s v : List Char) (q : IPoly) (hq : polyParse s.length (fun _ => 0) s = .ok (some q))
    (hv : 0 < atol v ∧ atol v < slongMax) (k : Nat) (hk0 : k ≠ 0) (hkn : (k : Int) ≠ atol v) (hne : q k ≠ 0) :
    ∃ o p, readArgs (argv [.pol s, .num .xn1 v]) = .ok (some o) ∧ curvePoly F o = .ok p ∧ p k = q k ∧
      ¬ Documented F p (.num .xn1 v) := by
  have hrun : runCmds Opts.init [.pol s, .num .xn1 v] =
      .ok { Opts.init with poly := q, fPol := some .xn1, n := atol v } := by
    have hp : polArg Opts.init.poly [s] = .ok (q, []) := by
      have : Opts.init.poly = fun _ => 0 := rfl
      simp only [polArg, this, hq]
    simp only [runCmds, runCmd, hp, Res.ok_bind, setNum]
  refine ⟨{ Opts.init with poly := q, fPol := some .xn1, n := atol v },
    fun k => if k = (atol v).toNat then 1 else if k = (0 : Int).toNat then -1 else q k, ?_, ?_, ?_, ?_⟩
  · unfold readArgs
    rw [if_neg (by simp [argv, Cmd.args]), argLoop_cmds _ _ _ le_rfl (show Complete [.pol s, .num .xn1 v] from trivial), hrun]
    rfl
  · simp only [curvePoly, applyFPol]
    rw [setCoeffSi_ok (by decide) (by decide)]
    simp only [Res.ok_bind]
    rw [setCoeffSi_ok (by omega) hv.2]
    rfl
  · simp only
    rw [if_neg (by omega), if_neg (by simpa using hk0)]
  · intro hdoc
    have := hdoc k
    simp only at this
    rw [if_neg (c := k = (atol v).toNat) (by omega), if_neg (c := k = (0 : Int).toNat) (by simpa using hk0),
      if_neg hkn, if_neg hk0] at this
    exact hne (by simpa using this)

/-- Instance: `--pol x^7+x --xn1 5` uses `x^7 + x^5 + x - 1`. -/
example : ∃ q, polyParse "x^7+x".toList.length (fun _ => 0) "x^7+x".toList = .ok (some q) ∧ q 7 ≠ 0 ∧ (0 < atol "5".toList ∧ atol "5".toList < slongMax) := by
  refine ⟨_, rfl, ?_, ?_⟩ <;> decide

/-- **C35 (negation).** `--bernrev n` never selects the reverse `x^n B_n(1/x)`, for any `n ≥ 1`: the last coefficient is dropped. -/
theorem C35_bernrev_fails (F : Families) (hF : BernoulliNumerators F) (v : List Char) (hv : 0 < atol v) :
    ∃ o p, readArgs (argv [.num .bernrev v]) = .ok (some o) ∧ curvePoly F o = .ok p ∧ ¬ Documented F p (.num .bernrev v) ∧
      ∀ k : Nat, (k : Int) ≥ atol v → p k = 0 := by
  refine ⟨_, _, rfl, rfl, ?_, ?_⟩
  · intro hdoc
    obtain ⟨n, hn⟩ : ∃ n : Nat, atol v = n := ⟨(atol v).toNat, by omega⟩
    have hn0 : 0 < n := by omega
    have := hdoc 0
    have hpr : polyReverse (atol v) (polyNumer (fun _ => 0) (F.bern (atol v)).1 (F.bern (atol v)).2) 0 = (F.bern n).2 (n - 1) := by
      unfold polyReverse polyNumer
      rw [hn, if_pos (by simpa using hn0), (hF n).1]
      have e : ((n : Int) - 1 - ((0 : Nat) : Int)).toNat = n - 1 := by omega
      rw [e, if_pos (by omega)]
    have h2 : (F.bern n).2 (n - 1) = (F.bern n).2 n := by
      rw [← hpr]
      refine this.trans ?_
      rw [hn, if_pos (by omega)]
      congr 1
    obtain ⟨-, D, hD, hcoef⟩ := hF n
    have h3 := hcoef (n - 1)
    have h4 := hcoef n
    rw [h2] at h3
    rw [h3, Polynomial.coeff_bernoulli, Polynomial.coeff_bernoulli, if_pos (by omega), if_pos le_rfl] at h4
    have hD' : (D : ℚ) ≠ 0 := by exact_mod_cast hD
    have h5 := mul_left_cancel₀ hD' h4
    rw [show n - (n - 1) = 1 by omega, Nat.sub_self, bernoulli_one, bernoulli_zero, Nat.choose_self,
      show n.choose (n - 1) = n by
        obtain ⟨k, rfl⟩ : ∃ k, n = k + 1 := ⟨n - 1, by omega⟩
        simp] at h5
    have : (0 : ℚ) < n := by exact_mod_cast hn0
    norm_num at h5
    linarith
  · intro k hk
    show polyReverse (atol v) _ k = 0
    unfold polyReverse
    rw [if_neg (by omega)]

/-- there are such numerators -/
theorem bernoulliNumerators_exist : ∃ F, BernoulliNumerators F := by
  let D : Nat → Int := fun n => ∏ j ∈ Finset.range (n + 1), ((Polynomial.bernoulli n).coeff j).den
  have hD : ∀ n, D n ≠ 0 := by
    intro n
    simp only [D]
    rw [Finset.prod_ne_zero_iff]
    intro j _
    exact_mod_cast ((Polynomial.bernoulli n).coeff j).den_ne_zero
  have key : ∀ n k : Nat, ∃ z : Int, (z : ℚ) = D n * (Polynomial.bernoulli n).coeff k := by
    intro n k
    by_cases hk : k ∈ Finset.range (n + 1)
    · refine ⟨(∏ j ∈ (Finset.range (n + 1)).erase k, (((Polynomial.bernoulli n).coeff j).den : Int)) *
        ((Polynomial.bernoulli n).coeff k).num, ?_⟩
      simp only [D]
      rw [← Finset.mul_prod_erase _ _ hk]
      push_cast
      have := Rat.mul_den_eq_num ((Polynomial.bernoulli n).coeff k)
      linear_combination (-∏ x ∈ (Finset.range (n + 1)).erase k, (((Polynomial.bernoulli n).coeff x).den : ℚ)) * this
    · refine ⟨0, ?_⟩
      rw [Polynomial.coeff_bernoulli, if_neg (by simpa using hk)]
      simp
  choose z hz using key
  refine ⟨⟨fun n => (n, fun k => z n.toNat k), fun n => (n, fun _ => 0)⟩, fun n => ⟨rfl, D n, hD n, fun k => ?_⟩⟩
  exact hz n k

end Hcp
