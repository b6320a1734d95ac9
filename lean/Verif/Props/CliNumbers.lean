import Verif.Props.Main

/-!
# C77: numbers on the command line
-/

namespace Hcp

open Spec

theorem skipSpace_append : ∀ (sp rest : List Char), (∀ c ∈ sp, isSpaceC c = true) → (∀ c r, rest = c :: r → isSpaceC c = false) → skipSpace (sp ++ rest) = rest
  | [], rest, _, h => by
    cases rest with
    | nil => rfl
    | cons c r => rw [List.nil_append, skipSpace, if_neg (by simp [h c r rfl])]
  | s :: sp, rest, h1, h2 => by
    rw [List.cons_append, skipSpace, if_pos (h1 s (by simp))]
    exact skipSpace_append sp rest (fun c hc => h1 c (by simp [hc])) h2

/-- a literal followed by something which is not a digit -/
theorem strtol_literal {w rest : List Char} {v : Int} (h : Literal w v) (hr : ∀ c r, rest = c :: r → c.isDigit = false) : strtol (w ++ rest) = some (clampLong v, rest) := by
  have hsg : ∀ s : Char, s = '+' ∨ s = '-' → isSpaceC s = false := by rintro s (rfl | rfl) <;> decide
  cases h with
  | pos sp ds h1 h2 h3 =>
    have hk : skipSpace (sp ++ ds ++ rest) = skipSpace (ds ++ rest) := by
      have hd : ∀ c r, ds ++ rest = c :: r → isSpaceC c = false := fun c r e => by
        cases ds with
        | nil => exact absurd rfl h3
        | cons d ds =>
          obtain ⟨rfl, -⟩ := List.cons.inj e
          exact (digit_not_space (h2 d (by simp))).1
      rw [List.append_assoc, skipSpace_append sp _ h1 hd]
      exact (skipSpace_append [] _ (by simp) hd).symm
    have := strtol_digits h2 h3 hr
    unfold strtol at this ⊢
    rw [hk]
    exact this
  | plus sp ds h1 h2 h3 =>
    have hn := readNat_append h2 h3 hr
    unfold strtol
    rw [List.append_assoc, List.cons_append, skipSpace_append sp _ h1 (fun c r e => by obtain ⟨rfl, -⟩ := List.cons.inj e; exact hsg _ (Or.inl rfl))]
    simp only
    rw [if_neg (by decide), if_pos trivial, hn]
    rfl
  | neg sp ds h1 h2 h3 =>
    have hn := readNat_append h2 h3 hr
    unfold strtol
    rw [List.append_assoc, List.cons_append, skipSpace_append sp _ h1 (fun c r e => by obtain ⟨rfl, -⟩ := List.cons.inj e; exact hsg _ (Or.inr rfl))]
    simp only
    rw [if_pos trivial, hn]
    rfl

/-- the closest `long` -/
def Nearest (v x : Int) : Prop := FitsSlong x ∧ ∀ y, FitsSlong y → |v - x| ≤ |v - y|

theorem clamp_nearest (v : Int) : Nearest v (clampLong v) := by
  unfold clampLong
  split
  · refine ⟨by unfold FitsSlong slongMin slongMax; omega, fun y hy => ?_⟩
    unfold FitsSlong at hy
    rw [abs_of_nonpos (by omega), abs_of_nonpos (by omega)]
    omega
  · split
    · refine ⟨by unfold FitsSlong slongMin slongMax; omega, fun y hy => ?_⟩
      unfold FitsSlong at hy
      rw [abs_of_nonneg (by omega), abs_of_nonneg (by omega)]
      omega
    · exact ⟨⟨by omega, by omega⟩, fun y _ => by simp⟩

/-- the text does not begin with a number -/
def NoNumber (w : List Char) : Prop := ∀ u r v, w = u ++ r → ¬Literal u v

/-- the reading of an operand: what `atol` returns -/
theorem atol_literal {w rest : List Char} {v : Int} (h : Literal w v) (hr : ∀ c r, rest = c :: r → c.isDigit = false) : Nearest v (atol (w ++ rest)) := by
  unfold atol
  rw [strtol_literal h hr]
  exact clamp_nearest v

theorem nearest_fits {v x : Int} (h : Nearest v x) (hv : FitsSlong v) : x = v := by
  have := h.2 v hv
  simp only [sub_self, abs_zero] at this
  have := abs_nonpos_iff.1 this
  omega

theorem atol_none {w : List Char} (h : NoNumber w) : atol w = 0 := by
  unfold atol
  cases e : strtol w with
  | none => rfl
  | some q =>
    obtain ⟨v, r⟩ := q
    obtain ⟨u, x, h1, h2, -⟩ := strtol_some e
    exact absurd h2 (h u r x h1)

/-- what the program stores for an operand -/
def ReadsAs (w : List Char) (x : Int) : Prop := (∀ u rest v, w = u ++ rest → Literal u v → (∀ c r, rest = c :: r → c.isDigit = false) → Nearest v x) ∧ (NoNumber w → x = 0)

theorem atol_reads (w : List Char) : ReadsAs w (atol w) := ⟨fun _ _ _ e hl hr => e ▸ atol_literal hl hr, atol_none⟩

/-- **C77.** On every complete command line which the program accepts: the exponent `m` is the number written after the last `-m` (2 without `-m`), the precision the number after the last `--prec` (128 without); a number followed by other characters counts as the number, a number out of range as the nearest `long`, and an operand without number as `0`. -/
theorem C77_numbers_partial {cmds : List Cmd} (hcomp : Complete cmds) {o : Opts} (h : readArgs (argv cmds) = .ok (some o)) :
    (((∀ v, Cmd.num .m v ∉ cmds) → o.m = 2) ∧ ∀ pre w post, cmds = pre ++ .num .m w :: post → (∀ w, Cmd.num .m w ∉ post) → ReadsAs w o.m) ∧
    (((∀ v, Cmd.num .prec v ∉ cmds) → o.prec = 128) ∧ ∀ pre w post, cmds = pre ++ .num .prec w :: post → (∀ w, Cmd.num .prec w ∉ post) → ReadsAs w o.prec) := by
  have hrun : runCmds Opts.init cmds = .ok o := by
    unfold readArgs at h
    split at h
    · cases h
    · rw [argLoop_cmds _ _ _ le_rfl hcomp, Res.bind_eq_ok] at h
      obtain ⟨o1, h1, h2⟩ := h
      cases h2
      exact h1
  obtain ⟨⟨a1, a2⟩, ⟨a3, a4⟩, -⟩ := runCmds_last cmds hrun
  exact ⟨⟨a1, fun p w q e hq => a2 p w q e hq ▸ atol_reads w⟩, ⟨a3, fun p w q e hq => a4 p w q e hq ▸ atol_reads w⟩⟩

/-- **C77 (the operand is a number).** -/
theorem C77_exact {w : List Char} {v x : Int} (hw : Literal w v) (hv : FitsSlong v) (h : ReadsAs w x) : x = v :=
  nearest_fits (h.1 w [] v (by simp) hw (by simp)) hv

/-- **C77 fails for operands which are not numbers**: no diagnostic; `-m three` runs with `m = 0`, `-m 3x` with `m = 3`. -/
theorem C77_garbage_fails (w : List Char) (hw : NoNumber w) (u rest : List Char) (v : Int) (hu : Literal u v) (hv : FitsSlong v) (hr : ∀ c r, rest = c :: r → c.isDigit = false) :
    (∃ o, readArgs (argv [.num .m w]) = .ok (some o) ∧ o.m = 0) ∧ ∃ o, readArgs (argv [.num .m (u ++ rest)]) = .ok (some o) ∧ o.m = v := by
  have hs : ∀ w, readArgs (argv [.num .m w]) = .ok (some { Opts.init with m := atol w }) := fun _ => rfl
  exact ⟨⟨_, hs _, atol_none hw⟩, _, hs _, nearest_fits (atol_literal hu hr) hv⟩

theorem runCmds_lastNum {π : Opts → Int} {F : Int → Int} {k : NumOpt} (hk : ∀ o v, π (setNum o v k) = F v) (ho : ∀ o o1 c, runCmd o c = .ok o1 → (∀ v, c ≠ .num k v) → π o1 = π o) :
    ∀ (cmds : List Cmd) {o o' : Opts}, runCmds o cmds = .ok o' → ((∀ v, Cmd.num k v ∉ cmds) → π o' = π o) ∧ ∀ pre v post, cmds = pre ++ .num k v :: post → (∀ w, Cmd.num k w ∉ post) → π o' = F (atol v)
  | [], o, o', h => by
    cases h
    simp
  | c :: cmds, o, o', h => by
    simp only [runCmds, Res.bind_eq_ok] at h
    obtain ⟨o1, h1, h2⟩ := h
    obtain ⟨i1, i2⟩ := runCmds_lastNum hk ho cmds h2
    refine ⟨fun h => ?_, fun pre v post e hp => ?_⟩
    · rw [i1 fun v hv => h v (List.mem_cons_of_mem _ hv), ho _ _ _ h1 fun v hv => h v (hv ▸ List.mem_cons_self ..)]
    · cases pre with
      | nil =>
        obtain ⟨rfl, rfl⟩ := List.cons.inj e
        cases h1
        rw [i1 hp, hk]
      | cons d pre =>
        obtain ⟨rfl, rfl⟩ := List.cons.inj e
        exact i2 pre v post rfl hp

/-- the value of a `long` in an `int`: the number with the same residue modulo `2^32` -/
def Wraps (v : Int) (r : Int) : Prop := -2 ^ 31 ≤ r ∧ r < 2 ^ 31 ∧ ∃ q, v = r + 2 ^ 32 * q

/-- **C77 (`--bench`).** The number of rounds is the number after the last `--bench` (1 without), reduced modulo `2^32` to an `int`. -/
theorem C77_bench_partial {cmds : List Cmd} (hcomp : Complete cmds) {o : Opts} (h : readArgs (argv cmds) = .ok (some o)) :
    ((∀ v, Cmd.num .bench v ∉ cmds) → o.run = 1) ∧ ∀ pre w post, cmds = pre ++ .num .bench w :: post → (∀ w, Cmd.num .bench w ∉ post) →
      ∃ v, ReadsAs w v ∧ Wraps v o.run ∧ (-2 ^ 31 ≤ v → v < 2 ^ 31 → o.run = v) := by
  have hrun : runCmds Opts.init cmds = .ok o := by
    unfold readArgs at h
    split at h
    · cases h
    · rw [argLoop_cmds _ _ _ le_rfl hcomp, Res.bind_eq_ok] at h
      obtain ⟨o1, h1, h2⟩ := h
      cases h2
      exact h1
  have ho : ∀ o o1 c, runCmd o c = .ok o1 → (∀ v, c ≠ .num .bench v) → o1.run = o.run := by
    intro o o1 c h1 hc
    cases c with
    | num k v =>
      cases h1
      cases k <;> first | rfl | exact absurd rfl (hc v)
    | verbose =>
      simp only [runCmd, Res.bind_eq_ok] at h1
      obtain ⟨q, _, h1⟩ := h1
      cases h1
      rfl
    | pol s =>
      simp only [runCmd, Res.bind_eq_ok] at h1
      obtain ⟨q, _, h1⟩ := h1
      cases h1
      rfl
    | coeffs n cs =>
      simp only [runCmd, Res.bind_eq_ok] at h1
      obtain ⟨q, _, h1⟩ := h1
      cases h1
      rfl
    | _ => cases h1; rfl
  obtain ⟨a1, a2⟩ := runCmds_lastNum (π := Opts.run) (F := toInt32) (k := .bench) (fun _ _ => rfl) ho cmds hrun
  refine ⟨a1, fun p w q e hq => ⟨atol w, atol_reads w, ?_, fun h1 h2 => ?_⟩⟩
  · rw [a2 p w q e hq]
    unfold toInt32
    exact ⟨by omega, by omega, (atol w + 2 ^ 31) / 2 ^ 32, by omega⟩
  · rw [a2 p w q e hq]
    unfold toInt32
    omega

/-- **`--bench N` does not always run `N` times**: `--bench 4294967296` computes nothing. -/
theorem C77_bench_fails : ∃ o, readArgs (argv [.num .bench "4294967296".toList]) = .ok (some o) ∧ o.run = 0 := by
  refine ⟨_, rfl, ?_⟩
  have h : Literal "4294967296".toList 4294967296 := Literal.pos [] "4294967296".toList (by simp) (by decide) (by decide)
  have := nearest_fits (atol_literal (rest := []) h (by simp)) (by unfold FitsSlong slongMin slongMax; omega)
  rw [List.append_nil] at this
  show toInt32 (atol "4294967296".toList) = 0
  rw [this]
  rfl

example : Literal " -12".toList (-12) := Literal.neg [' '] ['1', '2'] (by decide) (by decide) (by decide)

example : NoNumber "three".toList := by
  intro u r v e h
  have := strtol_literal (rest := []) h (by simp)
  cases u with
  | nil => cases this
  | cons c u =>
    have hc : c = 't' := (List.cons.inj e).1.symm
    subst hc
    rw [List.append_nil] at this
    unfold strtol at this
    rw [skipSpace, if_neg (by decide)] at this
    simp only at this
    rw [if_neg (by decide), if_neg (by decide), readNat] at this
    simp at this

end Hcp
