import Verif.Props.CliNumbers

/-!
# C33, C34: the flags are an `int`
-/

namespace Hcp

open Spec

theorem runCmd_flag_fits {o o' : Opts} {c : Cmd} (h : runCmd o c = .ok o') (ho : o.flag < 2 ^ 31) : o'.flag < 2 ^ 31 := by
  cases c with
  | verbose =>
    simp only [runCmd, addVerbose] at h
    split at h
    · cases h
      assumption
    · cases h
  | flag f =>
    cases h
    exact Nat.or_lt_two_pow ho (by cases f <;> decide)
  | num k v => cases h; cases k <;> exact ho
  | gp => cases h; exact ho
  | error => cases h; exact ho
  | stoll => cases h; exact ho
  | pol s =>
    simp only [runCmd, Res.bind_eq_ok] at h
    obtain ⟨q, _, h⟩ := h
    cases h
    exact ho
  | coeffs n cs =>
    simp only [runCmd, Res.bind_eq_ok] at h
    obtain ⟨q, _, h⟩ := h
    cases h
    exact ho

theorem runCmds_flag_fits : ∀ (cmds : List Cmd) (o o' : Opts), runCmds o cmds = .ok o' → o.flag < 2 ^ 31 → o'.flag < 2 ^ 31
  | [], o, o', h, ho => by cases h; exact ho
  | c :: cs, o, o', h, ho => by
    simp only [runCmds, Res.bind_eq_ok] at h
    obtain ⟨o1, h1, h2⟩ := h
    exact runCmds_flag_fits cs o1 o' h2 (runCmd_flag_fits h1 ho)

/-- **C34 (the flags).** For every accepted command line the value of the flags fits in the `int` which holds it. -/
theorem C34_flag_fits (args : List (List Char)) (o : Opts) (h : readArgs args = .ok (some o)) : (o.flag : Int) < 2 ^ 31 := by
  obtain ⟨-, cmds, -, -, hr⟩ := (C33_accepted args o).1 h
  exact_mod_cast runCmds_flag_fits cmds _ _ hr (by decide)

theorem argLoop_verbose : ∀ (k : Nat) (o : Opts), o.flag < 2 ^ 31 →
    (o.flag + 2560 * k < 2 ^ 31 → argLoop k o (List.replicate k "-v".toList) = .ok (some { o with flag := o.flag + 2560 * k })) ∧
    (2 ^ 31 ≤ o.flag + 2560 * k → argLoop k o (List.replicate k "-v".toList) = .ub "signed overflow")
  | 0, o, ho => ⟨fun _ => rfl, fun h => by omega⟩
  | k + 1, o, ho => by
    have hs : ∀ r, stepArg o "-v".toList r = (addVerbose o.flag >>= fun f => .ok (some ({ o with flag := f }, r))) := fun r => by
      unfold stepArg
      rw [if_pos rfl]
    have hv : ajVerbose = 2560 := rfl
    rw [List.replicate_succ]
    simp only [argLoop, hs, addVerbose, hv]
    by_cases h : o.flag + 2560 < 2 ^ 31
    · rw [if_pos h]
      obtain ⟨h1, h2⟩ := argLoop_verbose k { o with flag := o.flag + 2560 } h
      simp only [Res.ok_bind]
      refine ⟨fun g => ?_, fun g => h2 (by show _ ≤ o.flag + 2560 + 2560 * k; omega)⟩
      rw [h1 (by show o.flag + 2560 + 2560 * k < _; omega)]
      congr 3
      show o.flag + 2560 + 2560 * k = _
      ring
    · rw [if_neg h]
      exact ⟨fun g => by omega, fun _ => rfl⟩

/-- **C33 (negation).** `-v` adds to the `int` which holds the flags: repeated `k` times it is accepted for `k ≤ 838860`, with the flags `2560 k`, and is a signed overflow for every larger `k`. -/
theorem C33_verbose_fails (k : Nat) (hk : 0 < k) : (k ≤ 838860 → ∃ o, readArgs (List.replicate k "-v".toList) = .ok (some o) ∧ o.flag = 2560 * k) ∧
    (838860 < k → readArgs (List.replicate k "-v".toList) = .ub "signed overflow") := by
  have h0 : List.replicate k "-v".toList ≠ [] := fun h => by
    have := congrArg List.length h
    simp only [List.length_replicate, List.length_nil] at this
    omega
  obtain ⟨h1, h2⟩ := argLoop_verbose k Opts.init (by decide)
  have hf : Opts.init.flag = 0 := rfl
  rw [hf] at h1 h2
  unfold readArgs
  rw [if_neg h0, List.length_replicate]
  exact ⟨fun h => ⟨_, h1 (by omega), by simp⟩, fun h => h2 (by omega)⟩

/-- both cases occur -/
example : (3 : Nat) ≤ 838860 ∧ (838860 : Nat) < 1000000 := by decide

end Hcp
