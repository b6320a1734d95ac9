import Verif.Spec.Cli
import Mathlib.Tactic.SplitIfs

/-!
# Lemmas on the option loop
-/

namespace Hcp

open Spec

/-- effect of a numeric option -/
def setNum (o : Opts) (v : Int) : NumOpt → Opts
  | .m => { o with m := v }
  | .prec => { o with prec := v }
  | .digits => { o with digits := v }
  | .bench => { o with run := toInt32 v, print := false }
  | .xn1 => { o with n := v, fPol := some .xn1 }
  | .exp => { o with n := v, fPol := some .exp }
  | .bern => { o with n := v, fPol := some .bern }
  | .bernrev => { o with n := v, fPol := some .bern, rev := true }

/-- effect of a command -/
def runCmd (o : Opts) : Cmd → Res Opts
  | .verbose => addVerbose o.flag >>= fun f => .ok { o with flag := f }
  | .flag f => .ok { o with flag := o.flag ||| 2 ^ f.bit }
  | .num k v => .ok (setNum o (atol v) k)
  | .gp => .ok { o with fPrint := .gp }
  | .error => .ok { o with fPrint := .error }
  | .stoll => .ok { o with poly := setStoll o.poly, fPol := none }
  | .pol s => polArg o.poly [s] >>= fun q => .ok { o with poly := q.1, fPol := none }
  | .coeffs n cs => coeffsLoop (atol n + 1).toNat o.poly cs >>= fun q => .ok { o with n := atol n, poly := q.1, fPol := none }

def runCmds (o : Opts) : List Cmd → Res Opts
  | [] => .ok o
  | c :: cs => runCmd o c >>= fun o => runCmds o cs

/-- the condition of `Complete` on the first command -/
def CompleteHead (c : Cmd) (rest : List (List Char)) : Prop := match c with
  | .coeffs n cs => cs.length = (atol n + 1).toNat ∨ cs.length ≤ (atol n + 1).toNat ∧ rest = []
  | _ => True

theorem coeffsLoop_append : ∀ (cnt : Nat) (p : IPoly) (cs rest : List (List Char)),
    (cs.length = cnt ∨ cs.length ≤ cnt ∧ rest = []) →
    coeffsLoop cnt p (cs ++ rest) = (coeffsLoop cnt p cs >>= fun q => .ok (q.1, rest))
  | 0, p, cs, rest, h => by
    have h0 : cs = [] := by
      apply List.eq_nil_of_length_eq_zero
      omega
    subst h0
    simp [coeffsLoop]
  | cnt + 1, p, [], rest, h => by
    have h0 : rest = [] := by
      rcases h with h | h
      · simp at h
      · exact h.2
    subst h0
    simp [coeffsLoop]
  | cnt + 1, p, a :: cs, rest, h => by
    simp only [List.length_cons] at h
    simp only [List.cons_append, coeffsLoop, bind_assoc]
    congr 1
    funext q
    exact coeffsLoop_append cnt q cs rest (h.imp (fun h => by omega) fun h => ⟨by omega, h.2⟩)

theorem coeffsLoop_inv : ∀ (cnt : Nat) (p : IPoly) (r : List (List Char)) (p' : IPoly) (r' : List (List Char)),
    coeffsLoop cnt p r = .ok (p', r') → ∃ cs, r = cs ++ r' ∧ coeffsLoop cnt p cs = .ok (p', []) ∧
      (cs.length = cnt ∨ cs.length ≤ cnt ∧ r' = [])
  | 0, p, r, p', r', h => by
    simp only [coeffsLoop, Res.ok.injEq, Prod.mk.injEq] at h
    obtain ⟨rfl, rfl⟩ := h
    exact ⟨[], by simp [coeffsLoop]⟩
  | cnt + 1, p, [], p', r', h => by
    simp only [coeffsLoop, Res.ok.injEq, Prod.mk.injEq] at h
    obtain ⟨rfl, rfl⟩ := h
    exact ⟨[], by simp [coeffsLoop]⟩
  | cnt + 1, p, a :: r, p', r', h => by
    simp only [coeffsLoop, Res.bind_eq_ok] at h
    obtain ⟨q, h1, h2⟩ := h
    obtain ⟨cs, h3, h4, h5⟩ := coeffsLoop_inv cnt q r p' r' h2
    refine ⟨a :: cs, by rw [h3]; rfl, ?_, ?_⟩
    · simp only [coeffsLoop, h1, Res.ok_bind, h4]
    · simp only [List.length_cons]
      exact h5.imp (fun h => by omega) fun h => ⟨by omega, h.2⟩

theorem polArg_append (p : IPoly) (s : List Char) (rest : List (List Char)) :
    polArg p (s :: rest) = (polArg p [s] >>= fun q => .ok (q.1, rest)) := by
  simp only [polArg]
  split <;> rfl

theorem stepArg_cmd (o : Opts) (c : Cmd) (rest : List (List Char)) (h : CompleteHead c rest) :
    ∃ a r, c.args ++ rest = a :: r ∧ stepArg o a r = (runCmd o c >>= fun o' => .ok (some (o', rest))) := by
  cases c with
  | verbose =>
    refine ⟨_, _, rfl, ?_⟩
    simp only [stepArg, if_true, runCmd, bind_assoc]
    rfl
  | flag f =>
    refine ⟨_, _, rfl, ?_⟩
    cases f <;> rfl
  | num k v =>
    refine ⟨_, _, rfl, ?_⟩
    cases k <;> rfl
  | gp => exact ⟨_, _, rfl, rfl⟩
  | error => exact ⟨_, _, rfl, rfl⟩
  | stoll => exact ⟨_, _, rfl, rfl⟩
  | pol s =>
    refine ⟨_, _, rfl, ?_⟩
    have h1 : stepArg o "--pol".toList ([s] ++ rest) =
        (polArg o.poly (s :: rest) >>= fun q => .ok (some ({ o with poly := q.1, fPol := none }, q.2))) := rfl
    refine h1.trans ?_
    rw [polArg_append]
    simp only [runCmd, bind_assoc, Res.ok_bind]
  | coeffs n cs =>
    refine ⟨_, _, rfl, ?_⟩
    have h1 : stepArg o "--coeffs".toList ((n :: cs) ++ rest) = (coeffsLoop (atol n + 1).toNat o.poly (cs ++ rest) >>= fun q =>
        .ok (some ({ o with n := atol n, poly := q.1, fPol := none }, q.2))) := rfl
    refine h1.trans ?_
    rw [coeffsLoop_append _ _ _ _ h]
    simp only [runCmd, bind_assoc, Res.ok_bind]

theorem numArg_inv {r : List (List Char)} {β : Type} {f : Int × List (List Char) → Res β} {b : β}
    (h : (numArg r >>= f) = .ok b) : ∃ v r', r = v :: r' ∧ f (atol v, r') = .ok b := by
  cases r with
  | nil => cases h
  | cons v r' => exact ⟨v, r', rfl, h⟩

theorem stepArg_inv {o : Opts} {a : List Char} {r : List (List Char)} {o' : Opts} {r' : List (List Char)}
    (h : stepArg o a r = .ok (some (o', r'))) :
    ∃ c : Cmd, a :: r = c.args ++ r' ∧ runCmd o c = .ok o' ∧ CompleteHead c r' := by
  have flagc : ∀ f : FlagOpt, a = f.text → (.ok (some ({ o with flag := o.flag ||| 2 ^ f.bit }, r)) : Res (Option (Opts × List (List Char)))) =
      .ok (some (o', r')) → ∃ c : Cmd, a :: r = c.args ++ r' ∧ runCmd o c = .ok o' ∧ CompleteHead c r' := by
    intro f ha h
    cases h
    exact ⟨.flag f, by rw [ha]; rfl, rfl, trivial⟩
  have numc : ∀ k : NumOpt, a = k.text → (numArg r >>= fun q => (.ok (some (setNum o q.1 k, q.2)) : Res (Option (Opts × List (List Char))))) =
      .ok (some (o', r')) → ∃ c : Cmd, a :: r = c.args ++ r' ∧ runCmd o c = .ok o' ∧ CompleteHead c r' := by
    intro k ha h
    obtain ⟨v, r1, rfl, h1⟩ := numArg_inv h
    cases h1
    exact ⟨.num k v, by rw [ha]; rfl, rfl, trivial⟩
  unfold stepArg at h
  by_cases h1 : a = "-v".toList
  · rw [if_pos h1, Res.bind_eq_ok] at h
    obtain ⟨f, hf, h⟩ := h
    cases h
    exact ⟨.verbose, by rw [h1]; rfl, by simp only [runCmd, hf, Res.ok_bind], trivial⟩
  rw [if_neg h1] at h
  by_cases h1 : a = "-m".toList
  · rw [if_pos h1] at h
    exact numc .m h1 h
  rw [if_neg h1] at h
  by_cases h1 : a = "--prec".toList
  · rw [if_pos h1] at h
    exact numc .prec h1 h
  rw [if_neg h1] at h
  by_cases h1 : a = "--de".toList
  · rw [if_pos h1] at h
    exact flagc .de h1 h
  rw [if_neg h1] at h
  by_cases h1 : a = "--desame".toList
  · rw [if_pos h1] at h
    exact flagc .desame h1 h
  rw [if_neg h1] at h
  by_cases h1 : a = "--rootdef".toList
  · rw [if_pos h1] at h
    exact flagc .rootdef h1 h
  rw [if_neg h1] at h
  by_cases h1 : a = "--rootprod".toList
  · rw [if_pos h1] at h
    exact flagc .rootprod h1 h
  rw [if_neg h1] at h
  by_cases h1 : a = "--rootturn".toList
  · rw [if_pos h1] at h
    exact flagc .rootturn h1 h
  rw [if_neg h1] at h
  by_cases h1 : a = "--xn1".toList
  · rw [if_pos h1] at h
    exact numc .xn1 h1 h
  rw [if_neg h1] at h
  by_cases h1 : a = "--exp".toList
  · rw [if_pos h1] at h
    exact numc .exp h1 h
  rw [if_neg h1] at h
  by_cases h1 : a = "--bern".toList
  · rw [if_pos h1] at h
    exact numc .bern h1 h
  rw [if_neg h1] at h
  by_cases h1 : a = "--bernrev".toList
  · rw [if_pos h1] at h
    exact numc .bernrev h1 h
  rw [if_neg h1] at h
  by_cases h1 : a = "--pol".toList
  · rw [if_pos h1, Res.bind_eq_ok] at h
    obtain ⟨⟨p, r1⟩, hq, h⟩ := h
    cases h
    cases r with
    | nil => cases hq
    | cons s r =>
      rw [polArg_append, Res.bind_eq_ok] at hq
      obtain ⟨q, hq1, hq2⟩ := hq
      cases hq2
      exact ⟨.pol s, by rw [h1]; rfl, by simp only [runCmd, hq1, Res.ok_bind], trivial⟩
  rw [if_neg h1] at h
  by_cases h1 : a = "--coeffs".toList
  · rw [if_pos h1] at h
    obtain ⟨v, r1, rfl, h2⟩ := numArg_inv h
    simp only [Res.bind_eq_ok] at h2
    obtain ⟨⟨p, r2⟩, hq, h2⟩ := h2
    cases h2
    obtain ⟨cs, hcs1, hcs2, hcs3⟩ := coeffsLoop_inv _ _ _ _ _ hq
    exact ⟨.coeffs v cs, by rw [h1, hcs1]; rfl, by simp only [runCmd, hcs2, Res.ok_bind], hcs3⟩
  rw [if_neg h1] at h
  by_cases h1 : a = "--stoll".toList
  · rw [if_pos h1] at h
    cases h
    exact ⟨.stoll, by rw [h1]; rfl, rfl, trivial⟩
  rw [if_neg h1] at h
  by_cases h1 : a = "--big".toList
  · rw [if_pos h1] at h
    exact flagc .big h1 h
  rw [if_neg h1] at h
  by_cases h1 : a = "--int".toList
  · rw [if_pos h1] at h
    exact flagc .int h1 h
  rw [if_neg h1] at h
  by_cases h1 : a = "--tree".toList
  · rw [if_pos h1] at h
    exact flagc .tree h1 h
  rw [if_neg h1] at h
  by_cases h1 : a = "--gp".toList
  · rw [if_pos h1] at h
    cases h
    exact ⟨.gp, by rw [h1]; rfl, rfl, trivial⟩
  rw [if_neg h1] at h
  by_cases h1 : a = "--error".toList
  · rw [if_pos h1] at h
    cases h
    exact ⟨.error, by rw [h1]; rfl, rfl, trivial⟩
  rw [if_neg h1] at h
  by_cases h1 : a = "--trim".toList
  · rw [if_pos h1] at h
    exact flagc .trim h1 h
  rw [if_neg h1] at h
  by_cases h1 : a = "--digits".toList
  · rw [if_pos h1] at h
    exact numc .digits h1 h
  rw [if_neg h1] at h
  by_cases h1 : a = "--bench".toList
  · rw [if_pos h1] at h
    exact numc .bench h1 h
  rw [if_neg h1] at h
  cases h

theorem complete_cons {c : Cmd} {cs : List Cmd} : Complete (c :: cs) ↔ CompleteHead c (argv cs) ∧ Complete cs := by
  have hnil : ∀ cs : List Cmd, argv cs = [] ↔ cs = [] := by
    intro cs
    cases cs with
    | nil => simp [argv]
    | cons c cs => cases c <;> simp [argv, Cmd.args]
  cases c <;> simp only [Complete, CompleteHead, hnil, true_and]

/-- the loop on the arguments of commands runs the commands -/
theorem argLoop_cmds : ∀ (cmds : List Cmd) (fuel : Nat) (o : Opts), (argv cmds).length ≤ fuel → Complete cmds →
    argLoop fuel o (argv cmds) = (runCmds o cmds >>= fun o => .ok (some o))
  | [], fuel, o, _, _ => by cases fuel <;> rfl
  | c :: cmds, fuel, o, hf, hc => by
    obtain ⟨hc1, hc2⟩ := complete_cons.1 hc
    obtain ⟨a, r, h1, h2⟩ := stepArg_cmd o c (argv cmds) hc1
    have h3 : argv (c :: cmds) = a :: r := by rw [← h1]; simp [argv]
    have hlen : 0 < c.args.length := by cases c <;> simp [Cmd.args]
    have h4 : (argv (c :: cmds)).length = c.args.length + (argv cmds).length := by simp [argv]
    obtain ⟨f, rfl⟩ : ∃ f, fuel = f + 1 := ⟨fuel - 1, by omega⟩
    rw [h3]
    unfold argLoop
    rw [h2]
    simp only [runCmds]
    cases runCmd o c with
    | ok o1 =>
      simp only [Res.ok_bind]
      exact argLoop_cmds cmds f o1 (by omega) hc2
    | _ => rfl

/-- every accepted argument vector is a list of commands -/
theorem argLoop_inv : ∀ (fuel : Nat) (o : Opts) (args : List (List Char)) (o' : Opts), argLoop fuel o args = .ok (some o') →
    ∃ cmds, args = argv cmds ∧ Complete cmds ∧ runCmds o cmds = .ok o' := by
  intro fuel
  induction fuel with
  | zero =>
    intro o args o' h
    cases args with
    | nil => cases h; exact ⟨[], rfl, trivial, rfl⟩
    | cons a r => cases h
  | succ f ih =>
    intro o args o' h
    cases args with
    | nil => cases h; exact ⟨[], rfl, trivial, rfl⟩
    | cons a r =>
      unfold argLoop at h
      split at h
      · cases h
      · rename_i o1 r1 hs
        obtain ⟨c, h1, h2, h3⟩ := stepArg_inv hs
        obtain ⟨cmds, h4, h5, h6⟩ := ih o1 r1 o' h
        refine ⟨c :: cmds, by rw [h1, h4]; simp [argv], complete_cons.2 ⟨by rwa [← h4], h5⟩, ?_⟩
        simp only [runCmds, h2, Res.ok_bind, h6]
      all_goals cases h

end Hcp
