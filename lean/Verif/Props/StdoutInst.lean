import Verif.Props.Stdout
import Verif.Props.MainInst

/-!
# Instance of C65: `periods -m 5 --xn1 2 --big --gp`
-/

namespace Hcp
open Set Spec

/-- the set is a disk of radius 1 in both directions around a rational point -/
def NearRat (a : Set ℂ) : Prop := ∃ q : ℚ × ℚ, ∀ z ∈ a, |z.re - q.1| ≤ 1 ∧ |z.im - q.2| ≤ 1

open Classical in
/-- printing of sets: the midpoint is a rational point at distance at most 1 of all elements, if there is one -/
noncomputable def setText (L : PrintLib) : TextLib (Set ℂ) Unit setMat where
  L := L
  mid a := if h : NearRat a then (.fin h.choose.1, .fin h.choose.2) else (.nan, .nan)
  cell t i j := {z | ∃ M, InC t M ∧ ∀ hi hj, z = M ⟨i, hi⟩ ⟨j, hj⟩}
  lf _ := "0.000000".toList
  dflt p := p * 301 / 1000
  printd _ _ := []
  error _ := []

open Classical in
noncomputable def setRad (a : Set ℂ) : Option (ℝ × ℝ) := if NearRat a then some (1, 1) else none

theorem setText_sound (L : PrintLib) : (setText L).Sound (fun s z => z ∈ s) InC setRad where
  ball a z ρ hz hρ := by
    unfold setRad at hρ
    split at hρ
    · rename_i h
      obtain rfl := Option.some.inj hρ
      exact ⟨h.choose, by simp [setText, h], h.choose_spec z hz⟩
    · cases hρ
  cell t M hM i j := ⟨M, hM, fun _ _ => rfl⟩

/-- all hypotheses of `C65_stdout_partial` hold for `periods -m 5 --xn1 2 --big --gp`: the program prints two 2 by 2 matrices -/
example (F : Families) (d : DePar (Set ℂ)) : ∃ (L : PrintLib) (txt : List Char) (M0 M1 : List (List (ℚ × ℚ))), periodsText (setMain F d) (setText L) 1 (argv instCmds) = .ok (some txt) ∧ gpLines txt = some [M0, M1] ∧
    M0.length = 2 ∧ M1.length = 2 := by
  obtain ⟨L, hL⟩ := printOk_exists
  obtain ⟨hS, hcomp, hside, r, hrun, hg, ⟨s, hs⟩, hgood⟩ := main_instance F d
  have hnoinf : ∀ a, NoInf ((setText L).mid a) := by
    intro a
    unfold NoInf setText
    by_cases h : NearRat a <;> simp [h]
  obtain ⟨P, -, -, dd, txt, h1, -, -, out, -, x, -, α, Z, ca, cb, cc, Q, -, -, tau, -, h2⟩ := C65_stdout_partial setMat_encl hS hL (setText_sound L) (by intro _ c hc; revert c; simp [setText]) (pre := [.num .m "5".toList])
    (post := [.flag .big, .gp]) (cv := .num .xn1 "2".toList) (by simp [Cmd.isCurve]) (by simp [Cmd.isCurve]) rfl hside hcomp (by simp) (by simp) (by simp) (by simp) hrun hgood (by
      intro s _
      cases s with
      | tree t => trivial
      | integrals I => exact fun i _ j _ => hnoinf _
      | omega om0 om1 => exact fun i _ j _ => ⟨hnoinf _, hnoinf _⟩
      | tau t => exact fun i _ j _ => hnoinf _)
  have hask : asked ([.num .m "5".toList] ++ .num .xn1 "2".toList :: [.flag .big, .gp]) = .omega := by simp [asked]
  rw [hask] at h2
  obtain ⟨om0, om1, M0, M1, -, h3, h4, h5⟩ := h2
  exact ⟨L, txt, M0, M1, h1, h3, h4.1.trans hg, h5.1.trans hg⟩

end Hcp
