import Verif.Props.PrintTree
import Verif.Props.Homology
import Verif.Spec.PrintLoop

/-!
# C80: the text of a loop
-/

namespace Hcp
open Spec

/-- the text of one term -/
private def termText (x : Gamma) : List Char :=
  fmtInt x.coeff ++ '*' :: 'g' :: '_' :: (fmtNat x.index ++ '^' :: '(' :: (fmtNat x.shift ++ [')']))

theorem fmtInt_char (c : Int) : ∀ d ∈ fmtInt c, d = '-' ∨ d.isDigit = true := by
  intro d hd
  rw [fmtInt, List.mem_append] at hd
  rcases hd with h | h
  · split_ifs at h with h0
    · exact .inl (by simpa using h)
    · cases h
  · exact .inr (Nat.isDigit_of_mem_toDigits (by omega) (by omega) h)

theorem expo_fmtInt (c : Int) : expo (fmtInt c) = some c := by
  have hd : digits (Nat.toDigits 10 c.natAbs) = some c.natAbs := fmtNat_digits c.natAbs
  unfold fmtInt
  by_cases h : c < 0
  · rw [if_pos h, List.singleton_append, expo, hd]
    exact congrArg some (show -((c.natAbs : Nat) : Int) = c by omega)
  · rw [if_neg h, List.nil_append]
    rcases hs : Nat.toDigits 10 c.natAbs with _ | ⟨a, s⟩
    · exact absurd hs Nat.toDigits_ne_nil
    · have ha : a.isDigit = true := Nat.isDigit_of_mem_toDigits (b := 10) (n := c.natAbs) (by omega) (by omega) (by rw [hs]; simp)
      have h1 : a ≠ '-' := by rintro rfl; revert ha; decide
      have h2 : a ≠ '+' := by rintro rfl; revert ha; decide
      rw [hs] at hd
      rw [expo.eq_3 _ (by simpa using h1) (by simpa using h2), hd]
      exact congrArg some (show ((c.natAbs : Nat) : Int) = c by omega)

private theorem spanTo (p : Char → Bool) : ∀ (a : List Char) (c : Char) (b : List Char), (∀ d ∈ a, p d = true) → p c = false →
    (a ++ c :: b).span p = (a, c :: b) := by
  intro a c b ha hc
  rw [List.span_eq_takeWhile_dropWhile, List.takeWhile_append_of_pos ha, List.dropWhile_append_of_pos ha]
  simp [hc]

theorem loopTerm_text (x : Gamma) : loopTerm (termText x) = some (x.coeff, x.index, x.shift) := by
  have h1 : (termText x).span (· ≠ '*') = (fmtInt x.coeff, '*' :: 'g' :: '_' :: (fmtNat x.index ++ '^' :: '(' :: (fmtNat x.shift ++ [')']))) := by
    refine spanTo _ _ _ _ ?_ (by decide)
    intro d hd
    rcases fmtInt_char _ d hd with rfl | h
    · decide
    · simp only [ne_eq, decide_not, Bool.not_eq_eq_eq_not, Bool.not_true, decide_eq_false_iff_not]
      rintro rfl; revert h; decide
  have h2 : (fmtNat x.index ++ '^' :: '(' :: (fmtNat x.shift ++ [')'])).span (· ≠ '^') = (fmtNat x.index, '^' :: '(' :: (fmtNat x.shift ++ [')'])) := by
    refine spanTo _ _ _ _ ?_ (by decide)
    intro d hd
    have h := fmtNat_digit _ d hd
    simp only [ne_eq, decide_not, Bool.not_eq_eq_eq_not, Bool.not_true, decide_eq_false_iff_not]
    rintro rfl; revert h; decide
  unfold loopTerm
  rw [h1]
  simp only [h2]
  simp [fmtNat_digits, expo_fmtInt]

private theorem termText_char (x : Gamma) : ∀ d ∈ termText x, d ≠ ' ' ∧ d ≠ '+' := by
  have hdig : ∀ d : Char, d.isDigit = true → d ≠ ' ' ∧ d ≠ '+' := by
    intro d h
    constructor <;> rintro rfl <;> revert h <;> decide
  intro d hd
  simp only [termText, List.mem_append, List.mem_cons, List.not_mem_nil, or_false] at hd
  rcases hd with h | rfl | rfl | rfl | h | rfl | rfl | h | rfl
  · rcases fmtInt_char _ d h with rfl | h
    · decide
    · exact hdig d h
  · decide
  · decide
  · decide
  · exact hdig d (fmtNat_digit _ _ h)
  · decide
  · decide
  · exact hdig d (fmtNat_digit _ _ h)
  · decide

private theorem filter_text (x : Gamma) : (termText x).filter (· ≠ ' ') = termText x :=
  List.filter_eq_self.2 fun d hd => by simpa using (termText_char x d hd).1

private theorem printLoop_cons (k : Nat) (x : Gamma) (l : List Gamma) :
    printLoop k (x :: l) = (if k ≠ 0 then ['+', ' '] else []) ++ (termText x ++ printLoop (k + 1) l) := by
  simp [printLoop, termText]

private theorem split_text : ∀ (l : List Gamma) (x : Gamma) (k : Nat), 0 < k →
    ((termText x ++ printLoop k l).filter (· ≠ ' ')).splitOn '+' = (x :: l).map termText
  | [], x, k, _ => by
    rw [printLoop, List.append_nil, filter_text, List.splitOn_eq_singleton (fun h => (termText_char x _ h).2 rfl)]
    rfl
  | y :: l, x, k, hk => by
    rw [printLoop_cons, if_pos (by omega), List.filter_append, filter_text]
    have : (['+', ' '] ++ (termText y ++ printLoop (k + 1) l)).filter (· ≠ ' ') = '+' :: (termText y ++ printLoop (k + 1) l).filter (· ≠ ' ') := by
      simp
    rw [this, List.splitOn_append_cons_self, List.splitOn_eq_singleton (fun h => (termText_char x _ h).2 rfl), split_text l y (k + 1) (by omega)]
    rfl

/-- **C80** The text printed for a loop is read as the list of its terms: coefficient, edge and sheet, in the order of the loop. -/
theorem C80_loop (l : List Gamma) : readLoop (printLoop 0 l) = some (l.map fun x => (x.coeff, x.index, x.shift)) := by
  rcases l with _ | ⟨x, l⟩
  · rfl
  · have hne : printLoop 0 (x :: l) ≠ [] := by
      rw [printLoop_cons]
      simp [termText]
    rw [readLoop, if_neg hne, printLoop_cons, if_neg (by simp), List.nil_append, split_text l x 1 (by omega)]
    rw [List.mapM_map]
    have : (loopTerm ∘ termText) = fun x : Gamma => some (x.coeff, x.index, x.shift) := funext loopTerm_text
    rw [this]
    exact List.mapM_pure

/-- **C80** Two loops have the same text only when they are equal. -/
theorem C80_injective (l l' : List Gamma) (h : printLoop 0 l = printLoop 0 l') : l = l' := by
  have h1 := C80_loop l
  rw [h, C80_loop l'] at h1
  refine (List.map_injective_iff.2 ?_ (Option.some.inj h1)).symm
  rintro ⟨c, s, i⟩ ⟨c', s', i'⟩ e
  simp only [Prod.mk.injEq] at e
  simp [e]

/-- a loop with a negative coefficient, a zero shift and numbers of several digits -/
example : printLoop 0 [⟨-12, 0, 3⟩, ⟨1, 10, 25⟩] = "-12*g_3^(0)+ 1*g_25^(10)".toList ∧
    readLoop "-12*g_3^(0)+ 1*g_25^(10)".toList = some [(-12, 3, 0), (1, 25, 10)] := by
  constructor <;> decide +kernel

end Hcp
