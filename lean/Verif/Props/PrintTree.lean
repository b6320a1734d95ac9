import Verif.Proofs.PrintGp
import Mathlib.Tactic.NormNum
import Mathlib.Tactic.Linarith

/-!
# C63: the text printed by the option `--tree`
-/

namespace Hcp
open Spec

theorem fmtNat_digit (n : Nat) : ∀ c ∈ fmtNat n, c.isDigit = true := fun _ hc => Nat.isDigit_of_mem_toDigits (by omega) (by omega) hc

theorem fmtNat_digits (n : Nat) : digits (fmtNat n) = some n := by
  rw [digits_ok (s := fmtNat n) Nat.toDigits_ne_nil (fmtNat_digit n)]
  exact congrArg some (Nat.ofDigitChars_toDigits (by omega) (by omega))

theorem fmtNat_comma (n : Nat) : ',' ∉ fmtNat n := fun h => (digit_ne (fmtNat_digit n _ h)).2.2.2.2.2.2.1 rfl

variable {W : Type}

theorem splitOn_edges : ∀ (es : List (Edge W)) (pre : List Char), ',' ∉ pre →
    (pre ++ printEdges es).splitOn ',' = pre :: es.flatMap fun e => ['[' :: fmtNat e.a, fmtNat e.b ++ [']']]
  | [], pre, h => by simp [printEdges, List.splitOn_eq_singleton h]
  | e :: es, pre, h => by
    have e1 : pre ++ printEdges (e :: es) = pre ++ ',' :: (('[' :: fmtNat e.a) ++ ',' :: ((fmtNat e.b ++ [']']) ++ printEdges es)) := by
      simp [printEdges]
    have h1 : ',' ∉ '[' :: fmtNat e.a := by simp [fmtNat_comma]
    have h2 : ',' ∉ fmtNat e.b ++ [']'] := by simp [fmtNat_comma]
    rw [e1, List.splitOn_append_cons_self, List.splitOn_append_cons_self, splitOn_edges es _ h2, List.splitOn_eq_singleton h,
      List.splitOn_eq_singleton h1]
    simp

theorem pairs_edges : ∀ es : List (Edge W), pairs (es.flatMap fun e => ['[' :: fmtNat e.a, fmtNat e.b ++ [']']]) =
    some (es.map fun e => (e.a, e.b))
  | [] => rfl
  | e :: es => by
    simp [pairs, fmtNat_digits, pairs_edges es]

theorem printEdges_blank : ∀ (es : List (Edge W)), ∀ c ∈ printEdges es, c ≠ ' ' ∧ c ≠ '\n'
  | e :: es, c, hc => by
    simp only [printEdges, List.mem_append, List.mem_cons, List.not_mem_nil, or_false] at hc
    have hd : ∀ {c : Char}, c.isDigit = true → c ≠ ' ' ∧ c ≠ '\n' := by
      intro c h
      constructor <;> rintro rfl <;> revert h <;> decide
    rcases hc with (((((rfl | rfl) | h) | rfl) | h) | rfl) | h
    · decide
    · decide
    · exact hd (fmtNat_digit _ _ h)
    · decide
    · exact hd (fmtNat_digit _ _ h)
    · decide
    · exact printEdges_blank es c h

/-- **C63** The text printed by `--tree` is read by GP as the vector of the parameter of the tree, the number of edges and the edges, in the order of the tree. -/
theorem C63_tree (lf : W → List Char) (t : Tree W) (hn : t.e.length = t.n)
    (hlf : ∀ c ∈ lf t.r, c ≠ ',' ∧ c ≠ ' ' ∧ c ≠ '\n') :
    ∃ s, printTree lf t = .ok s ∧ gpTree s = some (lf t.r, t.n, t.e.map fun e => (e.a, e.b)) := by
  refine ⟨_, by rw [printTree, if_neg (by omega)], ?_⟩
  rw [← hn, List.take_length]
  have hd : ∀ c ∈ fmtNat t.e.length, c ≠ ' ' ∧ c ≠ '\n' := by
    intro c hc
    have h := fmtNat_digit _ _ hc
    constructor <;> rintro rfl <;> revert h <;> decide
  have e : (['\n', '['] ++ lf t.r ++ [',', ' '] ++ fmtNat t.e.length ++ printEdges t.e ++ [']', '\n']).filter (fun c => c ≠ ' ' ∧ c ≠ '\n') =
      '[' :: ((lf t.r ++ ',' :: (fmtNat t.e.length ++ printEdges t.e)) ++ [']']) := by
    simp only [List.filter_append]
    have f1 : (lf t.r).filter (fun c => c ≠ ' ' ∧ c ≠ '\n') = lf t.r := List.filter_eq_self.2 fun c hc => by simpa using (hlf c hc).2
    have f2 : (fmtNat t.e.length).filter (fun c => c ≠ ' ' ∧ c ≠ '\n') = fmtNat t.e.length := List.filter_eq_self.2 fun c hc => by simpa using hd c hc
    have f3 : (printEdges t.e).filter (fun c => c ≠ ' ' ∧ c ≠ '\n') = printEdges t.e := List.filter_eq_self.2 fun c hc => by simpa using printEdges_blank _ c hc
    rw [f1, f2, f3]
    simp
  unfold gpTree
  rw [e]
  simp only [List.getLast?_concat, if_true, List.dropLast_concat]
  rw [List.splitOn_append_cons_self, List.splitOn_eq_singleton (fun h => (hlf _ h).1 rfl), splitOn_edges _ _ (fmtNat_comma _)]
  simp [fmtNat_digits, pairs_edges]

/-- **C63** No other trees are printed: the number of edges announced must have been set, otherwise memory which was never written is read; and whatever is printed is read as that number of edges. -/
theorem C63_tree_iff (lf : W → List Char) (t : Tree W) (hlf : ∀ c ∈ lf t.r, c ≠ ',' ∧ c ≠ ' ' ∧ c ≠ '\n') :
    (t.e.length < t.n → ∃ w, printTree lf t = .ub w) ∧ ∀ s, printTree lf t = .ok s → t.n ≤ t.e.length ∧ gpTree s = some (lf t.r, t.n, (t.e.take t.n).map fun e => (e.a, e.b)) := by
  refine ⟨fun h => ⟨_, by rw [printTree, if_pos h]⟩, fun s hs => ?_⟩
  have hn : t.n ≤ t.e.length := by
    by_contra h
    rw [printTree, if_pos (by omega)] at hs
    cases hs
  refine ⟨hn, ?_⟩
  obtain ⟨s', h1, h2⟩ := C63_tree lf { t with e := t.e.take t.n } (by simpa using hn) hlf
  have : s' = s := by
    have h3 : printTree lf { t with e := t.e.take t.n } = printTree lf t := by
      rw [printTree, printTree, if_neg (by simp; omega), if_neg (by omega)]
      simp only [List.take_take, Nat.min_self]
    exact Res.ok.inj ((h3.symm.trans h1).symm.trans hs)
  rw [← this]
  exact h2

/-- a tree with two edges -/
example : ∃ s, printTree (fun _ : Nat => "0.500000".toList) ⟨2, 0, 7, [⟨0, 2, 3⟩, ⟨2, 1, 7⟩]⟩ = .ok s ∧ s = "\n[0.500000, 2,[0,2],[2,1]]\n".toList ∧
    gpTree s = some ("0.500000".toList, 2, [(0, 2), (2, 1)]) := by
  refine ⟨_, rfl, by decide +kernel, by decide +kernel⟩

end Hcp
