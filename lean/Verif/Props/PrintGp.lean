import Verif.Proofs.PrintGp
import Mathlib.Tactic.NormNum
import Mathlib.Data.List.Forall2
import Mathlib.Algebra.Order.Floor.Semiring
import Mathlib.Algebra.Order.Archimedean.Basic
import Mathlib.Data.Rat.Floor
import Mathlib.Tactic.FieldSimp
import Mathlib.Tactic.Linarith

/-!
# C62: the text printed by the option `--gp`
-/

namespace Hcp
open Spec

/-- what Arb documents of `arf_printd`: a decimal number with a sign only if it is negative, whose value is the number rounded to `d` digits (error of at most one unit in the last digit) -/
structure PrintOk (L : PrintLib) : Prop where
  fin : ∀ (q : ℚ) (d : Int), q ≠ 0 → ∃ t : DecText, L.printd (.fin q) d = t.text ∧ (t.neg = true ↔ q < 0) ∧
    |t.value - q| ≤ |q| * 10 ^ (1 - d)

/-- `v` is `z` rounded to `d` digits, in real and imaginary part -/
def Rounded (d : Int) (v : ℚ × ℚ) (z : ℚ × ℚ) : Prop :=
  |v.1 - z.1| ≤ |z.1| * 10 ^ (1 - d) ∧ |v.2 - z.2| ≤ |z.2| * 10 ^ (1 - d)

/-- a finite complex number as midpoints -/
def finArf (z : ℚ × ℚ) : Arf × Arf := (.fin z.1, .fin z.2)

theorem sgn_fin (q : ℚ) : (Arf.fin q).sgn = if 0 < q then 1 else if q < 0 then -1 else 0 := rfl

theorem filter_id {p : Char → Bool} {l : List Char} (h : ∀ c ∈ l, p c = true) : l.filter p = l := List.filter_eq_self.2 h

theorem text_filter (t : DecText) : t.text.filter (· ≠ ' ') = t.text :=
  filter_id fun c hc => by simpa using (text_ne t c hc).2.1

theorem squeezed_re {L : PrintLib} {d : Int} {a b : Arf} {t : DecText} (h : L.printd a d = t.text) (ha : a.sgn ≠ 0)
    (hb : b.sgn = 0) : squeezed L d (a, b) = t.text := by
  have e : printEntry L d (a, b) = t.text := by simp [printEntry, ha, hb, h]
  rw [squeezed, e, text_filter]

theorem squeezed_im {L : PrintLib} {d : Int} {a b : Arf} {u : DecText} (h : L.printd b d = u.text) (ha : a.sgn = 0)
    (hb : b.sgn ≠ 0) : squeezed L d (a, b) = u.text ++ ['*', 'I'] := by
  have e : printEntry L d (a, b) = u.text ++ [' ', '*', ' ', 'I'] := by simp [printEntry, ha, hb, h]
  rw [squeezed, e, List.filter_append, text_filter]
  rfl

theorem squeezed_pos {L : PrintLib} {d : Int} {a b : Arf} {t u : DecText} (h : L.printd a d = t.text) (h' : L.printd b d = u.text)
    (ha : a.sgn ≠ 0) (hb : 0 < b.sgn) : squeezed L d (a, b) = t.text ++ '+' :: (u.text ++ ['*', 'I']) := by
  have e : printEntry L d (a, b) = t.text ++ ([' ', '+', ' '] ++ (u.text ++ [' ', '*', ' ', 'I'])) := by
    simp [printEntry, ha, hb, h, h', hb.ne']
  rw [squeezed, e, List.filter_append, List.filter_append, List.filter_append, text_filter, text_filter]
  rfl

theorem squeezed_neg {L : PrintLib} {d : Int} {a b : Arf} {t u : DecText} (h : L.printd a d = t.text) (h' : L.printd b d = u.text)
    (ha : a.sgn ≠ 0) (hb : b.sgn < 0) : squeezed L d (a, b) = t.text ++ (u.text ++ ['*', 'I']) := by
  have e : printEntry L d (a, b) = t.text ++ ([' '] ++ (u.text ++ [' ', '*', ' ', 'I'])) := by
    simp [printEntry, ha, hb, h, h', hb.ne, not_lt.2 hb.le]
  rw [squeezed, e, List.filter_append, List.filter_append, List.filter_append, text_filter, text_filter]
  rfl

theorem entry_read {L : PrintLib} (hL : PrintOk L) (d : Int) (z : ℚ × ℚ) :
    ',' ∉ squeezed L d (finArf z) ∧ ';' ∉ squeezed L d (finArf z) ∧
      ∃ v, entry (squeezed L d (finArf z)) = some v ∧ Rounded d v z := by
  obtain ⟨x, y⟩ := z
  have hno : ∀ t : DecText, ',' ∉ t.text ∧ ';' ∉ t.text := fun t =>
    ⟨fun h => (text_ne t _ h).2.2.1 rfl, fun h => (text_ne t _ h).2.2.2.1 rfl⟩
  have hsgn : ∀ x : ℚ, x ≠ 0 → (Arf.fin x).sgn ≠ 0 := by
    intro x hx
    rw [sgn_fin]; split_ifs <;> grind
  by_cases hx : x = 0 <;> by_cases hy : y = 0
  · subst hx; subst hy
    have e : squeezed L d (finArf (0, 0)) = ['0'] := by simp [squeezed, printEntry, finArf, sgn_fin]
    rw [e]
    exact ⟨by decide, by decide, (0, 0), entry_zero, by simp [Rounded]⟩
  · subst hx
    obtain ⟨u, hu, hun, huv⟩ := hL.fin y d hy
    rw [finArf, squeezed_im hu (by simp [sgn_fin]) (hsgn y hy)]
    refine ⟨?_, ?_, (0, u.value), entry_im u, by simp, huv⟩
    · simp [(hno u).1]
    · simp [(hno u).2]
  · subst hy
    obtain ⟨t, ht, -, htv⟩ := hL.fin x d hx
    rw [finArf, squeezed_re ht (hsgn x hx) (by simp [sgn_fin])]
    exact ⟨(hno t).1, (hno t).2, (t.value, 0), entry_re t, htv, by simp⟩
  · obtain ⟨t, ht, -, htv⟩ := hL.fin x d hx
    obtain ⟨u, hu, hun, huv⟩ := hL.fin y d hy
    by_cases hp : 0 < y
    · have hn : u.neg = false := by
        cases h : u.neg with
        | false => rfl
        | true => exact absurd (hun.1 h) (by linarith)
      rw [finArf, squeezed_pos ht hu (hsgn x hx) (by rw [sgn_fin, if_pos hp]; decide)]
      refine ⟨?_, ?_, (t.value, u.value), entry_pos t u hn, htv, huv⟩
      · simp [(hno t).1, (hno u).1]
      · simp [(hno t).2, (hno u).2]
    · have hneg : y < 0 := lt_of_le_of_ne (not_lt.1 hp) hy
      rw [finArf, squeezed_neg ht hu (hsgn x hx) (by rw [sgn_fin, if_neg hp, if_pos hneg]; decide)]
      refine ⟨?_, ?_, (t.value, u.value), entry_neg t u (hun.2 hneg), htv, huv⟩
      · simp [(hno t).1, (hno u).1]
      · simp [(hno t).2, (hno u).2]

/-- **C62** Every matrix with finite midpoints, of any size, printed with `--gp`, is read by GP as the matrix of its midpoints, rounded to the digits asked for. -/
theorem C62_gp_partial {L : PrintLib} (hL : PrintOk L) (d : Int) (M : List (List (ℚ × ℚ))) (hne : ∀ r ∈ M, r ≠ []) :
    ∃ M', gpMatrix (printGp L d (M.map (·.map finArf))) = some M' ∧ List.Forall₂ (List.Forall₂ (Rounded d)) M' M := by
  obtain ⟨M', h1, h2⟩ := matrix_of_entries L d (fun v z => ∀ w, z = finArf w → Rounded d v w) (M.map (·.map finArf)) (by
    intro r hr
    obtain ⟨r', hr', rfl⟩ := List.mem_map.1 hr
    simpa using hne r' hr') (by
    intro r hr z hz
    obtain ⟨r', hr', rfl⟩ := List.mem_map.1 hr
    obtain ⟨w, hw, rfl⟩ := List.mem_map.1 hz
    obtain ⟨a, b, v, hv, hP⟩ := entry_read hL d w
    refine ⟨a, b, v, hv, ?_⟩
    intro w' hw'
    have : w = w' := by
      obtain ⟨x, y⟩ := w
      obtain ⟨x', y'⟩ := w'
      simp only [finArf, Prod.mk.injEq, Arf.fin.injEq] at hw'
      simp [hw']
    exact this ▸ hP)
  refine ⟨M', h1, ?_⟩
  rw [List.forall₂_map_right_iff] at h2
  refine h2.imp fun r r' h => ?_
  rw [List.forall₂_map_right_iff] at h
  exact h.imp fun v w hvw => hvw w rfl

/-- NaN replaced by zero -/
def nanZero : Arf → Arf
  | .nan => .fin 0
  | x => x

/-- the entry without NaN -/
def nanZeroC (z : Arf × Arf) : Arf × Arf := (nanZero z.1, nanZero z.2)

theorem printEntry_nan (L : PrintLib) (d : Int) (z : Arf × Arf) : printEntry L d (nanZeroC z) = printEntry L d z := by
  obtain ⟨x, y⟩ := z
  have hs : ∀ x : Arf, (nanZero x).sgn = x.sgn := by rintro (_ | _ | _ | _) <;> simp [nanZero, Arf.sgn]
  have hp : ∀ x : Arf, x.sgn ≠ 0 → nanZero x = x := by rintro (_ | _ | _ | _) <;> simp [nanZero, Arf.sgn]
  simp only [printEntry, nanZeroC, hs]
  by_cases hx : x.sgn = 0 <;> by_cases hy : y.sgn = 0 <;> simp [hx, hy, hp]

theorem printVec_nan (L : PrintLib) (d : Int) (sep : List Char) : ∀ (zs : List (Arf × Arf)) (k : Nat),
    printVec L d sep k (zs.map nanZeroC) = printVec L d sep k zs
  | [], _ => rfl
  | z :: zs, k => by simp only [List.map_cons, printVec, printEntry_nan, printVec_nan L d sep zs]

theorem printRows_nan (L : PrintLib) (d : Int) : ∀ (rs : List (List (Arf × Arf))) (k : Nat),
    printRows L d k (rs.map (·.map nanZeroC)) = printRows L d k rs
  | [], _ => rfl
  | r :: rs, k => by simp only [List.map_cons, printRows, printVec_nan, printRows_nan L d rs]

/-- **C62** fails for matrices with indeterminate entries: whatever the library, the text is the one of the matrix where every midpoint which is not a number is replaced by `0`. -/
theorem C62_nan_fails (L : PrintLib) (d : Int) (M : List (List (Arf × Arf))) :
    printGp L d (M.map (·.map nanZeroC)) = printGp L d M := by
  simp only [printGp, printRows_nan]

/-- in particular an indeterminate complex number is shown as an exact zero -/
theorem C62_nan_zero_fails (L : PrintLib) (d : Int) : gpMatrix (printGp L d [[(.nan, .nan)]]) = some [[(0, 0)]] := by
  rw [← C62_nan_fails]
  have : printGp L d ([[(Arf.nan, Arf.nan)]].map (·.map nanZeroC)) = ['[', '0', ']'] := by
    simp [printGp, printRows, printVec, printEntry, nanZeroC, nanZero, Arf.sgn]
  rw [this]
  decide +kernel

/-- negative numbers and minus infinity -/
def Spec.NegArf : Arf → Prop
  | .fin q => q < 0
  | .ninf => True
  | _ => False

/-- zero and what is not a number -/
def Spec.ZeroArf : Arf → Prop
  | .fin q => q = 0
  | .nan => True
  | _ => False

/-- a text which begins with a sign -/
def Spec.SignedText (s : List Char) : Prop := ∃ t, s = '-' :: t ∨ s = '+' :: t

/-- **C62** Signs of all entries, finite or not: if the library begins the text of a number with `-` when the number is negative (or minus infinity) and with no sign otherwise, the two parts of an entry are
separated by exactly one sign, which is `-` if and only if the imaginary part is negative. -/
theorem C62_signs {L : PrintLib} {d : Int} {x y : Arf} (hneg : ∀ a : Arf, NegArf a → ∃ t, L.printd a d = '-' :: t ∧ t ≠ [] ∧ ¬ SignedText t)
    (hpos : ∀ a : Arf, ¬ ZeroArf a → ¬ NegArf a → L.printd a d ≠ [] ∧ ¬ SignedText (L.printd a d)) (hb : ∀ a : Arf, ∀ c ∈ L.printd a d, c ≠ ' ') (hx : ¬ ZeroArf x) (hy : ¬ ZeroArf y) :
    ∃ c t, (printEntry L d (x, y)).filter (· ≠ ' ') = L.printd x d ++ c :: (t ++ ['*', 'I']) ∧ ¬ SignedText t ∧ t ≠ [] ∧ (c = '-' ∨ c = '+') ∧ (c = '-' ↔ NegArf y) := by
  have hf : ∀ a, (L.printd a d).filter (· ≠ ' ') = L.printd a d := fun a => filter_id fun c hc => by simpa using hb a c hc
  have hs : ∀ a : Arf, ¬ ZeroArf a → a.sgn ≠ 0 ∧ (a.sgn < 0 ↔ NegArf a) := by
    rintro (q | _ | _ | _) h
    · simp only [ZeroArf] at h
      rw [sgn_fin]
      rcases lt_or_gt_of_ne h with h | h
      · simp [NegArf, h, not_lt.2 h.le]
      · simp [NegArf, h, h.le]
    · simp [Arf.sgn, NegArf]
    · simp [Arf.sgn, NegArf]
    · exact absurd trivial h
  obtain ⟨hx1, -⟩ := hs x hx
  obtain ⟨hy1, hy2⟩ := hs y hy
  by_cases hn : NegArf y
  · obtain ⟨t, h1, h2, h3⟩ := hneg y hn
    have hlt := hy2.2 hn
    refine ⟨'-', t, ?_, h3, h2, Or.inl rfl, by simp [hn]⟩
    have h4 := hf y
    rw [h1] at h4
    simp only [printEntry, hx1, hy1, hlt, not_lt.2 hlt.le, false_and, if_false, ne_eq, not_false_eq_true, if_true, List.nil_append, List.filter_append, hf, h1]
    simp only [ne_eq, decide_not] at h4
    simp [h4]
  · have hlt : 0 < y.sgn := lt_of_le_of_ne (not_lt.1 fun h => hn (hy2.1 h)) hy1.symm
    refine ⟨'+', L.printd y d, ?_, (hpos y hy hn).2, (hpos y hy hn).1, Or.inr rfl, by simp [hn]⟩
    simp only [printEntry, hx1, hy1, hlt, false_and, if_false, ne_eq, not_false_eq_true, if_true, List.nil_append, List.filter_append, hf]
    simp

/-- a library as in `C62_signs`, and an entry with an infinite part -/
example : ∃ L : PrintLib, (∀ a : Arf, NegArf a → ∃ t, L.printd a 10 = '-' :: t ∧ t ≠ [] ∧ ¬ SignedText t) ∧ (∀ a : Arf, ¬ ZeroArf a → ¬ NegArf a → L.printd a 10 ≠ [] ∧ ¬ SignedText (L.printd a 10)) ∧
    (∀ a : Arf, ∀ c ∈ L.printd a 10, c ≠ ' ') ∧ printEntry L 10 (.pinf, .ninf) = "inf -inf * I".toList := by
  classical
  refine ⟨⟨fun a _ => if NegArf a then "-inf".toList else "inf".toList⟩, fun a ha => ⟨"inf".toList, by simp [ha], by decide, ?_⟩, fun a _ ha => ⟨by simp [ha], ?_⟩, fun a => ?_, ?_⟩
  · rintro ⟨t, h | h⟩ <;> simp at h
  · rintro ⟨t, h | h⟩ <;> simp [ha] at h
  · show ∀ c ∈ (if NegArf a then "-inf".toList else "inf".toList), c ≠ ' '
    split <;> decide
  · simp [printEntry, Arf.sgn, NegArf]

/-- there is a number of digits after the point which is enough -/
theorem decText_exists (q : ℚ) (d : Int) (hq : q ≠ 0) : ∃ t : DecText, (t.neg = true ↔ q < 0) ∧ |t.value - q| ≤ |q| * 10 ^ (1 - d) := by
  have hb : (0 : ℚ) < |q| * 10 ^ (1 - d) := mul_pos (abs_pos.2 hq) (zpow_pos (by norm_num) _)
  obtain ⟨k, hk⟩ := exists_pow_lt_of_lt_one hb (show (1 / 10 : ℚ) < 1 by norm_num)
  let N : Nat := ⌊|q| * 10 ^ k⌋₊
  have hdig : ∀ (n : Nat), ∀ c ∈ Nat.toDigits 10 n, c.isDigit = true := fun n c hc => Nat.isDigit_of_mem_toDigits (by omega) (by omega) hc
  have hval : ∀ n : Nat, Nat.ofDigitChars 10 (Nat.toDigits 10 n) 0 = n := fun n => Nat.ofDigitChars_toDigits (by omega) (by omega)
  refine ⟨⟨decide (q < 0), Nat.toDigits 10 N, none, some (some true, Nat.toDigits 10 k), Nat.toDigits_ne_nil, hdig N, by simp, ?_, ?_⟩, by simp, ?_⟩
  · intro b e h
    rw [Option.some.injEq, Prod.mk.injEq] at h
    exact h.2 ▸ Nat.toDigits_ne_nil
  · intro b e h
    rw [Option.some.injEq, Prod.mk.injEq] at h
    exact h.2 ▸ hdig k
  · simp only [DecText.value, fpVal, exVal, hval, add_zero, decide_eq_true_eq]
    have hpos : (0 : ℚ) < 10 ^ k := by positivity
    have h1 : (N : ℚ) ≤ |q| * 10 ^ k := Nat.floor_le (by positivity)
    have h2 : |q| * 10 ^ k < N + 1 := Nat.lt_floor_add_one _
    have e : (10 : ℚ) ^ (-(k : ℤ)) = (10 ^ k)⁻¹ := by rw [zpow_neg, zpow_natCast]
    have hb : abs ((N : ℚ) * (10 ^ k)⁻¹ - abs q) ≤ (10 ^ k)⁻¹ := by
      rw [abs_le]
      constructor
      · rw [neg_le_iff_add_nonneg, ← sub_nonneg]
        have : ((N : ℚ) * (10 ^ k)⁻¹ - |q| + (10 ^ k)⁻¹) = ((N + 1) - |q| * 10 ^ k) * (10 ^ k)⁻¹ := by field_simp; ring
        rw [this, sub_zero]
        exact mul_nonneg (by linarith) (by positivity)
      · have : ((N : ℚ) * (10 ^ k)⁻¹ - |q|) = (N - |q| * 10 ^ k) * (10 ^ k)⁻¹ := by field_simp
        rw [this]
        have : (N - |q| * 10 ^ k) * (10 ^ k)⁻¹ ≤ 0 := mul_nonpos_of_nonpos_of_nonneg (by linarith) (by positivity)
        have : (0 : ℚ) < (10 ^ k)⁻¹ := by positivity
        linarith
    have hk' : (10 ^ k)⁻¹ ≤ |q| * 10 ^ (1 - d) := by rw [one_div, inv_pow] at hk; exact hk.le
    rw [e]
    refine le_trans ?_ (hb.trans hk')
    by_cases hneg : q < 0
    · rw [if_pos hneg, abs_of_neg hneg, ← abs_neg]
      exact le_of_eq (by ring_nf)
    · rw [if_neg hneg, abs_of_nonneg (not_lt.1 hneg), one_mul]

/-- the assumption on the library can be met -/
theorem printOk_exists : ∃ L : PrintLib, PrintOk L := by
  classical
  choose f hf using decText_exists
  refine ⟨⟨fun x d => match x with
    | .fin q => if h : q ≠ 0 then (f q d h).text else []
    | _ => []⟩, ⟨fun q d hq => ⟨f q d hq, by simp [hq], hf q d hq⟩⟩⟩

/-- a matrix with all forms of entries, for a library as above -/
example : ∃ L, PrintOk L ∧ ∃ M', gpMatrix (printGp L 30 ([[(1 / 2, -3), (0, 0)], [(0, 5 / 4), (-7, 0)]].map (·.map finArf))) = some M' ∧
    List.Forall₂ (List.Forall₂ (Rounded 30)) M' [[(1 / 2, -3), (0, 0)], [(0, 5 / 4), (-7, 0)]] := by
  obtain ⟨L, hL⟩ := printOk_exists
  exact ⟨L, hL, C62_gp_partial hL 30 _ (by simp)⟩

/-- the reader on a text -/
example : gpMatrix "[1.50e-03 -1.50e-03 * I, 0;1.50e-03 + 1.50e-03 * I, -1.50e-03 * I]".toList =
    some [[(3 / 2000, -3 / 2000), (0, 0)], [(3 / 2000, 3 / 2000), (0, -3 / 2000)]] := by
  decide +kernel

end Hcp
