import Verif.Model.Print
import Verif.Spec.PrintGp
import Mathlib.Data.List.TakeDrop

/-!
# Reading back the text printed: lemmas
-/

namespace Hcp
open Spec

theorem span_stop {p : Char → Bool} : ∀ (a b : List Char), (∀ c ∈ a, p c = true) → (∀ c r, b = c :: r → p c = false) →
    (a ++ b).span p = (a, b) := by
  intro a b ha hb
  have h1 : (a ++ b).takeWhile p = a := by
    rw [List.takeWhile_append_of_pos ha]
    cases b with
    | nil => simp
    | cons c r => simp [hb c r rfl]
  have h2 : (a ++ b).dropWhile p = b := by
    rw [List.dropWhile_append_of_pos ha]
    cases b with
    | nil => simp
    | cons c r => simp [hb c r rfl]
  rw [List.span_eq_takeWhile_dropWhile, h1, h2]

/-- characters which are not digits -/
theorem digit_ne {c : Char} (h : c.isDigit = true) : c ≠ 'e' ∧ c ≠ '.' ∧ c ≠ '-' ∧ c ≠ '+' ∧ c ≠ '*' ∧ c ≠ ' ' ∧ c ≠ ',' ∧ c ≠ ';' ∧ c ≠ '[' ∧ c ≠ ']' := by
  refine ⟨?_, ?_, ?_, ?_, ?_, ?_, ?_, ?_, ?_, ?_⟩ <;> rintro rfl <;> revert h <;> decide

theorem digits_ok {s : List Char} (h0 : s ≠ []) (h : ∀ c ∈ s, c.isDigit = true) :
    digits s = some (Nat.ofDigitChars 10 s 0) := by
  unfold digits
  rw [if_pos ⟨h0, by simpa [List.all_eq_true] using h⟩]

theorem mantissa_ok {ip : List Char} {fp : Option (List Char)} (h0 : ip ≠ []) (h : ∀ c ∈ ip, c.isDigit = true)
    (hf : ∀ f, fp = some f → ∀ c ∈ f, c.isDigit = true) :
    mantissa (ip ++ fpText fp) = some (Nat.ofDigitChars 10 ip 0 + fpVal fp) := by
  have hs : (ip ++ fpText fp).span (· ≠ '.') = (ip, fpText fp) := by
    refine span_stop _ _ (fun c hc => by simpa using (digit_ne (h c hc)).2.1) ?_
    intro c r hcr
    cases fp with
    | none => simp [fpText] at hcr
    | some f => simp only [fpText, List.cons.injEq] at hcr; simp [← hcr.1]
  unfold mantissa
  rw [hs]
  match fp, hf with
  | none, _ => simp [fpText, fpVal, digits_ok h0 h]
  | some [], _ => simp [fpText, fpVal, digits_ok h0 h]
  | some (c :: f), hf =>
    simp only [fpText, fpVal, digits_ok h0 h, digits_ok (List.cons_ne_nil c f) (hf _ rfl), Option.bind_some, Option.map_some]

theorem expo_ok {b : Option Bool} {e : List Char} (h0 : e ≠ []) (h : ∀ c ∈ e, c.isDigit = true) :
    ∃ s, exText (some (b, e)) = 'e' :: s ∧ expo s = some (exVal (some (b, e))) := by
  rcases b with _ | _ | _
  · refine ⟨e, rfl, ?_⟩
    obtain ⟨c, r, rfl⟩ := List.exists_cons_of_ne_nil h0
    have hc := digit_ne (h c (by simp))
    unfold expo
    split
    · rename_i s heq; exact absurd (List.cons.inj heq).1 hc.2.2.1
    · rename_i s heq; exact absurd (List.cons.inj heq).1 hc.2.2.2.1
    · simp [digits_ok h0 h, exVal]
  · exact ⟨'+' :: e, rfl, by simp [expo, digits_ok h0 h, exVal]⟩
  · exact ⟨'-' :: e, rfl, by simp [expo, digits_ok h0 h, exVal]⟩

/-- the text without the sign -/
def absText (t : DecText) : List Char := t.ip ++ fpText t.fp ++ exText t.ex

theorem unsigned_ok (t : DecText) :
    unsigned (absText t) = some ((Nat.ofDigitChars 10 t.ip 0 + fpVal t.fp) * 10 ^ exVal t.ex) := by
  have hs : (absText t).span (· ≠ 'e') = (t.ip ++ fpText t.fp, exText t.ex) := by
    refine span_stop _ _ ?_ ?_
    · intro c hc
      rw [List.mem_append] at hc
      rcases hc with hc | hc
      · simpa using (digit_ne (t.ip_dig c hc)).1
      · cases hfp : t.fp with
        | none => rw [hfp] at hc; simp [fpText] at hc
        | some f =>
          rw [hfp] at hc
          simp only [fpText, List.mem_cons] at hc
          rcases hc with rfl | hc
          · decide
          · simpa using (digit_ne (t.fp_dig f hfp c hc)).1
    · intro c r hcr
      cases hex : t.ex with
      | none => rw [hex] at hcr; simp [exText] at hcr
      | some p =>
        obtain ⟨b, e⟩ := p
        obtain ⟨s, h1, -⟩ := expo_ok (b := b) (t.ex_ne b e hex) (t.ex_dig b e hex)
        rw [hex, h1] at hcr
        simp [← (List.cons.inj hcr).1]
  unfold unsigned
  rw [hs]
  have hm := mantissa_ok (fp := t.fp) t.ip_ne t.ip_dig t.fp_dig
  cases hex : t.ex with
  | none => simp [exText, hm, exVal]
  | some p =>
    obtain ⟨b, e⟩ := p
    obtain ⟨s, h1, h2⟩ := expo_ok (b := b) (t.ex_ne b e hex) (t.ex_dig b e hex)
    rw [h1]
    simp [hm, h2]

theorem absText_cons (t : DecText) : ∃ c s, absText t = c :: s ∧ c.isDigit = true := by
  obtain ⟨c, s, h⟩ := List.exists_cons_of_ne_nil t.ip_ne
  exact ⟨c, s ++ fpText t.fp ++ exText t.ex, by simp [absText, h], t.ip_dig c (by simp [h])⟩

theorem text_eq (t : DecText) : t.text = (if t.neg then ['-'] else []) ++ absText t := rfl

theorem number_ok (t : DecText) : number t.text = some t.value := by
  rw [text_eq]
  unfold DecText.value
  cases hn : t.neg with
  | true => simp [number, unsigned_ok]
  | false =>
    obtain ⟨c, s, h, hd⟩ := absText_cons t
    have hc := digit_ne hd
    have hu := unsigned_ok t
    simp only [Bool.false_eq_true, if_false, List.nil_append, one_mul]
    unfold number
    split
    · rename_i s' heq; rw [h] at heq; exact absurd (List.cons.inj heq).1 hc.2.2.1
    · rename_i s' heq; rw [h] at heq; exact absurd (List.cons.inj heq).1 hc.2.2.2.1
    · exact hu

theorem number_plus (t : DecText) (h : t.neg = false) : number ('+' :: t.text) = some t.value := by
  rw [text_eq, h]
  simp [number, unsigned_ok, DecText.value, h]

/-- the characters of a decimal number -/
theorem text_chars (t : DecText) : ∀ c ∈ t.text, c.isDigit = true ∨ c = '.' ∨ c = 'e' ∨ c = '-' ∨ c = '+' := by
  intro c hc
  rw [text_eq, absText] at hc
  simp only [List.mem_append] at hc
  rcases hc with hc | ((hc | hc) | hc)
  · split at hc
    · simp at hc; simp [hc]
    · simp at hc
  · exact Or.inl (t.ip_dig c hc)
  · cases hfp : t.fp with
    | none => rw [hfp] at hc; simp [fpText] at hc
    | some f =>
      rw [hfp] at hc
      simp only [fpText, List.mem_cons] at hc
      rcases hc with rfl | hc
      · simp
      · exact Or.inl (t.fp_dig f hfp c hc)
  · cases hex : t.ex with
    | none => rw [hex] at hc; simp [exText] at hc
    | some p =>
      obtain ⟨b, e⟩ := p
      rw [hex] at hc
      rcases b with _ | _ | _ <;> simp only [exText, List.mem_cons] at hc
      · rcases hc with rfl | hc
        · simp
        · exact Or.inl (t.ex_dig _ _ hex c hc)
      · rcases hc with rfl | rfl | hc
        · simp
        · simp
        · exact Or.inl (t.ex_dig _ _ hex c hc)
      · rcases hc with rfl | rfl | hc
        · simp
        · simp
        · exact Or.inl (t.ex_dig _ _ hex c hc)

theorem text_ne (t : DecText) : ∀ c ∈ t.text, c ≠ '*' ∧ c ≠ ' ' ∧ c ≠ ',' ∧ c ≠ ';' ∧ c ≠ '[' ∧ c ≠ ']' := by
  intro c hc
  rcases text_chars t c hc with h | rfl | rfl | rfl | rfl
  · exact (digit_ne h).2.2.2.2
  all_goals decide

/-- the character before the rest -/
def lastOr (prev : Option Char) (l : List Char) : Option Char := match l.getLast? with
  | none => prev
  | some c => some c

theorem lastOr_cons (prev : Option Char) (c : Char) (l : List Char) : lastOr prev (c :: l) = lastOr (some c) l := by
  unfold lastOr
  rw [List.getLast?_cons]
  cases h : l.getLast? <;> simp

theorem firstTerm_plain : ∀ (l : List Char) (prev : Option Char) (r : List Char), (∀ c ∈ l, c ≠ '+' ∧ c ≠ '-') →
    firstTerm prev (l ++ r) = (l ++ (firstTerm (lastOr prev l) r).1, (firstTerm (lastOr prev l) r).2)
  | [], prev, r, _ => by simp [lastOr]
  | c :: l, prev, r, h => by
    have hc := h c (by simp)
    have ih := firstTerm_plain l (some c) r (fun d hd => h d (by simp [hd]))
    rw [List.cons_append, firstTerm, if_neg (by simp [hc]), ih, lastOr_cons]
    rfl

theorem firstTerm_sign {c : Char} (prev : Option Char) (r : List Char) (h : prev = none ∨ prev = some 'e') :
    firstTerm prev (c :: r) = (c :: (firstTerm (some c) r).1, (firstTerm (some c) r).2) := by
  rw [firstTerm, if_neg]
  rcases h with h | h <;> simp [h]

theorem lastOr_append (prev : Option Char) (l l' : List Char) : lastOr prev (l ++ l') = lastOr (lastOr prev l) l' := by
  unfold lastOr
  rw [List.getLast?_append]
  cases h : l'.getLast? <;> simp

theorem lastOr_digits (prev : Option Char) (l : List Char) (h0 : l ≠ []) (h : ∀ c ∈ l, c.isDigit = true ∨ c = '.') :
    ∃ c, lastOr prev l = some c ∧ (c.isDigit = true ∨ c = '.') := by
  refine ⟨l.getLast h0, ?_, h _ (List.getLast_mem h0)⟩
  unfold lastOr
  rw [List.getLast?_eq_some_getLast h0]

/-- a number without sign is not cut -/
theorem firstTerm_abs (t : DecText) (prev : Option Char) (r : List Char) :
    ∃ c, (c.isDigit = true ∨ c = '.') ∧
      firstTerm prev (absText t ++ r) = (absText t ++ (firstTerm (some c) r).1, (firstTerm (some c) r).2) := by
  have hplain : ∀ c ∈ t.ip ++ fpText t.fp, c.isDigit = true ∨ c = '.' := by
    intro c hc
    rw [List.mem_append] at hc
    rcases hc with hc | hc
    · exact Or.inl (t.ip_dig c hc)
    · cases hfp : t.fp with
      | none => rw [hfp] at hc; simp [fpText] at hc
      | some f =>
        rw [hfp] at hc
        simp only [fpText, List.mem_cons] at hc
        rcases hc with rfl | hc
        · exact Or.inr rfl
        · exact Or.inl (t.fp_dig f hfp c hc)
  have hsig : ∀ c : Char, c.isDigit = true ∨ c = '.' → c ≠ '+' ∧ c ≠ '-' := by
    rintro c (h | rfl)
    · exact ⟨(digit_ne h).2.2.2.1, (digit_ne h).2.2.1⟩
    · decide
  have hne : t.ip ++ fpText t.fp ≠ [] := by simp [t.ip_ne]
  have hnum : ∀ (prev' : Option Char) (e : List Char), e ≠ [] → (∀ c ∈ e, c.isDigit = true) → ∃ c, (c.isDigit = true ∨ c = '.') ∧
      firstTerm prev' (e ++ r) = (e ++ (firstTerm (some c) r).1, (firstTerm (some c) r).2) := by
    intro prev' e h0 hd
    obtain ⟨c, hc, hc'⟩ := lastOr_digits prev' e h0 (fun c hc => Or.inl (hd c hc))
    refine ⟨c, hc', ?_⟩
    rw [firstTerm_plain _ _ _ (fun c hc => hsig c (Or.inl (hd c hc))), hc]
  unfold absText
  cases hex : t.ex with
  | none =>
    obtain ⟨c, hc, hc'⟩ := lastOr_digits prev _ hne hplain
    refine ⟨c, hc', ?_⟩
    simp only [exText, List.append_nil]
    rw [firstTerm_plain _ _ _ (fun c hc => hsig c (hplain c hc)), hc]
  | some p =>
    obtain ⟨b, e⟩ := p
    have h0 := t.ex_ne b e hex
    have hd := t.ex_dig b e hex
    have hpre : ∀ c ∈ t.ip ++ fpText t.fp ++ ['e'], c ≠ '+' ∧ c ≠ '-' := by
      intro c hc
      rw [List.mem_append] at hc
      rcases hc with hc | hc
      · exact hsig c (hplain c hc)
      · simp only [List.mem_cons, List.not_mem_nil, or_false] at hc
        subst hc; decide
    have hl : lastOr prev (t.ip ++ fpText t.fp ++ ['e']) = some 'e' := by simp [lastOr]
    rcases b with _ | _ | _
    · obtain ⟨c, hc, h⟩ := hnum (some 'e') e h0 hd
      refine ⟨c, hc, ?_⟩
      have e1 : t.ip ++ fpText t.fp ++ exText (some (none, e)) ++ r = (t.ip ++ fpText t.fp ++ ['e']) ++ (e ++ r) := by
        simp [exText]
      rw [e1, firstTerm_plain _ _ _ hpre, hl, h]
      simp [exText]
    · obtain ⟨c, hc, h⟩ := hnum (some '+') e h0 hd
      refine ⟨c, hc, ?_⟩
      have e1 : t.ip ++ fpText t.fp ++ exText (some (some false, e)) ++ r = (t.ip ++ fpText t.fp ++ ['e']) ++ ('+' :: (e ++ r)) := by
        simp [exText]
      rw [e1, firstTerm_plain _ _ _ hpre, hl, firstTerm_sign _ _ (Or.inr rfl), h]
      simp [exText]
    · obtain ⟨c, hc, h⟩ := hnum (some '-') e h0 hd
      refine ⟨c, hc, ?_⟩
      have e1 : t.ip ++ fpText t.fp ++ exText (some (some true, e)) ++ r = (t.ip ++ fpText t.fp ++ ['e']) ++ ('-' :: (e ++ r)) := by
        simp [exText]
      rw [e1, firstTerm_plain _ _ _ hpre, hl, firstTerm_sign _ _ (Or.inr rfl), h]
      simp [exText]

/-- the first term is the number -/
theorem firstTerm_text (t : DecText) (r : List Char) :
    ∃ c, (c.isDigit = true ∨ c = '.') ∧
      firstTerm none (t.text ++ r) = (t.text ++ (firstTerm (some c) r).1, (firstTerm (some c) r).2) := by
  rw [text_eq]
  cases t.neg with
  | false => exact firstTerm_abs t none r
  | true =>
    obtain ⟨c, hc, h⟩ := firstTerm_abs t (some '-') r
    refine ⟨c, hc, ?_⟩
    simp only [if_true, List.cons_append, List.nil_append]
    rw [firstTerm_sign _ _ (Or.inl rfl), h]

theorem firstTerm_stop {c : Char} (hc : c.isDigit = true ∨ c = '.') {s : Char} (hs : s = '+' ∨ s = '-') (r : List Char) :
    firstTerm (some c) (s :: r) = ([], s :: r) := by
  rw [firstTerm, if_pos]
  refine ⟨hs, by simp, ?_⟩
  rcases hc with h | rfl
  · simpa using (digit_ne h).1
  · decide

theorem firstTerm_I (c : Char) : firstTerm (some c) ['*', 'I'] = (['*', 'I'], []) := by
  simp [firstTerm]

theorem term_re (t : DecText) : term t.text = some (t.value, 0) := by
  have hs : t.text.span (· ≠ '*') = (t.text, []) := by
    have := span_stop (p := fun c => decide (c ≠ '*')) t.text [] (fun c hc => by simpa using (text_ne t c hc).1) (by simp)
    simpa using this
  unfold term
  rw [hs]
  simp [number_ok]

theorem term_im_aux (x : List Char) (v : ℚ) (h : ∀ c ∈ x, c ≠ '*') (hn : number x = some v) :
    term (x ++ ['*', 'I']) = some (0, v) := by
  have hs : (x ++ ['*', 'I']).span (· ≠ '*') = (x, ['*', 'I']) := by
    refine span_stop _ _ (fun c hc => by simpa using h c hc) ?_
    intro c r hcr
    simp [← (List.cons.inj hcr).1]
  unfold term
  rw [hs]
  simp [hn]

theorem text_ne_nil (t : DecText) : t.text ≠ [] := by
  rw [text_eq]
  obtain ⟨c, s, h, -⟩ := absText_cons t
  simp [h]

/-- real number -/
theorem entry_re (t : DecText) : entry t.text = some (t.value, 0) := by
  obtain ⟨c, s, h⟩ := List.exists_cons_of_ne_nil (text_ne_nil t)
  unfold entry
  rw [show t.text.length = s.length + 1 by simp [h]]
  obtain ⟨c, -, h⟩ := firstTerm_text t []
  simp only [firstTerm, List.append_nil] at h
  simp [Spec.sum, h, term_re]

/-- purely imaginary number -/
theorem sum_im (t : DecText) (k : Nat) : Spec.sum (k + 1) (t.text ++ ['*', 'I']) = some (0, t.value) := by
  obtain ⟨c, -, h⟩ := firstTerm_text t ['*', 'I']
  rw [firstTerm_I] at h
  simp [Spec.sum, h, term_im_aux t.text t.value (fun c hc => (text_ne t c hc).1) (number_ok t)]

theorem entry_im (t : DecText) : entry (t.text ++ ['*', 'I']) = some (0, t.value) := by
  unfold entry
  rw [show (t.text ++ ['*', 'I']).length = (t.text.length + 1) + 1 by simp]
  exact sum_im t _

/-- an imaginary term after a plus sign -/
theorem sum_plus (t : DecText) (hn : t.neg = false) (k : Nat) :
    Spec.sum (k + 1) ('+' :: (t.text ++ ['*', 'I'])) = some (0, t.value) := by
  have e : t.text = absText t := by rw [text_eq, hn]; simp
  obtain ⟨c, -, h⟩ := firstTerm_abs t (some '+') ['*', 'I']
  rw [firstTerm_I, ← e] at h
  have h2 : firstTerm none ('+' :: (t.text ++ ['*', 'I'])) = ('+' :: t.text ++ ['*', 'I'], []) := by
    rw [firstTerm_sign _ _ (Or.inl rfl), h]; simp
  have h3 := term_im_aux ('+' :: t.text) t.value (by
    intro c hc
    rw [List.mem_cons] at hc
    rcases hc with rfl | hc
    · decide
    · exact (text_ne t c hc).1) (number_plus t hn)
  simp only [Spec.sum, h2, if_true, h3]

/-- real part, then an imaginary part of positive sign -/
theorem entry_pos (t u : DecText) (hu : u.neg = false) :
    entry (t.text ++ '+' :: (u.text ++ ['*', 'I'])) = some (t.value, u.value) := by
  unfold entry
  rw [show (t.text ++ '+' :: (u.text ++ ['*', 'I'])).length = (t.text.length + u.text.length + 1) + 1 + 1 by simp; omega]
  obtain ⟨c, hc, h⟩ := firstTerm_text t ('+' :: (u.text ++ ['*', 'I']))
  rw [firstTerm_stop hc (Or.inl rfl), List.append_nil] at h
  rw [Spec.sum]
  simp only [h, term_re, sum_plus u hu]
  simp

/-- real part, then an imaginary part of negative sign -/
theorem entry_neg (t u : DecText) (hu : u.neg = true) :
    entry (t.text ++ (u.text ++ ['*', 'I'])) = some (t.value, u.value) := by
  have e : u.text = '-' :: absText u := by rw [text_eq, hu]; simp
  unfold entry
  rw [show (t.text ++ (u.text ++ ['*', 'I'])).length = (t.text.length + u.text.length) + 1 + 1 by simp; omega]
  obtain ⟨c, hc, h⟩ := firstTerm_text t (u.text ++ ['*', 'I'])
  rw [e, List.cons_append, firstTerm_stop hc (Or.inr rfl), List.append_nil] at h
  have h2 := sum_im u (t.text.length + u.text.length)
  rw [Spec.sum, show t.text ++ (u.text ++ ['*', 'I']) = t.text ++ '-' :: (absText u ++ ['*', 'I']) by simp [e]]
  simp only [h, term_re]
  rw [show '-' :: (absText u ++ ['*', 'I']) = u.text ++ ['*', 'I'] by simp [e], h2]
  simp [e]

theorem entry_zero : entry ['0'] = some (0, 0) := by
  decide +kernel

variable (L : PrintLib)

/-- an entry without its blanks -/
def squeezed (d : Int) (z : Arf × Arf) : List Char := (printEntry L d z).filter (· ≠ ' ')

theorem splitOn_vec (d : Int) : ∀ (zs : List (Arf × Arf)) (k : Nat) (pre : List Char), k ≠ 0 → ',' ∉ pre →
    (∀ z ∈ zs, ',' ∉ squeezed L d z) →
    (pre ++ (printVec L d [',', ' '] k zs).filter (· ≠ ' ')).splitOn ',' = pre :: zs.map (squeezed L d)
  | [], k, pre, _, hpre, _ => by simp [printVec, List.splitOn_eq_singleton hpre]
  | z :: zs, k, pre, hk, hpre, hz => by
    have ih := splitOn_vec d zs (k + 1) (squeezed L d z) (by omega) (hz z (by simp)) (fun w hw => hz w (by simp [hw]))
    have e : pre ++ (printVec L d [',', ' '] k (z :: zs)).filter (· ≠ ' ') =
        pre ++ ',' :: (squeezed L d z ++ (printVec L d [',', ' '] (k + 1) zs).filter (· ≠ ' ')) := by
      simp [printVec, hk, squeezed]
    rw [e, List.splitOn_append_cons_self, ih, List.splitOn_eq_singleton hpre]
    simp

/-- a row without its blanks -/
def squeezedRow (d : Int) (zs : List (Arf × Arf)) : List Char := (printVec L d [',', ' '] 0 zs).filter (· ≠ ' ')

theorem splitOn_row (d : Int) (z : Arf × Arf) (zs : List (Arf × Arf)) (h : ∀ w ∈ z :: zs, ',' ∉ squeezed L d w) :
    (squeezedRow L d (z :: zs)).splitOn ',' = (z :: zs).map (squeezed L d) := by
  have := splitOn_vec L d zs 1 (squeezed L d z) (by omega) (h z (by simp)) (fun w hw => h w (by simp [hw]))
  rw [← List.map_cons] at this
  rw [← this]
  congr 1
  simp [squeezedRow, printVec, squeezed]

theorem splitOn_mat (d : Int) : ∀ (rs : List (List (Arf × Arf))) (k : Nat) (pre : List Char), k ≠ 0 → ';' ∉ pre →
    (∀ r ∈ rs, ';' ∉ squeezedRow L d r) →
    (pre ++ (printRows L d k rs).filter (· ≠ ' ')).splitOn ';' = pre :: rs.map (squeezedRow L d)
  | [], k, pre, _, hpre, _ => by simp [printRows, List.splitOn_eq_singleton hpre]
  | r :: rs, k, pre, hk, hpre, hz => by
    have ih := splitOn_mat d rs (k + 1) (squeezedRow L d r) (by omega) (hz r (by simp)) (fun w hw => hz w (by simp [hw]))
    have e : pre ++ (printRows L d k (r :: rs)).filter (· ≠ ' ') =
        pre ++ ';' :: (squeezedRow L d r ++ (printRows L d (k + 1) rs).filter (· ≠ ' ')) := by
      simp [printRows, hk, squeezedRow]
    rw [e, List.splitOn_append_cons_self, ih, List.splitOn_eq_singleton hpre]
    simp

theorem splitOn_rows (d : Int) (r : List (Arf × Arf)) (rs : List (List (Arf × Arf)))
    (h : ∀ w ∈ r :: rs, ';' ∉ squeezedRow L d w) :
    ((printRows L d 0 (r :: rs)).filter (· ≠ ' ')).splitOn ';' = (r :: rs).map (squeezedRow L d) := by
  have := splitOn_mat L d rs 1 (squeezedRow L d r) (by omega) (h r (by simp)) (fun w hw => h w (by simp [hw]))
  rw [← List.map_cons] at this
  rw [← this]
  congr 1
  simp [printRows, squeezedRow]

theorem semi_row (d : Int) : ∀ (zs : List (Arf × Arf)) (k : Nat), (∀ z ∈ zs, ';' ∉ squeezed L d z) →
    ';' ∉ (printVec L d [',', ' '] k zs).filter (· ≠ ' ')
  | [], k, _ => by simp [printVec]
  | z :: zs, k, h => by
    have ih := semi_row d zs (k + 1) (fun w hw => h w (by simp [hw]))
    have hz := h z (by simp)
    unfold squeezed at hz
    simp only [printVec, List.filter_append, List.mem_append, not_or]
    refine ⟨⟨?_, hz⟩, ih⟩
    split <;> simp

theorem mapM_map {α β γ : Type} (f : β → Option γ) (E : α → β) (P : γ → α → Prop) : ∀ l : List α,
    (∀ a ∈ l, ∃ v, f (E a) = some v ∧ P v a) → ∃ vs, (l.map E).mapM f = some vs ∧ List.Forall₂ P vs l
  | [], _ => ⟨[], by simp, List.Forall₂.nil⟩
  | a :: l, h => by
    obtain ⟨v, hv, hp⟩ := h a (by simp)
    obtain ⟨vs, hvs, hps⟩ := mapM_map f E P l (fun b hb => h b (by simp [hb]))
    exact ⟨v :: vs, by simp [List.mapM_cons, hv, hvs], List.Forall₂.cons hp hps⟩

/-- reading of a whole matrix from the reading of its entries -/
theorem matrix_of_entries (d : Int) (P : ℚ × ℚ → Arf × Arf → Prop) (rs : List (List (Arf × Arf))) (hne : ∀ r ∈ rs, r ≠ [])
    (hz : ∀ r ∈ rs, ∀ z ∈ r, ',' ∉ squeezed L d z ∧ ';' ∉ squeezed L d z ∧
      ∃ v, entry (squeezed L d z) = some v ∧ P v z) :
    ∃ M, gpMatrix (printGp L d rs) = some M ∧ List.Forall₂ (List.Forall₂ P) M rs := by
  have hrow : ∀ r ∈ rs, ∃ v, Spec.row (squeezedRow L d r) = some v ∧ List.Forall₂ P v r := by
    intro r hr
    obtain ⟨z, zs, rfl⟩ := List.exists_cons_of_ne_nil (hne r hr)
    unfold Spec.row
    rw [splitOn_row L d z zs (fun w hw => (hz _ hr w hw).1)]
    exact mapM_map _ _ _ _ (fun w hw => (hz _ hr w hw).2.2)
  have hsemi : ∀ r ∈ rs, ';' ∉ squeezedRow L d r := fun r hr => semi_row L d r 0 (fun z hzr => (hz r hr z hzr).2.1)
  have hrows : ∃ M, Spec.rows ((printRows L d 0 rs).filter (· ≠ ' ')) = some M ∧ List.Forall₂ (List.Forall₂ P) M rs := by
    cases rs with
    | nil => exact ⟨[], by simp [printRows, Spec.rows], List.Forall₂.nil⟩
    | cons r rs =>
      obtain ⟨M, hM, hP⟩ := mapM_map _ _ _ (r :: rs) hrow
      refine ⟨M, ?_, hP⟩
      unfold Spec.rows
      rw [if_neg, splitOn_rows L d r rs hsemi, hM]
      intro h0
      have h1 := splitOn_rows L d r rs hsemi
      rw [h0] at h1
      simp only [List.splitOn_nil, List.map_cons, List.cons.injEq] at h1
      obtain ⟨v, hv, hp⟩ := hrow r (by simp)
      rw [← h1.1] at hv
      simp [Spec.row, entry, Spec.sum] at hv
  obtain ⟨M, hM, hP⟩ := hrows
  refine ⟨M, ?_, hP⟩
  unfold gpMatrix
  have e : (printGp L d rs).filter (· ≠ ' ') = '[' :: ((printRows L d 0 rs).filter (· ≠ ' ') ++ [']']) := by
    simp [printGp]
  rw [e]
  simpa using hM

end Hcp
