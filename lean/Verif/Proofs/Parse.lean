import Verif.Spec.Parse
import Mathlib.Tactic.Ring

/-!
# Lemmas on the parser
-/

namespace Hcp

open Spec

theorem skipSpace_spec : ∀ s : List Char, ∃ sp, s = sp ++ skipSpace s ∧ (∀ c ∈ sp, isSpaceC c = true) ∧
    ∀ c r, skipSpace s = c :: r → isSpaceC c = false
  | [] => ⟨[], by simp [skipSpace], by simp, by simp [skipSpace]⟩
  | c :: r => by
    unfold skipSpace
    split
    · rename_i h
      obtain ⟨sp, h1, h2, h3⟩ := skipSpace_spec r
      refine ⟨c :: sp, by rw [List.cons_append, ← h1], ?_, h3⟩
      intro d hd
      rcases List.mem_cons.1 hd with rfl | hd
      · exact h
      · exact h2 d hd
    · rename_i h
      refine ⟨[], rfl, by simp, ?_⟩
      rintro c' r' heq
      cases heq
      simpa using h

theorem readDigits_spec : ∀ (s : List Char) (acc : Nat), ∃ ds, s = ds ++ (readDigits acc s).2 ∧ (∀ c ∈ ds, c.isDigit = true) ∧
    (readDigits acc s).1 = Nat.ofDigitChars 10 ds acc
  | [], acc => ⟨[], by simp [readDigits]⟩
  | c :: r, acc => by
    unfold readDigits
    split
    · rename_i h
      obtain ⟨ds, h1, h2, h3⟩ := readDigits_spec r (10 * acc + (c.toNat - '0'.toNat))
      refine ⟨c :: ds, by rw [List.cons_append, ← h1], ?_, by rw [h3, Nat.ofDigitChars_cons]⟩
      intro d hd
      rcases List.mem_cons.1 hd with rfl | hd
      · exact h
      · exact h2 d hd
    · exact ⟨[], by simp⟩

theorem readDigits_append : ∀ (ds : List Char) (rest : List Char) (acc : Nat), (∀ c ∈ ds, c.isDigit = true) →
    (∀ c r, rest = c :: r → c.isDigit = false) → readDigits acc (ds ++ rest) = (Nat.ofDigitChars 10 ds acc, rest)
  | [], [], acc, _, _ => by simp [readDigits]
  | [], c :: r, acc, _, h => by simp [readDigits, h c r rfl]
  | d :: ds, rest, acc, h1, h2 => by
    rw [List.cons_append, readDigits, if_pos (h1 d (by simp)), readDigits_append ds rest _
      (fun c hc => h1 c (by simp [hc])) h2, Nat.ofDigitChars_cons]

theorem readNat_some {s : List Char} {v : Nat} {r : List Char} (h : readNat s = some (v, r)) :
    ∃ ds, s = ds ++ r ∧ (∀ c ∈ ds, c.isDigit = true) ∧ ds ≠ [] ∧ v = Nat.ofDigitChars 10 ds 0 := by
  unfold readNat at h
  split at h
  · rename_i c r'
    split at h
    · rename_i hc
      obtain ⟨ds, h1, h2, h3⟩ := readDigits_spec (c :: r') 0
      injection h with h
      rw [h] at h1 h3
      refine ⟨ds, h1, h2, ?_, h3⟩
      rintro rfl
      -- at least one digit is consumed
      have : readDigits 0 (c :: r') = readDigits (10 * 0 + (c.toNat - '0'.toNat)) r' := by
        conv_lhs => unfold readDigits
        rw [if_pos hc]
      rw [this] at h
      obtain ⟨ds', h1', _, _⟩ := readDigits_spec r' (10 * 0 + (c.toNat - '0'.toNat))
      rw [h] at h1'
      simp only [List.nil_append] at h1
      have := congrArg List.length h1
      have h5 := congrArg List.length h1'
      simp only [List.length_append, List.length_cons] at this h5
      omega
    · cases h
  · cases h

theorem readNat_append {ds rest : List Char} (h1 : ∀ c ∈ ds, c.isDigit = true) (h0 : ds ≠ [])
    (h2 : ∀ c r, rest = c :: r → c.isDigit = false) : readNat (ds ++ rest) = some (Nat.ofDigitChars 10 ds 0, rest) := by
  cases ds with
  | nil => exact absurd rfl h0
  | cons d ds =>
    rw [List.cons_append]
    unfold readNat
    simp only
    rw [if_pos (h1 d (by simp)), ← List.cons_append, readDigits_append (d :: ds) rest 0 h1 h2]

theorem strtol_some {s : List Char} {v : Int} {r : List Char} (h : strtol s = some (v, r)) :
    ∃ w x, s = w ++ r ∧ Literal w x ∧ v = clampLong x := by
  obtain ⟨sp, hs, hsp, -⟩ := skipSpace_spec s
  unfold strtol at h
  split at h
  · cases h
  · rename_i c r' heq
    rw [heq] at hs
    split at h
    · rename_i hc
      cases hn : readNat r' with
      | none => simp [hn] at h
      | some q =>
        obtain ⟨v0, e⟩ := q
        obtain ⟨ds, h1, h2, h3, h4⟩ := readNat_some hn
        simp only [hn, Option.map_some, Option.some.injEq, Prod.mk.injEq] at h
        obtain ⟨rfl, rfl⟩ := h
        subst h4 hc
        refine ⟨_, _, ?_, Literal.neg sp ds hsp h2 h3, rfl⟩
        rw [hs, h1]
        simp
    · split at h
      · rename_i hc
        cases hn : readNat r' with
        | none => simp [hn] at h
        | some q =>
          obtain ⟨v0, e⟩ := q
          obtain ⟨ds, h1, h2, h3, h4⟩ := readNat_some hn
          simp only [hn, Option.map_some, Option.some.injEq, Prod.mk.injEq] at h
          obtain ⟨rfl, rfl⟩ := h
          subst h4 hc
          refine ⟨_, _, ?_, Literal.plus sp ds hsp h2 h3, rfl⟩
          rw [hs, h1]
          simp
      · cases hn : readNat (c :: r') with
        | none => simp [hn] at h
        | some q =>
          obtain ⟨v0, e⟩ := q
          obtain ⟨ds, h1, h2, h3, h4⟩ := readNat_some hn
          simp only [hn, Option.map_some, Option.some.injEq, Prod.mk.injEq] at h
          obtain ⟨rfl, rfl⟩ := h
          subst h4
          refine ⟨_, _, ?_, Literal.pos sp ds hsp h2 h3, rfl⟩
          rw [hs, h1]
          simp

theorem digit_not_space {c : Char} (h : c.isDigit = true) : isSpaceC c = false ∧ c ≠ '-' ∧ c ≠ '+' ∧ c ≠ ' ' ∧ c ≠ 'x' ∧ c ≠ '*' ∧ c ≠ '^' := by
  have h1 : 48 ≤ c.toNat ∧ c.toNat ≤ 57 := by
    simp only [Char.isDigit, Bool.and_eq_true, decide_eq_true_eq] at h
    exact ⟨h.1, h.2⟩
  have hne : ∀ d : Char, d.toNat < 48 ∨ 57 < d.toNat → c ≠ d := by
    rintro d hd rfl
    omega
  have hsp : c ≠ ' ' := hne _ (by decide)
  refine ⟨?_, hne _ (by decide), hne _ (by decide), hsp, hne _ (by decide), hne _ (by decide), hne _ (by decide)⟩
  unfold isSpaceC
  simp only [Bool.or_eq_false_iff, decide_eq_false_iff_not, Bool.and_eq_false_iff]
  exact ⟨hsp, Or.inr (by simp; omega)⟩

/-- reading plain digits -/
theorem strtol_digits {ds rest : List Char} (h1 : ∀ c ∈ ds, c.isDigit = true) (h0 : ds ≠ [])
    (h2 : ∀ c r, rest = c :: r → c.isDigit = false) :
    strtol (ds ++ rest) = some (clampLong (Nat.ofDigitChars 10 ds 0), rest) := by
  have hn := readNat_append h1 h0 h2
  cases ds with
  | nil => exact absurd rfl h0
  | cons d ds =>
    have hd := digit_not_space (h1 d (by simp))
    unfold strtol
    rw [List.cons_append, skipSpace, if_neg (by simp [hd.1])]
    simp only
    rw [if_neg hd.2.1, if_neg hd.2.2.1, ← List.cons_append, hn]
    rfl

theorem signRun_spec : ∀ (str : List Char) (s0 : Int), ∃ p, str = p ++ (signRun s0 str).2 ∧
    (∀ c ∈ p, c = ' ' ∨ c = '+' ∨ c = '-') ∧ (signRun s0 str).1 = if '-' ∈ p then -1 else s0
  | [], s0 => ⟨[], by simp [signRun]⟩
  | c :: r, s0 => by
    unfold signRun
    split
    · rename_i h
      obtain ⟨p, h1, h2, h3⟩ := signRun_spec r (if c = '-' then -1 else s0)
      refine ⟨c :: p, by rw [List.cons_append, ← h1], ?_, ?_⟩
      · intro d hd
        rcases List.mem_cons.1 hd with rfl | hd
        · exact h
        · exact h2 d hd
      · rw [h3]
        by_cases hc : c = '-'
        · subst hc
          simp
        · have hc' : ¬ '-' = c := fun h => hc h.symm
          simp [hc, hc']
    · exact ⟨[], by simp⟩

theorem signRun_append : ∀ (p rest : List Char) (s0 : Int), (∀ c ∈ p, c = ' ' ∨ c = '+' ∨ c = '-') →
    (∀ c r, rest = c :: r → ¬ (c = ' ' ∨ c = '+' ∨ c = '-')) → signRun s0 (p ++ rest) = (if '-' ∈ p then -1 else s0, rest)
  | [], [], s0, _, _ => by simp [signRun]
  | [], c :: r, s0, _, h => by
    have := h c r rfl
    rw [List.nil_append, signRun, if_neg this]
    simp
  | d :: p, rest, s0, h1, h2 => by
    rw [List.cons_append, signRun, if_pos (h1 d (by simp)), signRun_append p rest _ (fun c hc => h1 c (by simp [hc])) h2]
    by_cases hc : d = '-'
    · subst hc
      simp
    · have hc' : ¬ '-' = d := fun h => hc h.symm
      simp [hc, hc']

theorem skipStars_spec : ∀ s : List Char, ∃ p, s = p ++ skipStars s ∧ (∀ c ∈ p, c = ' ' ∨ c = '*')
  | [] => ⟨[], by simp [skipStars]⟩
  | c :: r => by
    unfold skipStars
    split
    · rename_i h
      obtain ⟨p, h1, h2⟩ := skipStars_spec r
      refine ⟨c :: p, by rw [List.cons_append, ← h1], ?_⟩
      intro d hd
      rcases List.mem_cons.1 hd with rfl | hd
      · exact h
      · exact h2 d hd
    · exact ⟨[], by simp⟩

theorem skipStars_append : ∀ (p rest : List Char), (∀ c ∈ p, c = ' ' ∨ c = '*') →
    (∀ c r, rest = c :: r → ¬ (c = ' ' ∨ c = '*')) → skipStars (p ++ rest) = rest
  | [], [], _, _ => by simp [skipStars]
  | [], c :: r, _, h => by
    rw [List.nil_append, skipStars, if_neg (h c r rfl)]
  | d :: p, rest, h1, h2 => by
    rw [List.cons_append, skipStars, if_pos (h1 d (by simp)), skipStars_append p rest (fun c hc => h1 c (by simp [hc])) h2]

theorem clampLong_one : clampLong 1 = 1 := by decide
theorem clampLong_zero : clampLong 0 = 0 := by decide

theorem clampLong_fits {v : Int} (h : FitsSlong v) : clampLong v = v := by
  unfold clampLong
  unfold FitsSlong at h
  rw [if_neg (by omega), if_neg (by omega)]

theorem readPower_spec (s : List Char) : ∃ p : Power, s = p.str ++ (readPower s).2 ∧
    (readPower s).1 = clampLong p.exp ∧ (∀ w v, p = .lit w v → Literal w v) ∧ (∀ c r, s = c :: r → c = 'x' → p ≠ .none) := by
  cases s with
  | nil => exact ⟨.none, by simp [readPower, Power.str], by simp [readPower, Power.exp, clampLong_zero], by simp, by simp⟩
  | cons c r =>
    by_cases hc : c = 'x'
    · subst hc
      have h0 : readPower ('x' :: r) = readCaret r := by simp [readPower]
      rw [h0]
      cases r with
      | nil =>
        exact ⟨.x, by simp [readCaret, Power.str], by simp [readCaret, Power.exp, clampLong_one], by simp, by simp⟩
      | cons d r =>
        by_cases hd : d = '^'
        · subst hd
          have h1 : readCaret ('^' :: r) = readExp r := by simp [readCaret]
          rw [h1]
          unfold readExp
          split
          · exact ⟨.caret, by simp [Power.str], by simp [Power.exp, clampLong_one], by simp, by simp⟩
          · rename_i q hq
            obtain ⟨v, r'⟩ := q
            obtain ⟨w, x, h2, h3, h4⟩ := strtol_some hq
            refine ⟨.lit w x, by simp [Power.str, h2], by simp [Power.exp, h4], ?_, by simp⟩
            intro w' v' heq
            injection heq with h5 h6
            subst h5 h6
            exact h3
        · refine ⟨.x, by simp [readCaret, hd, Power.str], by simp [readCaret, hd, Power.exp, clampLong_one], by simp, by simp⟩
    · refine ⟨.none, by simp [readPower, hc, Power.str], by simp [readPower, hc, Power.exp, clampLong_zero], by simp, ?_⟩
      rintro c' r' heq rfl
      cases heq
      exact absurd rfl hc

/-- what a term reads, in all cases where it does not return `0` -/
theorem acceptTerm_reads (poly : IPoly) (str : List Char) :
    acceptTerm poly str = .ok none ∨ ∃ (t : Written) (rest : List Char), t.WF ∧ str = t.str ++ rest ∧ t.str ≠ [] ∧
      acceptTerm poly str = (chk t.stored >>= fun c => setCoeffSi poly (clampLong t.exp) c >>= fun p =>
        .ok (some (p, rest))) := by
  obtain ⟨sg, hsg1, hsg2, hsg3⟩ := signRun_spec str 1
  unfold acceptTerm
  generalize hsr : signRun 1 str = sr at *
  obtain ⟨s, str1⟩ := sr
  simp only at hsg1 hsg3 ⊢
  cases hrc : readCoef str1 with
  | none => exact Or.inl rfl
  | some q =>
    obtain ⟨c0, str2⟩ := q
    right
    simp only
    obtain ⟨mid, hmid1, hmid2⟩ := skipStars_spec str2
    obtain ⟨pw, hpw1, hpw2, hpw3, hpw4⟩ := readPower_spec (skipStars str2)
    unfold readCoef at hrc
    cases hst : strtol str1 with
    | some q =>
      rw [hst] at hrc
      cases hrc
      obtain ⟨w, x, h1, h2, h3⟩ := strtol_some hst
      refine ⟨⟨sg, some (w, x), mid, pw⟩, (readPower (skipStars str2)).2, ⟨hsg2, ?_, by simp, hmid2, hpw3⟩, ?_, ?_, ?_⟩
      · intro w' v' heq
        cases heq
        exact h2
      · simp only [Written.str, Written.numStr, List.append_assoc]
        rw [← hpw1, ← hmid1, ← h1, ← hsg1]
      · have hw : w ≠ [] := by
          cases h2 with
          | pos sp ds _ _ h5 => simp [h5]
          | plus sp ds _ _ _ => simp
          | neg sp ds _ _ _ => simp
        simp [Written.str, Written.numStr, hw]
      · simp only [Written.stored, Written.numVal, Written.exp]
        rw [hsg3, ← h3, ← hpw2]
    | none =>
      rw [hst] at hrc
      simp only at hrc
      split at hrc
      · cases hrc
      · rename_i c r
        split at hrc
        · rename_i hc
          cases hrc
          subst hc
          have hss : skipStars ('x' :: r) = 'x' :: r := by simp [skipStars]
          rw [hss] at hpw1 hpw2 hpw4 ⊢
          refine ⟨⟨sg, none, [], pw⟩, (readPower ('x' :: r)).2, ⟨hsg2, by simp, fun _ => ⟨rfl, hpw4 _ _ rfl rfl⟩, by simp, hpw3⟩, ?_, ?_, ?_⟩
          · simp only [Written.str, Written.numStr, List.append_assoc, List.nil_append]
            rw [← hpw1, ← hsg1]
          · have := hpw4 _ _ rfl rfl
            cases pw with
            | none => exact absurd rfl this
            | x => simp [Written.str, Power.str]
            | caret => simp [Written.str, Power.str]
            | lit w v => simp [Written.str, Power.str]
          · simp only [Written.stored, Written.numVal, Written.exp]
            rw [hsg3, clampLong_one, ← hpw2]
        · cases hrc

/-- conditions under which the parser stops at the end of a plain term -/
theorem acceptTerm_plain {t : Written} (ht : Plain t) {rest : List Char} (poly : IPoly)
    (hrest : ∀ c r, rest = c :: r → c = '+' ∨ c = '-' ∨ c = ' ' ∧ t.pow ≠ .none) :
    acceptTerm poly (t.str ++ rest) = (chk t.stored >>= fun c => setCoeffSi poly (clampLong t.exp) c >>= fun p =>
        .ok (some (p, rest))) := by
  have lit_plain : ∀ {w : List Char} {v : Int}, Literal w v → (∀ c ∈ w, c.isDigit = true) →
      w ≠ [] ∧ v = Nat.ofDigitChars 10 w 0 := by
    intro w v h hd
    cases h with
    | pos sp ds h1 h2 h3 =>
      have : sp = [] := by
        cases sp with
        | nil => rfl
        | cons c sp =>
          have h4 := h1 c (by simp)
          have h5 := (digit_not_space (hd c (by simp))).1
          rw [h4] at h5
          cases h5
      subst this
      exact ⟨by simpa using h3, rfl⟩
    | plus sp ds h1 h2 h3 => exact absurd rfl (digit_not_space (hd '+' (by simp))).2.2.1
    | neg sp ds h1 h2 h3 => exact absurd rfl (digit_not_space (hd '-' (by simp))).2.1
  have hrd : ∀ c r, rest = c :: r → c.isDigit = false ∧ c ≠ 'x' ∧ c ≠ '*' ∧ c ≠ '^' := by
    intro c r h
    rcases hrest c r h with rfl | rfl | ⟨rfl, _⟩ <;> decide
  obtain ⟨sg, num, mid, pw⟩ := t
  have hwf := ht.wf
  -- the power
  have hpow : readPower (pw.str ++ rest) = (clampLong pw.exp, rest) := by
    cases pw with
    | none =>
      cases rest with
      | nil => simp [Power.str, readPower, Power.exp, clampLong_zero]
      | cons c r =>
        simp [Power.str, readPower, (hrd c r rfl).2.1, Power.exp, clampLong_zero]
    | x =>
      cases rest with
      | nil => simp [Power.str, readPower, readCaret, Power.exp, clampLong_one]
      | cons c r =>
        simp [Power.str, readPower, readCaret, (hrd c r rfl).2.2.2, Power.exp, clampLong_one]
    | caret => exact absurd rfl ht.noCaret
    | lit w v =>
      have hd := ht.pow w v rfl
      obtain ⟨h1, h2⟩ := lit_plain (hwf.pow w v rfl) hd
      have := strtol_digits hd h1 (fun c r h => (hrd c r h).1)
      simp only [Power.str, Power.exp, List.cons_append, readPower, if_true, readCaret, readExp, this, h2]
  -- the first character of the power is not a star
  have hps : ∀ c r, pw.str ++ rest = c :: r → ¬ (c = ' ' ∨ c = '*') := by
    intro c r h
    cases pw with
    | none =>
      simp only [Power.str, List.nil_append] at h
      rcases hrest c r h with rfl | rfl | ⟨_, h⟩
      · decide
      · decide
      · exact absurd rfl h
    | x => cases h; decide
    | caret => cases h; decide
    | lit w v => cases h; decide
  have hpd : ∀ c r, pw.str ++ rest = c :: r → c.isDigit = false := by
    intro c r h
    cases pw with
    | none => exact (hrd c r h).1
    | x => cases h; decide
    | caret => cases h; decide
    | lit w v => cases h; decide
  have hmd : ∀ c r, mid ++ (pw.str ++ rest) = c :: r → c.isDigit = false := by
    intro c r h
    cases mid with
    | nil => exact hpd c r h
    | cons m mid =>
      cases h
      rcases hwf.mid c (by simp) with rfl | rfl <;> decide
  have hcoef : readCoef (Written.numStr ⟨sg, num, mid, pw⟩ ++ (mid ++ (pw.str ++ rest))) =
      some (clampLong (Written.numVal ⟨sg, num, mid, pw⟩), mid ++ (pw.str ++ rest)) := by
    cases num with
    | none =>
      obtain ⟨h1, h2⟩ := hwf.noNum rfl
      simp only at h1 h2
      subst h1
      have hx : ∃ r, pw.str ++ rest = 'x' :: r := by
        cases pw with
        | none => exact absurd rfl h2
        | x => exact ⟨_, rfl⟩
        | caret => exact ⟨_, rfl⟩
        | lit w v => exact ⟨_, rfl⟩
      obtain ⟨r, hx⟩ := hx
      have hst : strtol ('x' :: r) = none := by
        have h1 : skipSpace ('x' :: r) = 'x' :: r := by
          rw [skipSpace, if_neg (by decide)]
        unfold strtol
        rw [h1]
        simp only
        rw [if_neg (by decide), if_neg (by decide)]
        simp [readNat, show ('x' : Char).isDigit = false by decide]
      simp only [Written.numStr, Written.numVal, List.nil_append, hx, readCoef, hst, if_true, clampLong_one]
    | some q =>
      obtain ⟨w, v⟩ := q
      have hd := ht.num w v rfl
      obtain ⟨h1, h2⟩ := lit_plain (hwf.num w v rfl) hd
      have := strtol_digits hd h1 hmd
      simp only [Written.numStr, Written.numVal, readCoef, this, h2]
  have hns : ∀ c r, Written.numStr ⟨sg, num, mid, pw⟩ ++ (mid ++ (pw.str ++ rest)) = c :: r →
      ¬ (c = ' ' ∨ c = '+' ∨ c = '-') := by
    intro c r h
    cases num with
    | none =>
      obtain ⟨h1, h2⟩ := hwf.noNum rfl
      simp only at h1 h2
      subst h1
      cases pw with
      | none => exact absurd rfl h2
      | x => cases h; decide
      | caret => cases h; decide
      | lit w v => cases h; decide
    | some q =>
      obtain ⟨w, v⟩ := q
      have hd := ht.num w v rfl
      obtain ⟨h1, h2⟩ := lit_plain (hwf.num w v rfl) hd
      cases w with
      | nil => exact absurd rfl h1
      | cons d w =>
        have := digit_not_space (hd d (by simp))
        cases h
        rintro (h | h | h)
        · exact this.2.2.2.1 h
        · exact this.2.2.1 h
        · exact this.2.1 h
  have hsr := signRun_append sg _ 1 hwf.signs hns
  have hstr : Written.str ⟨sg, num, mid, pw⟩ ++ rest =
      sg ++ (Written.numStr ⟨sg, num, mid, pw⟩ ++ (mid ++ (pw.str ++ rest))) := by
    simp only [Written.str, List.append_assoc]
  unfold acceptTerm
  rw [hstr, hsr]
  simp only [hcoef, skipStars_append mid _ hwf.mid hps, hpow]
  rfl

theorem setCoeffSi_ok {poly : IPoly} {e c : Int} (h0 : 0 ≤ e) (h1 : e < slongMax) :
    setCoeffSi poly e c = .ok fun k => if k = e.toNat then c else poly k := by
  unfold setCoeffSi
  rw [if_neg (by omega), if_neg (by omega)]

end Hcp
