import Verif.Proofs.Parse
import Mathlib.Tactic.Linarith
import Mathlib.Algebra.Polynomial.Degree.Operations

/-!
# C31, C32: the parser of polynomials
-/

namespace Hcp

open Spec

/-- the polynomial stored after the terms `ts`: later terms overwrite earlier ones -/
def overlay (p0 : IPoly) (ts : List Written) : IPoly :=
  ts.foldl (fun p t => fun k => if k = (clampLong t.exp).toNat then t.stored else p k) p0

/-- On regular terms with distinct exponents, overwriting is adding. -/
theorem overlay_value : ∀ (ts : List Written) (p0 : IPoly), (∀ t ∈ ts, t.Regular ∧ 0 ≤ t.exp) →
    (ts.map Written.exp).Nodup → (∀ t ∈ ts, p0 t.exp.toNat = 0) → ∀ k, overlay p0 ts k = p0 k + value ts k
  | [], p0, _, _, _, k => by simp [overlay, value]
  | t :: ts, p0, hreg, hnd, h0, k => by
    obtain ⟨hr, he⟩ := hreg t (by simp)
    have hst : t.stored = t.coef := by
      unfold Written.stored Written.coef
      rw [clampLong_fits hr.numFits]
      by_cases hm : '-' ∈ t.signs
      · have h1 : t.signs.count '-' = 1 := by
          have := List.count_pos_iff.2 hm
          have := hr.oneMinus
          omega
        rw [if_pos hm, h1]
        ring
      · rw [if_neg hm, List.count_eq_zero.2 hm]
        ring
    have hexp : (clampLong t.exp).toNat = t.exp.toNat := by rw [clampLong_fits hr.expFits]
    have hnd' := List.nodup_cons.1 (by simpa using hnd : (t.exp :: ts.map Written.exp).Nodup)
    have ih := overlay_value ts (fun k => if k = (clampLong t.exp).toNat then t.stored else p0 k)
      (fun u hu => hreg u (by simp [hu])) hnd'.2 (by
        intro u hu
        have hne : u.exp.toNat ≠ (clampLong t.exp).toNat := by
          rw [hexp]
          intro h
          have h1 := (hreg u (by simp [hu])).2
          have h2 : u.exp = t.exp := by omega
          exact hnd'.1 (List.mem_map.2 ⟨u, hu, h2⟩)
        rw [if_neg hne]
        exact h0 u (by simp [hu])) k
    have h1 : overlay p0 (t :: ts) k = overlay (fun k => if k = (clampLong t.exp).toNat then t.stored else p0 k) ts k := rfl
    rw [h1, ih]
    have h2 : value (t :: ts) k = (if t.exp = (k : Int) then t.coef else 0) + value ts k := by simp [value]
    rw [h2]
    by_cases hk : k = (clampLong t.exp).toNat
    · have h3 : t.exp = (k : Int) := by rw [hk, hexp]; omega
      have h4 : p0 k = 0 := by
        rw [hk, hexp]
        exact h0 t (by simp)
      rw [if_pos hk, if_pos h3, h4, hst]
      ring
    · have h3 : ¬ t.exp = (k : Int) := by
        intro h
        apply hk
        rw [hexp, h]
        rfl
      rw [if_neg hk, if_neg h3]
      ring

/-- a step of the parser on a plain term in range -/
theorem polyParse_plain : ∀ (ts : List Written) (fuel : Nat) (p0 : IPoly), (text ts).length ≤ fuel →
    (∀ t ∈ ts, Plain t ∧ t.Regular ∧ 0 ≤ t.exp ∧ t.exp < slongMax ∧ FitsSlong t.stored) →
    ts.IsChain Follows → polyParse fuel p0 (text ts) = .ok (some (overlay p0 ts))
  | [], fuel, p0, _, _, _ => by cases fuel <;> rfl
  | t :: ts, fuel, p0, hf, hts, hch => by
    obtain ⟨hp, hr, he0, he1, hs⟩ := hts t (by simp)
    have htext : text (t :: ts) = t.str ++ text ts := by simp [text]
    have hne : t.str ≠ [] := by
      intro h
      simp only [Written.str, List.append_eq_nil_iff] at h
      cases hn : t.num with
      | none =>
        have := (hp.wf.noNum hn).2
        cases hpw : t.pow with
        | none => exact this hpw
        | _ => simp [hpw, Power.str] at h
      | some q =>
        obtain ⟨w, v⟩ := q
        have h1 : w = [] := by
          have := h.1.1.2
          simpa [Written.numStr, hn] using this
        have := hp.wf.num w v hn
        rw [h1] at this
        generalize hw : ([] : List Char) = w' at this
        cases this with
        | pos sp ds _ _ h3 =>
          have := List.append_eq_nil_iff.1 hw.symm
          exact h3 this.2
        | plus sp ds _ _ h3 => simp at hw
        | neg sp ds _ _ h3 => simp at hw
    have hrest : ∀ c r, text ts = c :: r → c = '+' ∨ c = '-' ∨ c = ' ' ∧ t.pow ≠ .none := by
      intro c r h
      cases ts with
      | nil => simp [text] at h
      | cons u us =>
        have hfol : Follows t u := (List.isChain_cons_cons.1 hch).1
        have htu : text (u :: us) = u.str ++ text us := by simp [text]
        have hhead : ∀ d, u.signs.head? = some d → c = d := by
          intro d hd
          cases hsg : u.signs with
          | nil => simp [hsg] at hd
          | cons d' sg =>
            rw [htu, Written.str, hsg] at h
            simp only [List.cons_append, List.cons.injEq] at h
            simp [hsg] at hd
            rw [← h.1, hd]
        rcases hfol with h1 | h1 | ⟨h1, h2⟩
        · exact Or.inl (hhead _ h1)
        · exact Or.inr (Or.inl (hhead _ h1))
        · exact Or.inr (Or.inr ⟨hhead _ h1, h2⟩)
    have hacc := acceptTerm_plain hp p0 hrest
    rw [chk_ok hs, clampLong_fits hr.expFits] at hacc
    simp only [Res.ok_bind, setCoeffSi_ok he0 he1] at hacc
    rw [htext] at hf ⊢
    obtain ⟨c, r, hcr⟩ : ∃ c r, t.str ++ text ts = c :: r := by
      cases h : t.str with
      | nil => exact absurd h hne
      | cons c r => exact ⟨c, r ++ text ts, rfl⟩
    have hlen : 0 < t.str.length := List.length_pos_iff.2 hne
    simp only [List.length_append] at hf
    obtain ⟨fuel', rfl⟩ : ∃ f, fuel = f + 1 := ⟨fuel - 1, by omega⟩
    rw [hcr, polyParse, ← hcr, hacc]
    simp only
    have hch' : ts.IsChain Follows := by
      cases ts with
      | nil => exact List.IsChain.nil
      | cons u us => exact (List.isChain_cons_cons.1 hch).2
    rw [polyParse_plain ts fuel' _ (by omega) (fun u hu => hts u (by simp [hu])) hch']
    unfold overlay
    rw [List.foldl_cons, clampLong_fits hr.expFits]

/-- **C31 (any spacing).** A list of terms of any length with distinct exponents, each written with an optional number in decimal digits, any
number of spaces and stars, and an optional power of `x`, separated by one plus or minus sign each (with any spaces), is accepted, and
the polynomial obtained from `0` is the sum of the terms. -/
theorem C31_terms (ts : List Written) (hplain : ∀ t ∈ ts, Plain t ∧ t.signs.count '-' ≤ 1) (hsep : ts.IsChain Follows)
    (hnum : ∀ t ∈ ts, t.numVal ≤ slongMax) (hexp : ∀ t ∈ ts, t.exp < slongMax) (hnd : (ts.map Written.exp).Nodup) :
    ∃ p, polyParse (text ts).length (fun _ => 0) (text ts) = .ok (some p) ∧ ∀ k, p k = value ts k := by
  have hlit : ∀ {w : List Char} {v : Int}, Literal w v → (∀ c ∈ w, c.isDigit = true) → 0 ≤ v := by
    intro w v h hd
    cases h with
    | pos => omega
    | plus => omega
    | neg sp ds h1 h2 h3 => exact absurd rfl (digit_not_space (hd '-' (by simp))).2.1
  have hnum0 : ∀ t ∈ ts, 0 ≤ t.numVal := by
    intro t ht
    cases hn : t.num with
    | none => simp [Written.numVal, hn]
    | some q =>
      obtain ⟨w, v⟩ := q
      have := hlit ((hplain t ht).1.wf.num w v hn) ((hplain t ht).1.num w v hn)
      simpa [Written.numVal, hn] using this
  have hexp0 : ∀ t ∈ ts, 0 ≤ t.exp := by
    intro t ht
    cases hn : t.pow with
    | lit w v =>
      have := hlit ((hplain t ht).1.wf.pow w v hn) ((hplain t ht).1.pow w v hn)
      simpa [Written.exp, hn, Power.exp] using this
    | _ => simp [Written.exp, hn, Power.exp]
  have hall : ∀ t ∈ ts, Plain t ∧ t.Regular ∧ 0 ≤ t.exp ∧ t.exp < slongMax ∧ FitsSlong t.stored := by
    intro t ht
    have h1 := hnum0 t ht
    have h2 := hexp0 t ht
    have h3 := hnum t ht
    have h4 := hexp t ht
    have hf : FitsSlong t.numVal := by
      unfold FitsSlong
      exact ⟨by unfold slongMin; omega, h3⟩
    refine ⟨(hplain t ht).1, ⟨(hplain t ht).2, hf, ?_⟩, h2, h4, ?_⟩
    · unfold FitsSlong
      exact ⟨by unfold slongMin; omega, by omega⟩
    · unfold Written.stored
      rw [clampLong_fits hf]
      unfold FitsSlong slongMin slongMax at *
      split <;> constructor <;> omega
  refine ⟨_, polyParse_plain ts _ _ le_rfl hall hsep, fun k => ?_⟩
  rw [overlay_value ts _ (fun t ht => ⟨(hall t ht).2.1, (hall t ht).2.2.1⟩) hnd (fun _ _ => rfl)]
  simp

/-- Instance of C31: `3*x^2 - x + 7`. -/
example : ∃ ts, text ts = "3*x^2 - x + 7".toList ∧ (∀ t ∈ ts, Plain t ∧ t.signs.count '-' ≤ 1) ∧ ts.IsChain Follows ∧
    (ts.map Written.exp).Nodup ∧ ts.length = 3 := by
  refine ⟨[⟨[], some (['3'], 3), ['*'], .lit ['2'] 2⟩, ⟨[' ', '-', ' '], none, [], .x⟩, ⟨[' ', '+', ' '], some (['7'], 7), [], .none⟩],
    by decide, ?_, ?_, by decide, rfl⟩
  · have lit : ∀ c : Char, c.isDigit = true → Literal [c] (Nat.ofDigitChars 10 [c] 0) := fun c hc =>
      Literal.pos [] [c] (by simp) (by simpa using hc) (by simp)
    simp only [List.mem_cons, List.not_mem_nil, or_false]
    rintro t (rfl | rfl | rfl)
    · refine ⟨⟨⟨by simp, ?_, by simp, by simp, ?_⟩, ?_, ?_, by simp⟩, by decide⟩
      · rintro w v h; cases h; exact lit '3' (by decide)
      · rintro w v h; cases h; exact lit '2' (by decide)
      · rintro w v h; cases h; simp
      · rintro w v h; cases h; simp
    · refine ⟨⟨⟨by simp, by simp, by simp, by simp, by simp⟩, by simp, by simp, by simp⟩, by decide⟩
    · refine ⟨⟨⟨by simp, ?_, by simp, by simp, by simp⟩, ?_, by simp, by simp⟩, by decide⟩
      · rintro w v h; cases h; exact lit '7' (by decide)
      · rintro w v h; cases h; simp
  · refine List.isChain_cons_cons.2 ⟨Or.inr (Or.inr ⟨rfl, by simp⟩), List.isChain_cons_cons.2 ⟨Or.inr (Or.inr ⟨rfl, by simp⟩), by simp⟩⟩

/-! ## Canonical notation -/

/-- the term of degree `k` as printed -/
def printedTerm (a : Int) (k : Nat) (first : Bool) : Written where
  signs := if a < 0 then ['-'] else if first then [] else ['+']
  num := if k = 0 ∨ a.natAbs ≠ 1 then some (Nat.toDigits 10 a.natAbs, (a.natAbs : Int)) else none
  mid := if k ≠ 0 ∧ a.natAbs ≠ 1 then ['*'] else []
  pow := if k = 0 then .none else if k = 1 then .x else .lit (Nat.toDigits 10 k) k

def printedTerms (a : Nat → Int) : Nat → Bool → List Written
  | 0, _ => []
  | k + 1, first => if a k = 0 then printedTerms a k first else printedTerm (a k) k first :: printedTerms a k false

theorem literal_toDigits (n : Nat) : Literal (Nat.toDigits 10 n) n := by
  have h := Literal.pos [] (Nat.toDigits 10 n) (by simp)
    (fun c hc => Nat.isDigit_of_mem_toDigits (by norm_num) (by norm_num) hc) Nat.toDigits_ne_nil
  rwa [Nat.ofDigitChars_ten_toDigits] at h

theorem printedTerm_exp (a : Int) (k : Nat) (first : Bool) : (printedTerm a k first).exp = k := by
  unfold printedTerm Written.exp
  simp only
  split
  · rename_i h; simp [Power.exp, h]
  · split
    · rename_i h; simp [Power.exp, h]
    · rfl

theorem printedTerm_numVal (a : Int) (k : Nat) (first : Bool) : (printedTerm a k first).numVal = a.natAbs := by
  unfold printedTerm Written.numVal
  by_cases h : k = 0 ∨ a.natAbs ≠ 1
  · simp only [if_pos h]
  · simp only [if_neg h]
    omega

theorem printedTerm_coef (a : Int) (k : Nat) (first : Bool) : (printedTerm a k first).coef = a := by
  unfold Written.coef
  rw [printedTerm_numVal]
  unfold printedTerm
  simp only
  by_cases h : a < 0
  · rw [if_pos h, show List.count '-' ['-'] = 1 by decide]
    omega
  · rw [if_neg h]
    cases first
    · rw [if_neg (by simp), show List.count '-' ['+'] = 0 by decide]
      omega
    · rw [if_pos rfl, show List.count '-' ([] : List Char) = 0 by decide]
      omega

theorem printedTerm_plain (a : Int) (k : Nat) (first : Bool) :
    Plain (printedTerm a k first) ∧ (printedTerm a k first).signs.count '-' ≤ 1 := by
  have hdig : ∀ n : Nat, ∀ c ∈ Nat.toDigits 10 n, c.isDigit = true :=
    fun n c hc => Nat.isDigit_of_mem_toDigits (by norm_num) (by norm_num) hc
  have hnum : ∀ w v, (printedTerm a k first).num = some (w, v) → w = Nat.toDigits 10 a.natAbs ∧ v = a.natAbs := by
    intro w v h
    unfold printedTerm at h
    simp only at h
    split at h
    · cases h; exact ⟨rfl, rfl⟩
    · cases h
  have hpow : ∀ w v, (printedTerm a k first).pow = .lit w v → w = Nat.toDigits 10 k ∧ v = k := by
    intro w v h
    unfold printedTerm at h
    simp only at h
    split at h
    · cases h
    · split at h
      · cases h
      · cases h; exact ⟨rfl, rfl⟩
  refine ⟨⟨⟨?_, ?_, ?_, ?_, ?_⟩, ?_, ?_, ?_⟩, ?_⟩
  · intro c hc
    unfold printedTerm at hc
    simp only at hc
    split at hc
    · simp at hc; simp [hc]
    · split at hc
      · cases hc
      · simp at hc; simp [hc]
  · intro w v h
    obtain ⟨rfl, rfl⟩ := hnum w v h
    exact literal_toDigits _
  · intro h
    unfold printedTerm at h ⊢
    simp only at h ⊢
    split at h
    · cases h
    · rename_i h1
      rw [if_neg (c := k ≠ 0 ∧ a.natAbs ≠ 1) (by omega), if_neg (c := k = 0) (by omega)]
      refine ⟨rfl, ?_⟩
      split <;> simp
  · intro c hc
    unfold printedTerm at hc
    simp only at hc
    split at hc
    · simp at hc; simp [hc]
    · cases hc
  · intro w v h
    obtain ⟨rfl, rfl⟩ := hpow w v h
    exact literal_toDigits _
  · intro w v h
    obtain ⟨rfl, rfl⟩ := hnum w v h
    exact hdig _
  · intro w v h
    obtain ⟨rfl, rfl⟩ := hpow w v h
    exact hdig _
  · unfold printedTerm
    simp only
    split
    · simp
    · split <;> simp
  · unfold printedTerm
    simp only
    split
    · decide
    · split <;> decide

theorem printedTerm_str (a : Int) (k : Nat) (first : Bool) : (printedTerm a k first).str =
    (if a < 0 then ['-'] else if first then [] else ['+']) ++ monomial a.natAbs k := by
  unfold Written.str Written.numStr printedTerm monomial
  simp only [List.append_assoc]
  congr 1
  by_cases hk : k = 0
  · simp [hk, Power.str]
  · by_cases ha : a.natAbs = 1
    · simp only [hk, ha]
      by_cases hk1 : k = 1 <;> simp [hk1, Power.str]
    · rw [if_pos (c := k = 0 ∨ a.natAbs ≠ 1) (Or.inr ha), if_pos (c := k ≠ 0 ∧ a.natAbs ≠ 1) ⟨hk, ha⟩, if_neg hk, if_neg hk, if_neg ha]
      by_cases hk1 : k = 1 <;> simp [hk1, Power.str]

theorem printedTerms_text (a : Nat → Int) : ∀ (n : Nat) (first : Bool), text (printedTerms a n first) = prettyTerms a n first
  | 0, _ => rfl
  | k + 1, first => by
    unfold printedTerms prettyTerms
    split
    · exact printedTerms_text a k first
    · have h : text (printedTerm (a k) k first :: printedTerms a k false) =
          (printedTerm (a k) k first).str ++ text (printedTerms a k false) := by simp [text]
      rw [h, printedTerm_str, printedTerms_text a k false]

theorem printedTerms_mem (a : Nat → Int) : ∀ (n : Nat) (first : Bool) (t : Written), t ∈ printedTerms a n first →
    ∃ k < n, ∃ f, t = printedTerm (a k) k f ∧ (first = false → f = false)
  | 0, _, t, h => by cases h
  | n + 1, first, t, h => by
    unfold printedTerms at h
    split at h
    · obtain ⟨k, hk, f, h1, h2⟩ := printedTerms_mem a n first t h
      exact ⟨k, by omega, f, h1, h2⟩
    · rcases List.mem_cons.1 h with rfl | h
      · exact ⟨n, by omega, first, rfl, id⟩
      · obtain ⟨k, hk, f, h1, h2⟩ := printedTerms_mem a n false t h
        exact ⟨k, by omega, f, h1, fun _ => h2 rfl⟩

theorem printedTerms_nodup (a : Nat → Int) : ∀ (n : Nat) (first : Bool), ((printedTerms a n first).map Written.exp).Nodup
  | 0, _ => List.nodup_nil
  | n + 1, first => by
    unfold printedTerms
    split
    · exact printedTerms_nodup a n first
    · rw [List.map_cons, List.nodup_cons]
      refine ⟨?_, printedTerms_nodup a n false⟩
      intro h
      obtain ⟨t, ht, he⟩ := List.mem_map.1 h
      obtain ⟨k, hk, f, rfl, _⟩ := printedTerms_mem a n false t ht
      rw [printedTerm_exp, printedTerm_exp] at he
      omega

theorem printedTerms_chain (a : Nat → Int) : ∀ (n : Nat) (first : Bool), (printedTerms a n first).IsChain Follows
  | 0, _ => List.IsChain.nil
  | n + 1, first => by
    unfold printedTerms
    split
    · exact printedTerms_chain a n first
    · have ih := printedTerms_chain a n false
      cases h : printedTerms a n false with
      | nil => simp
      | cons u us =>
        rw [h] at ih
        refine List.isChain_cons_cons.2 ⟨?_, ih⟩
        obtain ⟨k, hk, f, hu, hf⟩ := printedTerms_mem a n false u (by rw [h]; simp)
        have hf := hf rfl
        subst hf hu
        unfold Follows printedTerm
        simp only
        by_cases hneg : a k < 0
        · rw [if_pos hneg]
          simp
        · rw [if_neg hneg]
          simp

theorem printedTerms_value (a : Nat → Int) (j : Nat) : ∀ (n : Nat) (first : Bool),
    value (printedTerms a n first) j = if j < n then a j else 0
  | 0, _ => by simp [printedTerms, value]
  | n + 1, first => by
    unfold printedTerms
    split
    · rename_i h0
      rw [printedTerms_value a j n first]
      by_cases hj : j < n
      · rw [if_pos hj, if_pos (by omega)]
      · rw [if_neg hj]
        by_cases hj' : j = n
        · subst hj'
          rw [if_pos (by omega), h0]
        · rw [if_neg (by omega)]
    · have h : value (printedTerm (a n) n first :: printedTerms a n false) j =
          (if (printedTerm (a n) n first).exp = (j : Int) then (printedTerm (a n) n first).coef else 0) +
            value (printedTerms a n false) j := by simp [value]
      rw [h, printedTerms_value a j n false, printedTerm_exp, printedTerm_coef]
      by_cases hj : j < n
      · rw [if_pos hj, if_neg (c := (n : Int) = j) (by omega), if_pos (by omega), Int.zero_add]
      · rw [if_neg hj]
        by_cases hj' : j = n
        · subst hj'
          rw [if_pos rfl, if_pos (by omega), Int.add_zero]
        · rw [if_neg (c := (n : Int) = j) (by omega), if_neg (by omega)]
          rfl

/-- **C31.** For every integer polynomial, of any degree and number of terms, whose coefficients have absolute value at most `2^63 - 1`,
parsing its canonical notation succeeds and gives back the polynomial. -/
theorem C31_canonical (P : Polynomial Int) (hc : ∀ k, (P.coeff k).natAbs ≤ slongMax) (hd : P.natDegree < slongMax) :
    polyParse (pretty P).length (fun _ => 0) (pretty P) = .ok (some P.coeff) := by
  unfold pretty
  by_cases hP : P = 0
  · rw [if_pos hP, hP]
    have h : polyParse 1 (fun _ => 0) ['0'] = .ok (some fun k => if k = 0 then 0 else 0) := by rfl
    rw [show ['0'].length = 1 from rfl, h]
    congr 2
    funext k
    simp
  · rw [if_neg hP, ← printedTerms_text]
    obtain ⟨p, h1, h2⟩ := C31_terms (printedTerms P.coeff (P.natDegree + 1) true)
      (by
        intro t ht
        obtain ⟨k, hk, f, rfl, _⟩ := printedTerms_mem _ _ _ _ ht
        exact printedTerm_plain _ _ _)
      (printedTerms_chain _ _ _)
      (by
        intro t ht
        obtain ⟨k, hk, f, rfl, _⟩ := printedTerms_mem _ _ _ _ ht
        rw [printedTerm_numVal]
        exact hc k)
      (by
        intro t ht
        obtain ⟨k, hk, f, rfl, _⟩ := printedTerms_mem _ _ _ _ ht
        rw [printedTerm_exp]
        omega)
      (printedTerms_nodup _ _ _)
    rw [h1]
    congr 2
    funext k
    rw [h2, printedTerms_value]
    split
    · rfl
    · rename_i h
      rw [Polynomial.coeff_eq_zero_of_natDegree_lt (by omega)]

/-- Instance of C31: the hypotheses hold for `x^5 - 1` style data, here the constant `-7`. -/
example : (∀ k, ((Polynomial.C (-7) : Polynomial Int).coeff k).natAbs ≤ slongMax) ∧
    ((Polynomial.C (-7) : Polynomial Int)).natDegree < slongMax := by
  constructor
  · intro k
    rw [Polynomial.coeff_C]
    split <;> decide
  · rw [Polynomial.natDegree_C]
    decide

/-- Instance of the notation: `x^5-1`. -/
example : prettyTerms (fun k => if k = 5 then 1 else if k = 0 then -1 else 0) 6 true = "x^5-1".toList ∧
    prettyTerms (fun k => if k = 3 then -1 else if k = 2 then 12 else if k = 1 then 1 else 0) 4 true = "-x^3+12*x^2+x".toList := by
  decide

/-! ## Arbitrary strings -/

/-- **C32 (termination, safety).** For every string and every initial polynomial the parser terminates.  It accepts, rejects, or has undefined
behaviour; the latter only if the string contains a well-formed term whose exponent is negative or at least `2^63 - 1`, or whose
coefficient is `-2^63` written after white space, negated. -/
theorem C32_total_partial (str : List Char) : ∀ (fuel : Nat) (p0 : IPoly), str.length ≤ fuel →
    (∃ r, polyParse fuel p0 str = .ok r) ∨
    (∃ w, polyParse fuel p0 str = .ub w) ∧ ∃ (a b : List Char) (t : Written), str = a ++ t.str ++ b ∧ t.WF ∧
      (t.exp < 0 ∨ slongMax ≤ t.exp ∨ t.numVal ≤ slongMin ∧ '-' ∈ t.signs) := by
  generalize hL : str.length = L
  induction L using Nat.strong_induction_on generalizing str with
  | _ L ih =>
    intro fuel p0 hf
    cases str with
    | nil => exact Or.inl ⟨some p0, by cases fuel <;> rfl⟩
    | cons c r =>
      have hlen : (c :: r).length = r.length + 1 := rfl
      obtain ⟨fuel', rfl⟩ : ∃ f, fuel = f + 1 := ⟨fuel - 1, by omega⟩
      unfold polyParse
      rcases acceptTerm_reads p0 (c :: r) with h | ⟨t, rest, hwf, hstr, hne, hacc⟩
      · rw [h]
        exact Or.inl ⟨none, rfl⟩
      · rw [hacc]
        by_cases hs : FitsSlong t.stored
        · rw [chk_ok hs]
          simp only [Res.ok_bind]
          by_cases he0 : clampLong t.exp < 0
          · right
            simp only [setCoeffSi, if_pos he0, Res.ub_bind]
            refine ⟨⟨_, rfl⟩, [], rest, t, by rw [hstr]; rfl, hwf, Or.inl ?_⟩
            unfold clampLong slongMin slongMax at he0
            split at he0
            · omega
            · split at he0 <;> omega
          · by_cases he1 : clampLong t.exp < slongMax
            · rw [setCoeffSi_ok (by omega) he1]
              simp only [Res.ok_bind]
              have hlt : rest.length < L := by
                rw [← hL, hstr, List.length_append]
                have := List.length_pos_iff.2 hne
                omega
              rcases ih rest.length hlt rest rfl fuel' (fun k => if k = (clampLong t.exp).toNat then t.stored else p0 k)
                (by omega) with h | ⟨h, a, b, u, hu, hwfu, hbad⟩
              · exact Or.inl h
              · exact Or.inr ⟨h, t.str ++ a, b, u, by rw [hstr, hu]; simp, hwfu, hbad⟩
            · right
              have h1 : setCoeffSi p0 (clampLong t.exp) t.stored = .ub "signed overflow" := by
                unfold setCoeffSi
                rw [if_neg he0, if_pos (by omega)]
              simp only [h1, Res.ub_bind]
              refine ⟨⟨_, rfl⟩, [], rest, t, by rw [hstr]; rfl, hwf, Or.inr (Or.inl ?_)⟩
              unfold clampLong slongMin slongMax at he1
              unfold slongMax
              split at he1
              · omega
              · split at he1 <;> omega
        · right
          have h1 : chk t.stored = .ub "signed overflow" := if_neg hs
          simp only [h1, Res.ub_bind]
          refine ⟨⟨_, rfl⟩, [], rest, t, by rw [hstr]; rfl, hwf, Or.inr (Or.inr ?_)⟩
          unfold Written.stored at hs
          unfold FitsSlong clampLong slongMin slongMax at hs
          unfold slongMin
          by_cases hm : '-' ∈ t.signs
          · simp only [hm, if_true] at hs
            refine ⟨?_, hm⟩
            split at hs
            · omega
            · split at hs <;> omega
          · simp only [hm, if_false] at hs
            exfalso
            split at hs
            · omega
            · split at hs <;> omega

/-- **C32 (meaning).** For every string: whenever the parser accepts, starting from `0`, the string is a concatenation of well-formed terms and
the result is obtained by storing each term in turn.  If these terms have distinct exponents, numbers in range and at most
one minus sign each, it is the sum of the terms. -/
theorem C32_meaning_partial (str : List Char) (fuel : Nat) (p : IPoly) (h : polyParse fuel (fun _ => 0) str = .ok (some p)) :
    ∃ ts : List Written, str = text ts ∧ (∀ t ∈ ts, t.WF ∧ 0 ≤ t.exp ∧ t.exp < slongMax) ∧ p = overlay (fun _ => 0) ts ∧
      ((∀ t ∈ ts, t.Regular) → (ts.map Written.exp).Nodup → ∀ k, p k = value ts k) := by
  have key : ∀ (fuel : Nat) (str : List Char) (p0 p : IPoly), polyParse fuel p0 str = .ok (some p) →
      ∃ ts : List Written, str = text ts ∧ (∀ t ∈ ts, t.WF ∧ 0 ≤ t.exp ∧ t.exp < slongMax) ∧ p = overlay p0 ts := by
    intro fuel
    induction fuel with
    | zero =>
      intro str p0 p h
      cases str with
      | nil =>
        cases h
        exact ⟨[], rfl, by simp, rfl⟩
      | cons c r => cases h
    | succ fuel ih =>
      intro str p0 p h
      cases str with
      | nil =>
        cases h
        exact ⟨[], rfl, by simp, rfl⟩
      | cons c r =>
        unfold polyParse at h
        rcases acceptTerm_reads p0 (c :: r) with h1 | ⟨t, rest, hwf, hstr, hne, hacc⟩
        · rw [h1] at h
          cases h
        · rw [hacc] at h
          by_cases hs : FitsSlong t.stored
          · rw [chk_ok hs] at h
            simp only [Res.ok_bind] at h
            by_cases he0 : clampLong t.exp < 0
            · simp only [setCoeffSi, if_pos he0, Res.ub_bind] at h
              cases h
            · by_cases he1 : clampLong t.exp < slongMax
              · rw [setCoeffSi_ok (by omega) he1] at h
                simp only [Res.ok_bind] at h
                obtain ⟨ts, h2, h3, h4⟩ := ih rest _ p h
                refine ⟨t :: ts, by rw [hstr, h2]; simp [text], ?_, by rw [h4]; rfl⟩
                intro u hu
                rcases List.mem_cons.1 hu with rfl | hu
                · refine ⟨hwf, ?_⟩
                  unfold clampLong slongMin slongMax at he0 he1
                  unfold slongMax
                  split at he0
                  · omega
                  · split at he0
                    · rename_i h5 h6
                      rw [if_neg h5, if_pos h6] at he1
                      omega
                    · rename_i h5 h6
                      rw [if_neg h5, if_neg h6] at he1
                      omega
                · exact h3 u hu
              · have h1 : setCoeffSi p0 (clampLong t.exp) t.stored = .ub "signed overflow" := by
                  unfold setCoeffSi
                  rw [if_neg he0, if_pos (by omega)]
                simp only [h1, Res.ub_bind] at h
                cases h
          · have h1 : chk t.stored = .ub "signed overflow" := if_neg hs
            simp only [h1, Res.ub_bind] at h
            cases h
  obtain ⟨ts, h1, h2, h3⟩ := key fuel str _ p h
  refine ⟨ts, h1, h2, h3, fun hreg hnd k => ?_⟩
  rw [h3, overlay_value ts _ (fun t ht => ⟨hreg t ht, (h2 t ht).2.1⟩) hnd (fun _ _ => rfl)]
  simp

/-- **C32 (negation: repeated monomials).** For all numbers `a`, `b` in range and all exponents, a sum of two terms of the same degree is accepted but
only the last coefficient is kept: `a*x^e+b*x^e` is read as `b*x^e`. -/
theorem C32_repeated_fails (a b e : Nat) (ha : (a : Int) ≤ slongMax) (hb : (b : Int) ≤ slongMax) (he : (e : Int) < slongMax) :
    ∃ p, polyParse (text [printedTerm a e true, printedTerm b e false]).length (fun _ => 0)
        (monomial a e ++ '+' :: monomial b e) = .ok (some p) ∧ p e = b := by
  have htext : monomial a e ++ '+' :: monomial b e = text [printedTerm a e true, printedTerm b e false] := by
    simp only [text, List.map_cons, List.map_nil, List.flatten_cons, List.flatten_nil, List.append_nil, printedTerm_str]
    rw [if_neg (c := (a : Int) < 0) (by omega), if_neg (c := (b : Int) < 0) (by omega)]
    simp
  rw [htext]
  have hst : ∀ (c : Nat) (f : Bool), (c : Int) ≤ slongMax → (printedTerm c e f).stored = c ∧ (printedTerm c e f).Regular := by
    intro c f hc
    have hfit : FitsSlong (c : Int) := ⟨by unfold slongMin; omega, hc⟩
    have hfitE : FitsSlong (e : Int) := ⟨by unfold slongMin; omega, by omega⟩
    have hm : ¬ '-' ∈ (printedTerm (c : Int) e f).signs := by
      unfold printedTerm
      simp only
      rw [if_neg (by omega)]
      cases f <;> simp
    refine ⟨?_, (printedTerm_plain _ _ _).2, ?_, ?_⟩
    · unfold Written.stored
      rw [printedTerm_numVal, Int.natAbs_natCast, clampLong_fits hfit, if_neg hm, Int.mul_one]
    · rw [printedTerm_numVal, Int.natAbs_natCast]
      exact hfit
    · rw [printedTerm_exp]
      exact hfitE
  have hfit : ∀ c : Nat, (c : Int) ≤ slongMax → FitsSlong (c : Int) := fun c hc => ⟨by unfold slongMin; omega, hc⟩
  refine ⟨_, polyParse_plain _ _ _ le_rfl ?_ ?_, ?_⟩
  · simp only [List.mem_cons, List.not_mem_nil, or_false]
    rintro t (rfl | rfl)
    · refine ⟨(printedTerm_plain _ _ _).1, (hst a true ha).2, ?_, ?_, ?_⟩
      · rw [printedTerm_exp]; omega
      · rw [printedTerm_exp]; exact he
      · rw [(hst a true ha).1]; exact hfit a ha
    · refine ⟨(printedTerm_plain _ _ _).1, (hst b false hb).2, ?_, ?_, ?_⟩
      · rw [printedTerm_exp]; omega
      · rw [printedTerm_exp]; exact he
      · rw [(hst b false hb).1]; exact hfit b hb
  · refine List.isChain_cons_cons.2 ⟨Or.inl ?_, by simp⟩
    unfold printedTerm
    simp only
    rw [if_neg (by omega)]
    simp
  · unfold overlay
    simp only [List.foldl_cons, List.foldl_nil, printedTerm_exp]
    rw [clampLong_fits ⟨by unfold slongMin; omega, by omega⟩, if_pos (by simp), (hst b false hb).1]

/-- Instance: `x^2+x^2` is read as `x^2`. -/
example : monomial 1 2 ++ '+' :: monomial 1 2 = "x^2+x^2".toList := by decide

/-- **C32 (negation: negative exponents).** For every exponent `e ≥ 1` the string `x^-e` makes the program write before the coefficient array. -/
theorem C32_negative_exponent_fails (e : Nat) (he : 0 < e) (p0 : IPoly) (fuel : Nat) :
    polyParse (fuel + 1) p0 ('x' :: '^' :: '-' :: Nat.toDigits 10 e) = .ub "negative coefficient index" := by
  have hdig : ∀ c ∈ Nat.toDigits 10 e, c.isDigit = true :=
    fun c hc => Nat.isDigit_of_mem_toDigits (by norm_num) (by norm_num) hc
  have h1 : readNat (Nat.toDigits 10 e) = some (e, []) := by
    have := readNat_append hdig Nat.toDigits_ne_nil (rest := []) (by simp)
    rwa [List.append_nil, Nat.ofDigitChars_ten_toDigits] at this
  have h2 : strtol ('-' :: Nat.toDigits 10 e) = some (clampLong (-e), []) := by
    unfold strtol
    rw [skipSpace, if_neg (by decide)]
    simp only [if_true, h1, Option.map_some]
  have h3 : clampLong (-(e : Int)) < 0 := by
    unfold clampLong slongMin slongMax
    split
    · omega
    · split <;> omega
  have h4 : strtol ('x' :: '^' :: '-' :: Nat.toDigits 10 e) = none := by
    unfold strtol
    rw [skipSpace, if_neg (by decide)]
    simp only
    rw [if_neg (by decide), if_neg (by decide)]
    simp [readNat, show ('x' : Char).isDigit = false by decide]
  have h5 : acceptTerm p0 ('x' :: '^' :: '-' :: Nat.toDigits 10 e) = .ub "negative coefficient index" := by
    unfold acceptTerm
    rw [signRun, if_neg (by decide)]
    simp only [readCoef, h4, if_true]
    rw [skipStars, if_neg (by decide)]
    simp only [readPower, readCaret, readExp, if_true, h2, setCoeffSi, if_pos h3]
    rfl
  unfold polyParse
  rw [h5]

/-- **C32 (negation: saturation, minus signs, products).**  Accepted with a wrong value: a coefficient `2^63` is replaced by `2^63 - 1`, and
`-2^63` by `-(2^63 - 1)`; `1--1` is read as `-1` for its constant coefficient, and `3*2x` as `2x+3`. -/
theorem C32_wrong_values :
    (∃ p, polyParse 100 (fun _ => 0) "9223372036854775808".toList = .ok (some p) ∧ p 0 = 2 ^ 63 - 1) ∧
    (∃ p, polyParse 100 (fun _ => 0) "-9223372036854775808".toList = .ok (some p) ∧ p 0 = -(2 ^ 63 - 1)) ∧
    (∃ p, polyParse 100 (fun _ => 0) "x--1".toList = .ok (some p) ∧ p 0 = -1 ∧ p 1 = 1) ∧
    (∃ p, polyParse 100 (fun _ => 0) "3*2x".toList = .ok (some p) ∧ p 0 = 3 ∧ p 1 = 2) := by
  refine ⟨⟨_, rfl, ?_⟩, ⟨_, rfl, ?_⟩, ⟨_, rfl, ?_, ?_⟩, ⟨_, rfl, ?_, ?_⟩⟩ <;> decide

/-- **C32 (negation: overflow, rejection).**  Signed overflow is reached by a tabulation between two minus signs; a space at the end after a
power, or a product written `x*2`, is rejected. -/
theorem C32_other_outcomes :
    polyParse 100 (fun _ => 0) "-\t-9223372036854775808".toList = .ub "signed overflow" ∧
    polyParse 100 (fun _ => 0) "x^9223372036854775807".toList = .ub "signed overflow" ∧
    polyParse 100 (fun _ => 0) "x ".toList = .ok none ∧
    polyParse 100 (fun _ => 0) "x*2".toList = .ok none := by
  refine ⟨rfl, rfl, rfl, rfl⟩

end Hcp
