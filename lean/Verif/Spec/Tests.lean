import Verif.Model.YData
import Verif.Spec.Exact

/-!
# What the predicates of Arb guarantee
-/

namespace Hcp
open Classical in
/-- the predicates on exact complex numbers (an `acb_t` of radius zero). -/
noncomputable def exactTests : Tests ℂ where
  reNeg z := decide (z.re < 0)
  reNonpos z := decide (z.re ≤ 0)
  reNonneg z := decide (0 ≤ z.re)
  imNonpos z := decide (z.im ≤ 0)
  imHasZero z := decide (z.im = 0)
  imSgn z := SignType.sign z.im
  hasZero z := decide (z = 0)
  finite _ := true
  arg z := (Complex.arg z : ℂ)
  uniqueInt z := if h : ∃ k : Int, z = k then some h.choose else none

/-- The documented guarantees: an answer is only given when it holds for every number of the
ball.  `R a z` means "the ball `a` contains `z`". -/
structure SoundTests {A : Type} (T : Tests A) (R : A → ℂ → Prop) : Prop where
  reNeg : ∀ {a z}, R a z → T.reNeg a = true → z.re < 0
  reNonpos : ∀ {a z}, R a z → T.reNonpos a = true → z.re ≤ 0
  reNonneg : ∀ {a z}, R a z → T.reNonneg a = true → 0 ≤ z.re
  imNonpos : ∀ {a z}, R a z → T.imNonpos a = true → z.im ≤ 0
  imSgn : ∀ {a z}, R a z → T.imHasZero a = false → T.imSgn a = SignType.sign z.im ∧ z.im ≠ 0
  hasZero : ∀ {a z}, R a z → T.hasZero a = false → z ≠ 0
  arg : ∀ {a z}, R a z → R (T.arg a) (Complex.arg z : ℂ)
  uniqueInt : ∀ {a k} {j : Int}, R a (j : ℂ) → T.uniqueInt a = some k → k = j

theorem exactTests_sound : SoundTests exactTests Eq where
  reNeg := by rintro a _ rfl h; simpa [exactTests] using h
  reNonpos := by rintro a _ rfl h; simpa [exactTests] using h
  reNonneg := by rintro a _ rfl h; simpa [exactTests] using h
  imNonpos := by rintro a _ rfl h; simpa [exactTests] using h
  imSgn := by rintro a _ rfl h; exact ⟨rfl, by simpa [exactTests] using h⟩
  hasZero := by rintro a _ rfl h; simpa [exactTests] using h
  arg := by rintro a _ rfl; rfl
  uniqueInt := by
    rintro _ k j rfl h
    have hex : ∃ k : Int, (j : ℂ) = k := ⟨j, rfl⟩
    simp only [exactTests, dif_pos hex, Option.some.injEq] at h
    subst h
    exact_mod_cast hex.choose_spec.symm

theorem exact_encloses : Encloses exact exact Eq where
  zero := rfl
  one := rfl
  add := by rintro _ _ _ _ rfl rfl; rfl
  sub := by rintro _ _ _ _ rfl rfl; rfl
  mul := by rintro _ _ _ _ rfl rfl; rfl
  neg := by rintro _ _ rfl; rfl
  div := by rintro _ _ _ _ rfl rfl; rfl
  inv := by rintro _ _ rfl; rfl
  pow := by rintro _ _ k rfl; rfl
  ofInt _ := rfl
  mul2exp := by rintro _ _ k rfl; rfl
  root := by rintro _ _ k rfl; rfl
  sqrt := by rintro _ _ rfl; rfl
  unitRoot _ := rfl
  log := by rintro _ _ rfl; rfl
  exp := by rintro _ _ rfl; rfl
  divI := by rintro _ _ rfl; rfl
  pi := rfl

end Hcp
