import Verif.Model.MagCount
import Verif.Props.Bound

/-!
# C69: bounds of a function on an interval, and the number of evaluations
-/

namespace Hcp
open Spec

variable {M V : Type} {S : BoundOps M} {F : ℝ → V} {RM : M → V → Prop}

/-- `arb_set_interval_arf`: the ball contains the interval -/
def IntervalOk (ball : ℝ → ℝ → RBall) : Prop := ∀ tmin tmax x, tmin ≤ x → x ≤ tmax → In x (ball tmin tmax)

/-- the loop with the counter gives the bound of the loop without it -/
theorem countLoop_bound {rec : RBall → Res (M × Nat × List RBall)} {rec' : RBall → Res M} (step : ℝ) (hrec : ∀ t r, rec t = .ok r → rec' t = .ok r.1) :
    ∀ (cnt k : Nat) (t : RBall) (m : M) (count : Nat) (log : List RBall) (r : M × Nat × List RBall), countLoop S rec step cnt k t m count log = .ok r →
      boundLoop S rec' step cnt k t m = .ok r.1
  | 0, k, t, m, count, log, r, h => by
    simp only [countLoop, Res.ok.injEq] at h
    subst h
    rfl
  | cnt + 1, k, t, m, count, log, r, h => by
    simp only [countLoop] at h
    cases hf : S.f t with
    | some a =>
      simp only [hf] at h
      simp only [boundLoop, hf, Res.ok_bind]
      exact countLoop_bound step hrec cnt _ _ _ _ _ _ h
    | none =>
      simp only [hf] at h
      cases hr : rec t with
      | ok q =>
        obtain ⟨a, c, l⟩ := q
        simp only [hr, Res.ok_bind] at h
        simp only [boundLoop, hf, hrec t _ hr, Res.ok_bind]
        exact countLoop_bound step hrec cnt _ _ _ _ _ _ h
      | abort w => simp [hr] at h
      | ub w => simp [hr] at h
      | diverge => simp [hr] at h

theorem magFuncCount_bound (tiny : ℝ → Bool) : ∀ (depth : Nat) (b : RBall) (n : Nat) (m0 : M) (r : M × Nat × List RBall), magFuncCount S tiny depth b n m0 = .ok r →
    magFunc S tiny depth b n m0 = .ok r.1
  | 0, b, n, m0, r, h => by cases h
  | depth + 1, b, n, m0, r, h => by
    simp only [magFuncCount] at h
    simp only [magFunc]
    split at h
    · cases h
    · rename_i hs
      rw [if_neg hs]
      exact countLoop_bound _ (fun t r => magFuncCount_bound tiny depth t 5 m0 r) _ _ _ _ _ _ _ h

/-- the counter and the list of the evaluations -/
theorem countLoop_count {rec : RBall → Res (M × Nat × List RBall)} (step : ℝ) (hrec : ∀ t r, rec t = .ok r → r.2.1 = r.2.2.length) :
    ∀ (cnt k : Nat) (t : RBall) (m : M) (count : Nat) (log : List RBall) (r : M × Nat × List RBall), countLoop S rec step cnt k t m count log = .ok r → count = log.length + cnt →
      r.2.1 = r.2.2.length
  | 0, k, t, m, count, log, r, h, e => by
    simp only [countLoop, Res.ok.injEq] at h
    subst h
    exact e
  | cnt + 1, k, t, m, count, log, r, h, e => by
    simp only [countLoop] at h
    cases hf : S.f t with
    | some a =>
      simp only [hf] at h
      exact countLoop_count step hrec cnt _ _ _ _ _ _ h (by simp; omega)
    | none =>
      simp only [hf] at h
      cases hr : rec t with
      | ok q =>
        obtain ⟨a, c, l⟩ := q
        simp only [hr, Res.ok_bind] at h
        have := hrec t _ hr
        simp only at this
        exact countLoop_count step hrec cnt _ _ _ _ _ _ h (by simp; omega)
      | abort w => simp [hr] at h
      | ub w => simp [hr] at h
      | diverge => simp [hr] at h

theorem magFuncCount_count (tiny : ℝ → Bool) : ∀ (depth : Nat) (b : RBall) (n : Nat) (m0 : M) (r : M × Nat × List RBall), magFuncCount S tiny depth b n m0 = .ok r → r.2.1 = r.2.2.length
  | 0, b, n, m0, r, h => by cases h
  | depth + 1, b, n, m0, r, h => by
    simp only [magFuncCount] at h
    split at h
    · cases h
    · exact countLoop_count _ (fun t r => magFuncCount_count tiny depth t 5 m0 r) _ _ _ _ _ _ _ h (by simp)

/-- the first evaluations of the loop: the bound covers every ball on which `f` succeeded, and these are among the evaluations -/
theorem countLoop_mem {rec : RBall → Res (M × Nat × List RBall)} (step : ℝ) :
    ∀ (cnt k : Nat) (t : RBall) (m : M) (count : Nat) (log : List RBall) (r : M × Nat × List RBall), countLoop S rec step cnt k t m count log = .ok r →
      (∀ b ∈ log, b ∈ r.2.2) ∧ ∀ j < cnt, ballAt S t step j ∈ r.2.2
  | 0, k, t, m, count, log, r, h => by
    simp only [countLoop, Res.ok.injEq] at h
    subst h
    exact ⟨fun b hb => hb, fun j hj => absurd hj (by omega)⟩
  | cnt + 1, k, t, m, count, log, r, h => by
    have key : ∀ (log' : List RBall) (m' : M) (count' : Nat), (∀ b ∈ log, b ∈ log') → t ∈ log' → countLoop S rec step cnt (k + 1) (S.addArf t step) m' count' log' = .ok r →
        (∀ b ∈ log, b ∈ r.2.2) ∧ ∀ j < cnt + 1, ballAt S t step j ∈ r.2.2 := by
      intro log' m' count' h1 h2 h3
      obtain ⟨q1, q2⟩ := countLoop_mem step cnt _ _ _ _ _ _ h3
      refine ⟨fun b hb => q1 b (h1 b hb), fun j hj => ?_⟩
      cases j with
      | zero => exact q1 t h2
      | succ j => exact q2 j (by omega)
    simp only [countLoop] at h
    cases hf : S.f t with
    | some a =>
      simp only [hf] at h
      exact key _ _ _ (fun b hb => by simp [hb]) (by simp) h
    | none =>
      simp only [hf] at h
      cases hr : rec t with
      | ok q =>
        obtain ⟨a, c, l⟩ := q
        simp only [hr, Res.ok_bind] at h
        exact key _ _ _ (fun b hb => by simp [hb]) (by simp) h
      | abort w => simp [hr] at h
      | ub w => simp [hr] at h
      | diverge => simp [hr] at h

/-- **C69 (number of evaluations).** Whatever the function, the interval, the number of parts and the pattern of refinements: when `mag_func_arf` returns, the bound is valid for the values of the function on the whole interval,
the number returned is exactly the number of times `f` has been called, and this is at least the number of parts asked for.  The roundings of the subdivisions are as in C38. -/
theorem C69_mag_func (H : BoundSound S F RM) {ball : ℝ → ℝ → RBall} (hb : IntervalOk ball) (tiny : ℝ → Bool) (depth : Nat) (tmin tmax : ℝ) (n : Nat) (m0 m : M) (count : Nat) (log : List RBall) (hn : 0 < n)
    (hr : ∀ b' n', Reached S 5 (ball tmin tmax) n b' n' → S.special b'.rad = false → RoundOk S b' n') (h : magFuncArf S ball tiny depth tmin tmax n m0 = .ok (m, count, log)) :
    (∀ x, tmin ≤ x → x ≤ tmax → RM m (F x)) ∧ count = log.length ∧ n ≤ count := by
  refine ⟨fun x h1 h2 => C38_mag_sound H tiny depth _ n m0 m hn hr (magFuncCount_bound tiny depth _ n m0 _ h) x (hb tmin tmax x h1 h2), magFuncCount_count tiny depth _ n m0 _ h, ?_⟩
  cases depth with
  | zero => cases h
  | succ depth =>
    simp only [magFuncArf, magFuncCount] at h
    split at h
    · cases h
    · have mono : ∀ (rec : RBall → Res (M × Nat × List RBall)) (step : ℝ) (cnt k : Nat) (t : RBall) (m : M) (count : Nat) (log : List RBall) (r : M × Nat × List RBall),
          countLoop S rec step cnt k t m count log = .ok r → count ≤ r.2.1 := by
        intro rec step cnt
        induction cnt with
        | zero =>
          intro k t m count log r h
          simp only [countLoop, Res.ok.injEq] at h
          subst h
          exact le_rfl
        | succ cnt ih =>
          intro k t m count log r h
          simp only [countLoop] at h
          cases hf : S.f t with
          | some a =>
            simp only [hf] at h
            exact ih _ _ _ _ _ _ h
          | none =>
            simp only [hf] at h
            cases hr : rec t with
            | ok q =>
              obtain ⟨a, c, l⟩ := q
              simp only [hr, Res.ok_bind] at h
              have := ih _ _ _ _ _ _ h
              omega
            | abort w => simp [hr] at h
            | ub w => simp [hr] at h
            | diverge => simp [hr] at h
      exact mono _ _ _ _ _ _ _ _ _ h

/-- **C69 (evaluations).** Every part of the first subdivision is evaluated. -/
theorem C69_parts_evaluated {ball : ℝ → ℝ → RBall} (tiny : ℝ → Bool) (depth : Nat) (tmin tmax : ℝ) (n : Nat) (m0 m : M) (count : Nat) (log : List RBall)
    (h : magFuncArf S ball tiny depth tmin tmax n m0 = .ok (m, count, log)) : ∀ j < n, ballAt S (arbSubdivide S (ball tmin tmax) n).1 (arbSubdivide S (ball tmin tmax) n).2 j ∈ log := by
  cases depth with
  | zero => cases h
  | succ depth =>
    simp only [magFuncArf, magFuncCount] at h
    split at h
    · cases h
    · exact (countLoop_mem _ _ _ _ _ _ _ _ h).2

/-- **C69 (the function with a depth).** When `arb_bound_func_arf` returns, the bound is valid on the whole interval; it always returns or aborts. -/
theorem C69_bound_func (H : BoundSound S F RM) {ball : ℝ → ℝ → RBall} (hb : IntervalOk ball) (depth : Nat) (tmin tmax : ℝ) (n : Nat) (m0 : M) (hn : 0 < n)
    (hr : ∀ b' n', Reached S 3 (ball tmin tmax) n b' n' → S.special b'.rad = false → RoundOk S b' n') :
    (∃ m, boundFuncArf S ball depth tmin tmax n m0 = .ok m ∧ ∀ x, tmin ≤ x → x ≤ tmax → RM m (F x)) ∨ ∃ w, boundFuncArf S ball depth tmin tmax n m0 = .abort w := by
  rcases C38_total S depth (ball tmin tmax) n m0 with ⟨m, h⟩ | h
  · exact Or.inl ⟨m, h, fun x h1 h2 => C38_sound H depth _ n m0 m hn hr h x (hb tmin tmax x h1 h2)⟩
  · exact Or.inr h

/-- the ball with a given interval, in exact arithmetic -/
noncomputable def exactInterval (tmin tmax : ℝ) : RBall := ⟨(tmin + tmax) / 2, (tmax - tmin) / 2⟩

theorem exactInterval_ok : IntervalOk exactInterval := by
  intro tmin tmax x h1 h2
  simp only [In, exactInterval]
  rw [abs_le]
  constructor <;> linarith

/-- The hypotheses of the theorems above are met: the identity on `[-3, 3]` in one part of radius 3, which is refused and cut in five.  Six evaluations. -/
example : (∃ m log, magFuncArf exactBound exactInterval (fun _ => false) 2 (-3) 3 1 (0, 0) = .ok (m, 6, log)) ∧ IntervalOk exactInterval ∧
    ∀ b' n', Reached exactBound 5 (exactInterval (-3) 3) 1 b' n' → exactBound.special b'.rad = false → RoundOk exactBound b' n' := by
  refine ⟨?_, exactInterval_ok, fun b' n' h hs => exactBound_round b' n' ?_ hs⟩
  · have h1 : (exactInterval (-3) 3) = ⟨0, 3⟩ := by norm_num [exactInterval]
    have hf : exactBound.f ⟨0, 3⟩ = none := if_neg (by norm_num)
    have hg : ∀ x : ℝ, exactBound.f ⟨x, 3 / 5⟩ = some (x - 3 / 5, x + 3 / 5) := fun x => if_pos (by norm_num)
    have s1 : arbSubdivide exactBound ⟨0, 3⟩ 1 = (⟨0, 3⟩, 6) := by norm_num [arbSubdivide, exactBound]
    have s2 : arbSubdivide exactBound ⟨0, 3⟩ 5 = (⟨-12 / 5, 3 / 5⟩, 6 / 5) := by norm_num [arbSubdivide, exactBound]
    have ha : ∀ x s : ℝ, exactBound.addArf ⟨x, 3 / 5⟩ s = ⟨x + s, 3 / 5⟩ := fun _ _ => rfl
    have hsp : exactBound.special 3 = false := by norm_num [exactBound]
    simp only [magFuncArf, magFuncCount, h1, hsp, s1, s2, countLoop, hf, hg, ha, Bool.or_false, Bool.false_eq_true, if_false, Res.ok_bind]
    exact ⟨_, _, rfl⟩
  · cases h with
    | start => norm_num
    | part => norm_num

end Hcp
