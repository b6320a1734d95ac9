import Verif.Proofs.InterMain

/-!
# When the intersection matrix is returned, all shift numbers were computed
-/

namespace Hcp

variable {W : Type}

theorem interPair_ok {o : ShiftOracle} {size m k l : Nat} {ek el : Edge W} {c c' : IMat} (h : interPair o size m k l ek el c = .ok c') :
    (el.a = ek.a → ∃ s, o.abad k l = .ok s) ∧ (el.a ≠ ek.a → el.a = ek.b → ∃ s, o.abbd k l = .ok s) := by
  unfold interPair at h
  split at h
  · rename_i h0
    exact ⟨fun e => absurd e.symm h0.1, fun _ e => absurd e.symm h0.2⟩
  · split at h
    · rename_i e
      obtain ⟨s, hs, -⟩ := Res.bind_eq_ok.1 h
      exact ⟨fun _ => ⟨s, hs⟩, fun e' => absurd e e'⟩
    · rename_i e
      split at h
      · obtain ⟨s, hs, -⟩ := Res.bind_eq_ok.1 h
        exact ⟨fun e' => absurd e' e, fun _ _ => ⟨s, hs⟩⟩
      · cases h

theorem interRow_ok {o : ShiftOracle} {size m k : Nat} {ek : Edge W} : ∀ {rest : List (Edge W)} {l : Nat} {c c' : IMat}, interRow o size m k ek l rest c = .ok c' →
    ∀ j el, rest[j]? = some el → (el.a = ek.a → ∃ s, o.abad k (l + j) = .ok s) ∧ (el.a ≠ ek.a → el.a = ek.b → ∃ s, o.abbd k (l + j) = .ok s)
  | [], _, _, _, _, j, el, hj => by simp at hj
  | e0 :: rest, l, c, c', h, j, el, hj => by
    unfold interRow at h
    obtain ⟨c1, h1, h2⟩ := Res.bind_eq_ok.1 h
    cases j with
    | zero =>
      simp only [List.getElem?_cons_zero, Option.some.injEq] at hj
      subst hj
      exact interPair_ok h1
    | succ j =>
      simp only [List.getElem?_cons_succ] at hj
      have := interRow_ok h2 j el hj
      rwa [show l + 1 + j = l + (j + 1) by omega] at this

theorem interLoop_ok {o : ShiftOracle} {size m : Nat} : ∀ {es : List (Edge W)} {k : Nat} {c c' : IMat}, interLoop o size m k es c = .ok c' →
    ∀ i j ei ej, i < j → es[i]? = some ei → es[j]? = some ej →
      (ej.a = ei.a → ∃ s, o.abad (k + i) (k + j) = .ok s) ∧ (ej.a ≠ ei.a → ej.a = ei.b → ∃ s, o.abbd (k + i) (k + j) = .ok s)
  | [], _, _, _, _, i, j, ei, ej, _, hi, _ => by simp at hi
  | e0 :: rest, k, c, c', h, i, j, ei, ej, hij, hi, hj => by
    unfold interLoop at h
    obtain ⟨c1, h1, h⟩ := Res.bind_eq_ok.1 h
    obtain ⟨c2, h2, h3⟩ := Res.bind_eq_ok.1 h
    obtain ⟨j, rfl⟩ : ∃ j', j = j' + 1 := ⟨j - 1, by omega⟩
    simp only [List.getElem?_cons_succ] at hj
    cases i with
    | zero =>
      simp only [List.getElem?_cons_zero, Option.some.injEq] at hi
      subst hi
      have := interRow_ok h2 j ej hj
      rwa [show k + 1 + j = k + (j + 1) by omega] at this
    | succ i =>
      simp only [List.getElem?_cons_succ] at hi
      have := interLoop_ok h3 i j ei ej (by omega) hi hj
      rwa [show k + 1 + j = k + (j + 1) by omega, show k + 1 + i = k + (i + 1) by omega] at this

theorem shifts_of_ok {o : ShiftOracle} {e : List (Edge W)} {m : Nat} {c : IMat} (h : intersectionTree o e m = .ok c) :
    Shifts o e (fun k l => match o.abad k l with | .ok v => v | _ => 0) (fun k l => match o.abbd k l with | .ok v => v | _ => 0) := by
  unfold intersectionTree at h
  constructor
  · intro k l ek el hkl h1 h2 heq
    obtain ⟨s, hs⟩ := (interLoop_ok h k l ek el hkl h1 h2).1 heq
    rw [Nat.zero_add, Nat.zero_add] at hs
    simp only [hs]
  · intro k l ek el hkl h1 h2 hne heq
    obtain ⟨s, hs⟩ := (interLoop_ok h k l ek el hkl h1 h2).2 hne heq
    rw [Nat.zero_add, Nat.zero_add] at hs
    simp only [hs]

end Hcp
