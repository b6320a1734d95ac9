import Verif.Model.Life
import Verif.Props.Cli
import Mathlib.Data.List.Nodup
import Mathlib.Data.List.Perm.Subperm
import Mathlib.Tactic.Ring

/-!
# C36: resource life cycle
-/

namespace Hcp

/-- `ps` are distinct live blocks of a well formed heap -/
structure Owned (ps : List Nat) (h : Heap) : Prop where
  sub : ps.Subperm h.live
  nodup : h.live.Nodup
  lt : ∀ p ∈ h.live, p < h.next

theorem Owned.mono {ps qs : List Nat} {h : Heap} (H : Owned ps h) (e : qs.Subperm ps) : Owned qs h :=
  ⟨e.trans H.sub, H.nodup, H.lt⟩

theorem Owned.mem {ps : List Nat} {h : Heap} (H : Owned ps h) {p : Nat} (hp : p ∈ ps) : p ∈ h.live := H.sub.subset hp

theorem alloc_owned {ps : List Nat} {h : Heap} (H : Owned ps h) : Owned (h.alloc.1 :: ps) h.alloc.2 ∧
    h.alloc.2.live.length = h.live.length + 1 := by
  refine ⟨⟨?_, ?_, ?_⟩, by simp [Heap.alloc]⟩
  · exact (List.subperm_cons _).2 H.sub
  · exact List.nodup_cons.2 ⟨fun hm => absurd (H.lt _ hm) (lt_irrefl _), H.nodup⟩
  · intro p hp
    rcases List.mem_cons.1 hp with rfl | hp
    · exact Nat.lt_succ_self _
    · exact (H.lt p hp).trans (Nat.lt_succ_self _)

theorem allocN_owned : ∀ (k : Nat) {ps : List Nat} {h : Heap}, Owned ps h → Owned ((Heap.allocN k h).1 ++ ps) (Heap.allocN k h).2 ∧
    (Heap.allocN k h).2.live.length = h.live.length + k ∧ (Heap.allocN k h).1.length = k
  | 0, ps, h, H => ⟨H, rfl, rfl⟩
  | k + 1, ps, h, H => by
    obtain ⟨H1, l1⟩ := alloc_owned H
    obtain ⟨H2, l2, l3⟩ := allocN_owned k H1
    refine ⟨H2.mono ?_, ?_, ?_⟩
    · exact (List.perm_middle.symm).subperm
    · simp only [Heap.allocN]; omega
    · simp only [Heap.allocN, List.length_cons]; omega

theorem loopsInit_owned : ∀ (ns : List Nat) {ps : List Nat} {h : Heap}, Owned ps h →
    Owned ((loopsInit ns h).1.map LoopPtr.ptr ++ ps) (loopsInit ns h).2 ∧
    (loopsInit ns h).2.live.length = h.live.length + ns.length ∧ (loopsInit ns h).1.map LoopPtr.n = ns
  | [], ps, h, H => ⟨H, rfl, rfl⟩
  | n :: ns, ps, h, H => by
    obtain ⟨H1, l1⟩ := alloc_owned H
    obtain ⟨H2, l2, l3⟩ := loopsInit_owned ns H1
    refine ⟨H2.mono ?_, ?_, ?_⟩
    · exact (List.perm_middle.symm).subperm
    · simp only [loopsInit, List.length_cons]; omega
    · simp only [loopsInit, List.map_cons, l3]

theorem free_owned {p : Nat} {ps : List Nat} {h : Heap} (H : Owned (p :: ps) h) : ∃ h', h.free p = .ok h' ∧ Owned ps h' ∧
    h'.live.length + 1 = h.live.length := by
  have hm := H.mem (List.mem_cons_self ..)
  refine ⟨_, if_pos hm, ⟨?_, H.nodup.erase p, fun q hq => H.lt q (List.mem_of_mem_erase hq)⟩, ?_⟩
  · have := H.sub.erase p
    rwa [List.erase_cons_head] at this
  · show (h.live.erase p).length + 1 = _
    rw [List.length_erase_of_mem hm]
    have := List.length_pos_of_mem hm
    omega

theorem freeAll_owned : ∀ (qs : List Nat) {ps : List Nat} {h : Heap}, Owned (qs ++ ps) h → ∃ h', Heap.freeAll qs h = .ok h' ∧
    Owned ps h' ∧ h'.live.length + qs.length = h.live.length
  | [], ps, h, H => ⟨h, rfl, H, rfl⟩
  | q :: qs, ps, h, H => by
    obtain ⟨h1, e1, H1, l1⟩ := free_owned H
    obtain ⟨h2, e2, H2, l2⟩ := freeAll_owned qs H1
    refine ⟨h2, ?_, H2, ?_⟩
    · simp only [Heap.freeAll, e1, Res.ok_bind, e2]
    · simp only [List.length_cons]; omega

theorem touch_owned {p : Nat} {ps : List Nat} {h : Heap} (H : Owned ps h) (hp : p ∈ ps) : h.touch p = .ok () := if_pos (H.mem hp)

theorem touchAll_owned : ∀ {qs ps : List Nat} {h : Heap}, Owned ps h → (∀ q ∈ qs, q ∈ ps) → Heap.touchAll qs h = .ok ()
  | [], ps, h, _, _ => rfl
  | q :: qs, ps, h, H, hs => by
    simp only [Heap.touchAll, touch_owned H (hs q (by simp)), Res.ok_bind]
    exact touchAll_owned H fun x hx => hs x (by simp [hx])

/-- fixed blocks of the object -/
def AjMem.base (a : AjMem) : List Nat := [a.pol, a.ni, a.roots, a.edges, a.loopA, a.loopB, a.omega0, a.omega1, a.tau, a.proj]

/-- blocks released by `abel_jacobi_clear` -/
def AjMem.held (a : AjMem) : List Nat := a.integrals :: a.base ++ loopsClear a.la ++ loopsClear a.lb

/-- well formed object with `k` blocks lost -/
structure LifeInv (a : AjMem) (h : Heap) (k : Nat) : Prop where
  owned : Owned a.held h
  len : h.live.length = a.held.length + k

theorem init_inv (g tn : Nat) : LifeInv (ajInit g tn ⟨1, []⟩).1 (ajInit g tn ⟨1, []⟩).2 0 ∧ (ajInit g tn ⟨1, []⟩).1.tn = tn ∧
    (loopsClear (ajInit g tn ⟨1, []⟩).1.la).length + (loopsClear (ajInit g tn ⟨1, []⟩).1.lb).length = 0 := by
  have hc : loopsClear (List.replicate g ⟨0, 0⟩) = [] := by
    unfold loopsClear
    rw [List.filter_eq_nil_iff.2]
    · rfl
    · intro l hl
      rw [List.eq_of_mem_replicate hl]
      simp
  have hh : (ajInit g tn ⟨1, []⟩).1.held = [7, 1, 2, 3, 4, 5, 6, 8, 9, 10, 11] := by
    simp only [AjMem.held, AjMem.base, ajInit, Heap.alloc, hc]
    rfl
  have hl : (ajInit g tn ⟨1, []⟩).2.live = [11, 10, 9, 8, 7, 6, 5, 4, 3, 2, 1] := rfl
  refine ⟨⟨⟨?_, ?_, ?_⟩, ?_⟩, rfl, ?_⟩
  · rw [hh, hl]
    exact List.Perm.subperm (by decide)
  · rw [hl]; decide
  · rw [hl]; show ∀ p ∈ [11, 10, 9, 8, 7, 6, 5, 4, 3, 2, 1], p < 12; decide
  · rw [hh, hl]; rfl
  · show (loopsClear (List.replicate g ⟨0, 0⟩)).length + (loopsClear (List.replicate g ⟨0, 0⟩)).length = 0
    rw [hc]; rfl

theorem loopsClear_subperm (ls : List LoopPtr) : (loopsClear ls).Subperm (ls.map LoopPtr.ptr) :=
  (List.Sublist.map _ List.filter_sublist).subperm

theorem loopsClear_pos {ls : List LoopPtr} (h : ∀ n ∈ ls.map LoopPtr.n, 0 < n) : loopsClear ls = ls.map LoopPtr.ptr := by
  unfold loopsClear
  rw [List.filter_eq_self.2]
  intro l hl
  have := h l.n (List.mem_map_of_mem hl)
  simp only [ne_eq, decide_eq_true_eq]
  omega

/-- number of blocks lost by one call on an object with `old` loops -/
def lost (tn old : Nat) (c : Call) : Nat := (if c.flag &&& ajNoInt ≠ 0 then tn + 1 else 1) + old

theorem compute_inv {a : AjMem} {h : Heap} {k : Nat} (I : LifeInv a h k) (c : Call) (ha : ∀ n ∈ c.na, 0 < n) (hb : ∀ n ∈ c.nb, 0 < n) :
    ∃ a' h', ajCompute a c.flag c.na c.nb h = .ok (a', h') ∧
      LifeInv a' h' (k + lost a.tn ((loopsClear a.la).length + (loopsClear a.lb).length) c) ∧ a'.tn = a.tn ∧
      (loopsClear a'.la).length + (loopsClear a'.lb).length = c.na.length + c.nb.length := by
  obtain ⟨H, hl⟩ := I
  -- ydata
  obtain ⟨H1, l1⟩ := alloc_owned H
  obtain ⟨H2, l2, l3⟩ := allocN_owned a.tn H1
  -- loops
  obtain ⟨H3, l4, l5⟩ := loopsInit_owned c.na H2
  obtain ⟨H4, l6, l7⟩ := loopsInit_owned c.nb H3
  -- integrals
  obtain ⟨H5, l8⟩ := alloc_owned H4
  generalize hd : h.alloc = D at *
  generalize hu : Heap.allocN a.tn D.2 = U at *
  generalize hla : loopsInit c.na U.2 = LA at *
  generalize hlb : loopsInit c.nb LA.2 = LB at *
  generalize hin : LB.2.alloc = IN at *
  have cA : loopsClear LA.1 = LA.1.map LoopPtr.ptr := loopsClear_pos (by rw [l5]; exact ha)
  have cB : loopsClear LB.1 = LB.1.map LoopPtr.ptr := loopsClear_pos (by rw [l7]; exact hb)
  have lenA : (LA.1.map LoopPtr.ptr).length = c.na.length := by rw [← l5]; simp
  have lenB : (LB.1.map LoopPtr.ptr).length = c.nb.length := by rw [← l7]; simp
  have t0 : Heap.touchAll [a.roots, a.edges, a.pol, a.ni] h = .ok () :=
    touchAll_owned H (by intro q hq; simp only [List.mem_cons, List.not_mem_nil, or_false] at hq; rcases hq with rfl | rfl | rfl | rfl <;> simp [AjMem.held, AjMem.base])
  have t1 : U.2.touch a.edges = .ok () := touch_owned H2 (by simp [AjMem.held, AjMem.base])
  have t2 : Heap.touchAll (D.1 :: U.1) U.2 = .ok () := touchAll_owned H2 (by
    intro q hq; rcases List.mem_cons.1 hq with rfl | hq
    · simp
    · simp [hq])
  have t3 : U.2.touch a.loopA = .ok () := touch_owned H2 (by simp [AjMem.held, AjMem.base])
  have t4 : U.2.touch a.loopB = .ok () := touch_owned H2 (by simp [AjMem.held, AjMem.base])
  let a1 : AjMem := { a with data := D.1, dataU := U.1, la := LA.1, lb := LB.1 }
  have hbasis : basisMem { a with data := D.1, dataU := U.1 } c.na c.nb U.2 = .ok (a1, LB.2) := by
    simp only [basisMem, t1, t2, t3, t4, Res.ok_bind, hla, hlb]
    rfl
  have held1 : a1.held.length = 11 + c.na.length + c.nb.length := by
    simp only [AjMem.held, AjMem.base, a1, cA, cB, List.length_append, List.length_cons, List.length_nil, lenA, lenB]
  have held0 : a.held.length = 11 + (loopsClear a.la).length + (loopsClear a.lb).length := by
    simp only [AjMem.held, AjMem.base, List.length_append, List.length_cons, List.length_nil]
  -- permutation facts
  have sub0 : (a.integrals :: a.base).Subperm a.held := by
    unfold AjMem.held
    rw [List.append_assoc]
    exact (List.sublist_append_left _ _).subperm
  have O4 : Owned (LB.1.map LoopPtr.ptr ++ (LA.1.map LoopPtr.ptr ++ (U.1 ++ (D.1 :: a.integrals :: a.base)))) LB.2 := by
    refine H4.mono ?_
    refine (List.subperm_append_left _).2 ((List.subperm_append_left _).2 ((List.subperm_append_left _).2 ((List.subperm_cons _).2 sub0)))
  by_cases f1 : c.flag &&& ajNoInt ≠ 0
  · refine ⟨a1, LB.2, ?_, ⟨?_, ?_⟩, rfl, ?_⟩
    · simp only [ajCompute, t0, Res.ok_bind, ydataInit, hd, hu, hbasis, if_pos f1]
    · refine O4.mono ?_
      have e : a1.held = (a.integrals :: a.base) ++ LA.1.map LoopPtr.ptr ++ LB.1.map LoopPtr.ptr := by
        simp only [AjMem.held, AjMem.base, a1, cA, cB]
      rw [e]
      refine List.perm_append_comm.subperm.trans ((List.subperm_append_left _).2 (List.perm_append_comm.subperm.trans ((List.subperm_append_left _).2 ?_)))
      exact ((List.sublist_cons_self _ _).trans (List.sublist_append_right _ _)).subperm
    · rw [held1]
      unfold lost
      rw [if_pos f1]
      omega
    · simp only [a1, cA, cB, lenA, lenB]
  · let a2 : AjMem := { a1 with integrals := IN.1 }
    have held2 : a2.held = (IN.1 :: a.base) ++ LA.1.map LoopPtr.ptr ++ LB.1.map LoopPtr.ptr := by
      simp only [AjMem.held, AjMem.base, a1, a2, cA, cB]
    have O5 : Owned (U.1 ++ (D.1 :: a2.held)) IN.2 := by
      refine H5.mono ?_
      refine List.Subperm.trans (l₂ := IN.1 :: (LB.1.map LoopPtr.ptr ++ (LA.1.map LoopPtr.ptr ++ (U.1 ++ (D.1 :: a.base))))) ?_ ?_
      · rw [held2]
        refine (List.perm_iff_count.2 fun x => ?_).subperm
        simp only [List.count_append, List.count_cons]
        omega
      · refine (List.subperm_cons _).2 ((List.subperm_append_left _).2 ((List.subperm_append_left _).2 ((List.subperm_append_left _).2
          ((List.subperm_cons _).2 ?_))))
        exact (List.sublist_cons_self _ _).subperm.trans sub0
    have t5 : Heap.touchAll (IN.1 :: a.edges :: D.1 :: U.1) IN.2 = .ok () := touchAll_owned O5 (by
      intro q hq
      simp only [List.mem_cons] at hq
      rcases hq with rfl | rfl | rfl | hq
      · simp [held2]
      · simp [held2, AjMem.base]
      · simp
      · simp [hq])
    have t6 : IN.2.touch D.1 = .ok () := touch_owned O5 (by simp)
    obtain ⟨h6, e6, H6, l9⟩ := freeAll_owned _ O5
    obtain ⟨h7, e7, H7, l10⟩ := free_owned H6
    have hclear : ydataClear a2 IN.2 = .ok h7 := by
      simp only [ydataClear, a2, a1, t6, Res.ok_bind, e6, e7]
    have hinv : LifeInv a2 h7 (k + lost a.tn ((loopsClear a.la).length + (loopsClear a.lb).length) c) := by
      refine ⟨H7, ?_⟩
      have hl2 : a2.held.length = 11 + c.na.length + c.nb.length := held1
      rw [hl2]
      unfold lost
      rw [if_neg f1]
      omega
    have t7 : Heap.touchAll ([a2.omega0, a2.omega1, a2.loopA, a2.loopB, a2.integrals] ++ a2.la.map LoopPtr.ptr ++ a2.lb.map LoopPtr.ptr) h7 = .ok () :=
      touchAll_owned H7 (by
        intro q hq
        rw [held2]
        simp only [List.mem_append, List.mem_cons, List.not_mem_nil, or_false, a2, a1, AjMem.base] at hq ⊢
        tauto)
    have t8 : Heap.touchAll [a2.tau, a2.omega0, a2.omega1] h7 = .ok () :=
      touchAll_owned H7 (by
        intro q hq
        rw [held2]
        simp only [List.mem_append, List.mem_cons, List.not_mem_nil, or_false, a2, a1, AjMem.base] at hq ⊢
        tauto)
    refine ⟨a2, h7, ?_, hinv, rfl, by simp only [a2, a1, cA, cB, lenA, lenB]⟩
    have t5' : Heap.touchAll (a2.integrals :: a2.edges :: a2.data :: a2.dataU) IN.2 = .ok () := t5
    simp only [ajCompute, t0, Res.ok_bind, ydataInit, hd, hu, hbasis, if_neg f1, hin]
    rw [show ({ a1 with integrals := IN.1 } : AjMem) = a2 from rfl, t5', Res.ok_bind, hclear, Res.ok_bind]
    split
    · rfl
    · rw [t7, Res.ok_bind]
      split
      · rfl
      · rw [t8, Res.ok_bind]

theorem calls_inv (g : Nat) : ∀ (cs : List Call) {a : AjMem} {h : Heap} {k : Nat}, LifeInv a h k →
    (∀ c ∈ cs, c.na.length = g ∧ c.nb.length = g ∧ (∀ n ∈ c.na, 0 < n) ∧ (∀ n ∈ c.nb, 0 < n)) →
    ∃ a' h', ajCalls cs a h = .ok (a', h') ∧ LifeInv a' h' (k + (cs.map (lost a.tn 0)).sum +
      (if cs = [] then 0 else (loopsClear a.la).length + (loopsClear a.lb).length) + 2 * g * (cs.length - 1))
  | [], a, h, k, I, _ => ⟨a, h, rfl, by simpa using I⟩
  | c :: cs, a, h, k, I, hc => by
    obtain ⟨n1, n2, p1, p2⟩ := hc c (by simp)
    obtain ⟨a1, h1, e1, I1, t1, l1⟩ := compute_inv I c p1 p2
    obtain ⟨a2, h2, e2, I2⟩ := calls_inv g cs I1 fun d hd => hc d (by simp [hd])
    refine ⟨a2, h2, ?_, ?_⟩
    · simp only [ajCalls, e1, Res.ok_bind, e2]
    · have e : k + ((c :: cs).map (lost a.tn 0)).sum + (if c :: cs = [] then 0 else (loopsClear a.la).length + (loopsClear a.lb).length) +
          2 * g * ((c :: cs).length - 1) = k + lost a.tn ((loopsClear a.la).length + (loopsClear a.lb).length) c + (cs.map (lost a1.tn 0)).sum +
          (if cs = [] then 0 else (loopsClear a1.la).length + (loopsClear a1.lb).length) + 2 * g * (cs.length - 1) := by
        rw [t1, l1, n1, n2, if_neg (List.cons_ne_nil _ _)]
        simp only [List.map_cons, List.sum_cons, lost, List.length_cons]
        cases cs with
        | nil => simp; omega
        | cons d ds =>
          rw [if_neg (List.cons_ne_nil _ _)]
          simp only [List.length_cons, Nat.add_sub_cancel]
          ring
      rw [e]
      exact I2

theorem clear_inv {a : AjMem} {h : Heap} {k : Nat} (I : LifeInv a h k) : ∃ h', ajClear a h = .ok h' ∧ h'.live.length = k := by
  obtain ⟨H, hl⟩ := I
  have O : Owned ([a.roots, a.integrals, a.omega0, a.omega1, a.tau, a.proj, a.edges] ++ (loopsClear a.la ++ (a.loopA :: (loopsClear a.lb ++
      (a.loopB :: ([a.pol, a.ni] ++ [])))))) h := by
    refine H.mono (List.perm_iff_count.2 fun x => ?_).subperm
    simp only [AjMem.held, AjMem.base, List.count_append, List.count_cons, List.count_nil]
    omega
  obtain ⟨h1, e1, O1, l1⟩ := freeAll_owned _ O
  obtain ⟨h2, e2, O2, l2⟩ := freeAll_owned _ O1
  obtain ⟨h3, e3, O3, l3⟩ := free_owned O2
  obtain ⟨h4, e4, O4, l4⟩ := freeAll_owned _ O3
  obtain ⟨h5, e5, O5, l5⟩ := free_owned O4
  obtain ⟨h6, e6, O6, l6⟩ := freeAll_owned _ O5
  have t1 : h1.touch a.loopA = .ok () := touch_owned O1 (by simp)
  have t2 : h3.touch a.loopB = .ok () := touch_owned O3 (by simp)
  refine ⟨h6, ?_, ?_⟩
  · simp only [ajClear, e1, e2, e3, e4, e5, e6, t1, t2, Res.ok_bind]
  · simp only [AjMem.held, AjMem.base, List.length_append, List.length_cons, List.length_nil] at *
    omega

/-- the calls are those of a curve of genus `g`: `g` loops of each kind, none of them empty -/
def CallsOk (g : Nat) (cs : List Call) : Prop :=
  ∀ c ∈ cs, c.na.length = g ∧ c.nb.length = g ∧ (∀ n ∈ c.na, 0 < n) ∧ (∀ n ∈ c.nb, 0 < n)

/-- **C36 (safety, and exact count of what remains).** For every genus, number of edges and every history `init; compute*; clear` with any flags, no
block is freed twice, no freed block is used, and the number of blocks left after `clear` is exactly: one per `compute`, plus one per edge for each
`compute` with `AJ_NO_INT`, plus `2 g` per `compute` after the first. -/
theorem C36_history (g tn : Nat) (cs : List Call) (hc : CallsOk g cs) :
    ∃ h, ajHistory g tn cs = .ok h ∧
      h.live.length = cs.length + tn * (cs.filter fun c => c.flag.testBit 3).length + 2 * g * (cs.length - 1) := by
  obtain ⟨I, t, l⟩ := init_inv g tn
  obtain ⟨a1, h1, e1, I1⟩ := calls_inv g cs I hc
  obtain ⟨h2, e2, l2⟩ := clear_inv I1
  refine ⟨h2, ?_, ?_⟩
  · unfold ajHistory
    simp only [e1, Res.ok_bind, e2]
  · rw [l2, t]
    rw [show (if cs = [] then 0 else (loopsClear (ajInit g tn ⟨1, []⟩).1.la).length + (loopsClear (ajInit g tn ⟨1, []⟩).1.lb).length) = 0 by
      split <;> omega]
    have : ∀ cs : List Call, (cs.map (lost tn 0)).sum = cs.length + tn * (cs.filter fun c => c.flag.testBit 3).length := by
      intro cs
      induction cs with
      | nil => simp
      | cons c cs ih =>
        rw [List.map_cons, List.sum_cons, ih, List.filter_cons]
        have key : (c.flag &&& ajNoInt ≠ 0) ↔ c.flag.testBit 3 = true := and_flag c.flag 3
        unfold lost
        by_cases hf : c.flag.testBit 3 = true
        · rw [if_pos (key.2 hf), if_pos hf]
          simp only [List.length_cons]
          ring
        · rw [if_neg (mt key.1 hf), if_neg hf]
          simp only [List.length_cons]
          ring
    rw [this]
    omega

/-- **C36 (negation).** Nothing remains allocated exactly when nothing was computed: every history with at least one `compute` leaks. -/
theorem C36_leak_fails (g tn : Nat) (cs : List Call) (hc : CallsOk g cs) :
    ∃ h, ajHistory g tn cs = .ok h ∧ (h.live = [] ↔ cs = []) := by
  obtain ⟨h, e, l⟩ := C36_history g tn cs hc
  refine ⟨h, e, ?_⟩
  rw [← List.length_eq_zero_iff, ← List.length_eq_zero_iff, l]
  constructor
  · intro h0
    have : cs.length ≤ cs.length + tn * (cs.filter fun c => c.flag.testBit 3).length + 2 * g * (cs.length - 1) := by
      rw [Nat.add_assoc]; exact Nat.le_add_right _ _
    omega
  · intro h0
    have : cs = [] := List.length_eq_zero_iff.1 h0
    subst this
    simp

/-- Instance of C36: genus 2, four edges, two computations of which the second stops after the tree: `1 + 1 + 4 + 4` blocks remain. -/
example : ∃ h, ajHistory 2 4 [⟨0, [1, 2], [3, 1]⟩, ⟨8, [1, 2], [3, 1]⟩] = .ok h ∧ h.live.length = 10 := by
  obtain ⟨h, e, l⟩ := C36_history 2 4 [⟨0, [1, 2], [3, 1]⟩, ⟨8, [1, 2], [3, 1]⟩] (by
    intro c hc
    simp only [List.mem_cons, List.not_mem_nil, or_false] at hc
    rcases hc with rfl | rfl <;> decide)
  exact ⟨h, e, l.trans (by decide)⟩

end Hcp
