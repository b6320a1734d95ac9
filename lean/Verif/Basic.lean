/-!
# Outcomes of C code and checked machine arithmetic

Everything in the model lives in namespace `Hcp`.
-/

namespace Hcp

/-- Outcome of a C function.  `abort` is a call to `abort()`/`flint_abort`
(documented failure), `ub` is undefined behaviour of the C abstract machine,
`diverge` is "the fuel given to an unbounded loop was not enough". -/
inductive Res (α : Type) where
  | ok (a : α)
  | abort (why : String)
  | ub (why : String)
  | diverge
  deriving DecidableEq, Repr

namespace Res

/-- Sequencing: any outcome other than `ok` stops the program. -/
def bind {α β : Type} (x : Res α) (f : α → Res β) : Res β :=
  match x with
  | ok a => f a
  | abort w => abort w
  | ub w => ub w
  | diverge => diverge

instance : Monad Res where
  pure := ok
  bind := bind

@[simp] theorem pure_eq {α : Type} (a : α) : (pure a : Res α) = ok a := rfl
@[simp] theorem ok_bind {α β : Type} (a : α) (f : α → Res β) : (ok a >>= f) = f a := rfl
@[simp] theorem abort_bind {α β : Type} (w : String) (f : α → Res β) :
    ((abort w : Res α) >>= f) = abort w := rfl
@[simp] theorem ub_bind {α β : Type} (w : String) (f : α → Res β) :
    ((ub w : Res α) >>= f) = ub w := rfl
@[simp] theorem diverge_bind {α β : Type} (f : α → Res β) :
    ((diverge : Res α) >>= f) = diverge := rfl

instance : LawfulMonad Res := LawfulMonad.mk'
  (id_map := by intro α x; cases x <;> rfl)
  (pure_bind := by intros; rfl)
  (bind_assoc := by intro α β γ x f g; cases x <;> rfl)

/-- The outcome is a normal return. -/
def isOk {α : Type} : Res α → Prop
  | ok _ => True
  | _ => False

/-- The outcome is undefined behaviour. -/
def isUb {α : Type} : Res α → Prop
  | ub _ => True
  | _ => False

/-- The outcome is a documented abort. -/
def isAbort {α : Type} : Res α → Prop
  | abort _ => True
  | _ => False

instance {α : Type} (x : Res α) : Decidable x.isOk := by
  cases x <;> unfold isOk <;> infer_instance
instance {α : Type} (x : Res α) : Decidable x.isUb := by
  cases x <;> unfold isUb <;> infer_instance
instance {α : Type} (x : Res α) : Decidable x.isAbort := by
  cases x <;> unfold isAbort <;> infer_instance

theorem bind_eq_ok {α β : Type} {x : Res α} {f : α → Res β} {b : β} :
    (x >>= f) = ok b ↔ ∃ a, x = ok a ∧ f a = ok b := by
  cases x <;> simp

end Res

/-- Smallest `slong` (64-bit). -/
def slongMin : Int := -(2 ^ 63)
/-- Largest `slong` (64-bit). -/
def slongMax : Int := 2 ^ 63 - 1

/-- The value is representable as an `slong`. -/
def FitsSlong (x : Int) : Prop := slongMin ≤ x ∧ x ≤ slongMax

instance (x : Int) : Decidable (FitsSlong x) := inferInstanceAs (Decidable (_ ∧ _))

/-- Result of a signed operation: undefined behaviour on overflow. -/
def chk (x : Int) : Res Int :=
  if FitsSlong x then .ok x else .ub "signed overflow"

theorem chk_ok {x : Int} (h : FitsSlong x) : chk x = .ok x := if_pos h

/-- C division `x / y` on `slong` (truncated; division by zero is undefined). -/
def cdiv (x y : Int) : Res Int :=
  if y = 0 then .ub "division by zero" else chk (Int.tdiv x y)

theorem cdiv_ok {x y : Int} (hy : y ≠ 0) (h : FitsSlong (Int.tdiv x y)) :
    cdiv x y = .ok (Int.tdiv x y) := by
  simp [cdiv, hy, chk_ok h]

/-- Conversion `slong → ulong` (reduction modulo 2^64). -/
def toUlong (x : Int) : Nat := (x % (2 ^ 64 : Int)).toNat

end Hcp
