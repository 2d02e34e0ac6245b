/-
Outcomes of a C operation.  `ok` is normal return; the other constructors are kept apart so that a
theorem claiming `ok` also claims the absence of undefined behaviour, of `abort()` and of divergence.
-/
namespace Buzz

/-- Outcome of running a piece of C code. -/
inductive Res (α : Type) where
  /-- normal return -/
  | ok (a : α)
  /-- undefined behaviour (out-of-bounds access, use of an uninitialised slot, signed overflow, ...) -/
  | ub
  /-- the code calls `abort()` or `exit()` -/
  | abort
  /-- the code loops forever -/
  | hang
  deriving Repr, DecidableEq

namespace Res

@[simp] def bind {α β : Type} (x : Res α) (f : α → Res β) : Res β :=
  match x with
  | ok a => f a
  | ub => ub
  | abort => abort
  | hang => hang

instance : Monad Res where
  pure := ok
  bind := bind

@[simp] theorem pure_eq {α : Type} (a : α) : (pure a : Res α) = ok a := rfl
@[simp] theorem ok_bind {α β : Type} (a : α) (f : α → Res β) : (ok a >>= f) = f a := rfl
@[simp] theorem ub_bind {α β : Type} (f : α → Res β) : ((ub : Res α) >>= f) = ub := rfl
@[simp] theorem abort_bind {α β : Type} (f : α → Res β) : ((abort : Res α) >>= f) = abort := rfl
@[simp] theorem hang_bind {α β : Type} (f : α → Res β) : ((hang : Res α) >>= f) = hang := rfl

theorem bind_eq_ok {α β : Type} {x : Res α} {f : α → Res β} {b : β} :
    (x >>= f) = ok b ↔ ∃ a, x = ok a ∧ f a = ok b := by
  cases x <;> simp

/-- The outcome is a normal return. -/
def isOk {α : Type} : Res α → Bool
  | ok _ => true
  | _ => false

end Res

/-- `2^32`, the modulus of `uint32_t`. -/
abbrev U32 : Nat := 4294967296
/-- `2^16`, the modulus of `uint16_t`. -/
abbrev U16 : Nat := 65536

end Buzz
