/-!
# Outcome of running a piece of the program
-/

set_option autoImplicit false

namespace Leonard

/-- A run ends normally, terminates the program with an exit code, or leaves the defined behaviour of C++
(uninitialised value, access outside an object, division by zero). -/
inductive Outcome (α : Type) where
  | ok (a : α)
  | exit (code : Nat)
  | ub
deriving DecidableEq, Repr

/-- Sequencing. -/
def Outcome.bind {α β : Type} : Outcome α → (α → Outcome β) → Outcome β
  | .ok a, f => f a
  | .exit c, _ => .exit c
  | .ub, _ => .ub

instance : Monad Outcome where
  pure := Outcome.ok
  bind := Outcome.bind

@[simp] theorem Outcome.bind_ok {α β : Type} (a : α) (f : α → Outcome β) : (Outcome.ok a >>= f) = f a := rfl
@[simp] theorem Outcome.bind_exit {α β : Type} (c : Nat) (f : α → Outcome β) : (Outcome.exit c >>= f) = Outcome.exit c := rfl
@[simp] theorem Outcome.bind_ub {α β : Type} (f : α → Outcome β) : ((Outcome.ub : Outcome α) >>= f) = Outcome.ub := rfl
@[simp] theorem Outcome.pure_eq {α : Type} (a : α) : (pure a : Outcome α) = Outcome.ok a := rfl

instance : LawfulMonad Outcome := LawfulMonad.mk'
  (id_map := by intro α x; cases x <;> rfl)
  (pure_bind := by intros; rfl)
  (bind_assoc := by intro α β γ x f g; cases x <;> rfl)

end Leonard
