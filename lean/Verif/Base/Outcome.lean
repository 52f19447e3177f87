/-!
# Outcomes of C code

`ok a`  : the code runs to completion and yields `a`;
`exit`  : the code calls `logger_error`, which prints and terminates the process
          (`src/interflop-stdlib/iostream/logger.c:252-263`);
`ub`    : the code performs an operation whose behaviour is undefined in C
          (shift count out of range, out-of-bounds access, read of an
          uninitialised object, ...).
-/

namespace Verif

/-- Result of running a piece of C code. -/
inductive Outcome (α : Type) where
  | ok (a : α)
  | exit
  | ub
deriving DecidableEq, Repr

namespace Outcome

variable {α β γ : Type}

/-- Sequential composition. -/
def bind (x : Outcome α) (f : α → Outcome β) : Outcome β :=
  match x with
  | ok a => f a
  | exit => exit
  | ub => ub

instance : Monad Outcome where
  pure := ok
  bind := bind

@[simp] theorem bind_ok (a : α) (f : α → Outcome β) : (ok a >>= f) = f a := rfl
@[simp] theorem bind_ub (f : α → Outcome β) : ((ub : Outcome α) >>= f) = ub := rfl
@[simp] theorem bind_exit (f : α → Outcome β) : ((exit : Outcome α) >>= f) = exit := rfl
@[simp] theorem pure_eq (a : α) : (pure a : Outcome α) = ok a := rfl

/-- No undefined behaviour. -/
def Defined : Outcome α → Prop
  | ub => False
  | _ => True

end Outcome

/-- How an out-of-range shift count is treated. -/
inductive ShiftSem where
  /-- ISO C: undefined behaviour. -/
  | strict
  /-- What x86-64 and AArch64 shift instructions do: count taken modulo the width. -/
  | wrap
deriving DecidableEq, Repr

/-- `(uintW_t)x << s` for a `w`-bit unsigned operand and an `int` count `s`. -/
def cShl (sem : ShiftSem) (w : Nat) (x : Nat) (s : Int) : Outcome Nat :=
  if 0 ≤ s ∧ s < w then .ok (x * 2 ^ s.toNat % 2 ^ w)
  else match sem with
    | .strict => .ub
    | .wrap => .ok (x * 2 ^ (s % w).toNat % 2 ^ w)

/-- `(uintW_t)x >> s`. -/
def cShr (sem : ShiftSem) (w : Nat) (x : Nat) (s : Int) : Outcome Nat :=
  if 0 ≤ s ∧ s < w then .ok (x / 2 ^ s.toNat)
  else match sem with
    | .strict => .ub
    | .wrap => .ok (x / 2 ^ (s % w).toNat)

end Verif
