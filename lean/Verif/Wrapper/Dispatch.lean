import Verif.Base.Outcome

/-!
# Dispatch of the operations of the program to the backends

/repo/src/vfcwrapper/main.c.in:216-232 and 590-741.  Operands and results are bit patterns
(64 bits are enough for both types, the predicate of a comparison is an operand).  The
state `σ` is everything a backend can read or write: the contexts, thread-local generators,
files.  Contexts are the pointers `contexts[i]`.  A backend is an arbitrary function.
-/

namespace Verif.Wrapper
open Verif

inductive Prec
  | float | double
deriving DecidableEq, Repr

inductive Arith
  | add | sub | mul | div
deriving DecidableEq, Repr

/-- Entries of `struct interflop_backend_interface_t`. -/
inductive OpId
  | arith (o : Arith) (p : Prec)
  | cmp (p : Prec)
  | fma (p : Prec)
  | cast
deriving DecidableEq, Repr

variable {σ κ : Type}

/-- An entry point: operands, contents of the result variable (`none`: not initialised),
context, state. -/
abbrev Impl (σ κ : Type) := List (BitVec 64) → Option (BitVec 64) → κ → σ → Option (BitVec 64) × σ

/-- `struct interflop_backend_interface_t`; a null pointer is `none`. -/
abbrev Backend (σ κ : Type) := OpId → Option (Impl σ κ)

/-- The loop `for (i = 0; i < loaded_backends; i++)` of every wrapper, :604-609, 624-628, 634-638,
721-725, 734-738; `loaded_backends` is at most 16, the counter does not wrap. -/
def callFrom (ctx : Nat → κ) (o : OpId) (x : List (BitVec 64)) :
    Nat → List (Backend σ κ) → Option (BitVec 64) × σ → Option (BitVec 64) × σ
  | _, [], cs => cs
  | i, b :: bs, cs =>
    match b o with
    | some f => callFrom ctx o x (i + 1) bs (f x cs.1 (ctx i) cs.2)
    | none => callFrom ctx o x (i + 1) bs cs

/-- Quiet NaN of each type, the initial value of the result of arithmetic operations and fma,
:602, :719. -/
def nan : Prec → BitVec 64
  | .float => 0x7fc00000#64
  | .double => 0x7ff8000000000000#64

/-- Initial contents of the result variable: NaN for arithmetic and fma, indeterminate for
comparisons and casts (:623, :633, :733). -/
def initial : OpId → Option (BitVec 64)
  | .arith _ p => some (nan p)
  | .fma p => some (nan p)
  | .cmp _ => none
  | .cast => none

/-- A scalar wrapper without delta-debug filter, :600-640, 717-741. -/
def scalar (bs : List (Backend σ κ)) (ctx : Nat → κ) (o : OpId) (x : List (BitVec 64)) (s : σ) : Option (BitVec 64) × σ :=
  callFrom ctx o x 0 bs (initial o, s)

/-- `check_backends_implements`, :219-232. -/
def implemented (bs : List (Backend σ κ)) (o : OpId) : Bool := bs.any fun b => (b o).isSome

/-- Compile-time options of the wrapper. -/
structure Flags where
  fcmp : Bool
  fma : Bool
  cast : Bool
deriving DecidableEq, Repr

/-- The operations checked at start-up, :514-533, in order. -/
def required (fl : Flags) : List OpId :=
  [.arith .add .float, .arith .sub .float, .arith .mul .float, .arith .div .float,
   .arith .add .double, .arith .sub .double, .arith .mul .double, .arith .div .double] ++
  (if fl.fcmp then [.cmp .float, .cmp .double] else []) ++
  (if fl.fma then [.fma .float, .fma .double] else []) ++
  (if fl.cast then [.cast] else [])

/-- The operations the compiler emits calls for under the same options: arithmetic always
(scalar fallback of fma is part of arithmetic), the rest as instrumented. -/
def emitted (fl : Flags) : OpId → Bool
  | .arith _ _ => true
  | .cmp _ => fl.fcmp
  | .fma _ => fl.fma
  | .cast => fl.cast

/-- The checks of `vfc_init`. -/
def checkAll (fl : Flags) (bs : List (Backend σ κ)) : Outcome Unit :=
  if (required fl).all (implemented bs) then .ok () else .exit

/-! ## Vectors -/

/-- The loop of a vector wrapper of `n` lanes, :643-653 and 695-704: `f` is the scalar wrapper.
Lanes `i ..` are computed in this order; the result is the list of lanes. -/
def lanes {α γ : Type} (f : α → α → σ → γ × σ) (a b : Nat → α) : Nat → Nat → σ → List γ × σ
  | 0, _, s => ([], s)
  | k + 1, i, s => let r := f (a i) (b i) s
    let rest := lanes f a b k (i + 1) r.2
    (r.1 :: rest.1, rest.2)

/-- `_<n>x<type><op>`. -/
def vector {α γ : Type} (f : α → α → σ → γ × σ) (n : Nat) (a b : Nat → α) (s : σ) : List γ × σ := lanes f a b n 0 s

end Verif.Wrapper
