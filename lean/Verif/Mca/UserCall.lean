import Verif.Mca.Common

/-!
# `interflop_call` with `INTERFLOP_INEXACT_ID`

The program asks the backends to perturb one value in memory.  Only mcaquad does it
(interflop_mca.c:648-700); vprec has a user call that only warns, the others have none.
-/

namespace Verif.Mca
open Verif Verif.Fp

/-- `enum FTYPES` (interflop.h:48-56); the pointer types and other integers are `other`. -/
inductive FTy | float | double | quad | other
deriving DecidableEq, Repr

/-- Arithmetic in `int`: overflow is undefined. -/
def i32 (n : Int) : Outcome Int := if -2 ^ 31 ≤ n ∧ n < 2 ^ 31 then .ok n else .ub

/-- `_FAST_INEXACT` (interflop_mca.c:323-335) with `_noise_binary64` (275-280) and
`_noise_binary128` (288-295).  `none`: the macro returns from the calling function, which then
stores nothing.  The addition of `exp` to the exponent field is an `int` one, cut to the width of
the field (`quadNoise`). -/
def fastInexact {σ : Type} (g : Gen σ) (F : Fmt) (c : Ctx) (vp : Int) (s : σ) (x : Bits) :
    Outcome (Option Bits × σ) :=
  if c.mode = .ieee || (classify F x ≠ .normal && classify F x ≠ .subnormal) then .ok (none, s)
  else
    i32 (vp - 1) >>= fun v =>
    i32 (getExp F x - v) >>= fun e =>
    .ok (some (fadd F x (quadNoise F e (g.next s).1)), (g.next s).2)

/-- The precision asked for (interflop_mca.c:662, 668). -/
def callPrec (prec asked : Int) : Outcome Int := if asked ≤ 0 then i32 (prec + asked) else .ok asked

/-- A perturbation in the wide type, stored back in the narrow one. -/
def inexactVia {σ : Type} (g : Gen σ) (T : Ty) (c : Ctx) (asked : Int) (s : σ) (v : Bits) : Outcome (Bits × σ) :=
  callPrec (c.prec T) asked >>= fun t =>
  fastInexact g T.wide c t s (fconv T.fmt T.wide v) >>= fun (r, s) =>
  .ok ((match r with | some y => fconv T.wide T.fmt y | none => v), s)

/-- `_interflop_usercall_inexact` (interflop_mca.c:648-682) on the value `v` found at the address
given.  The precision is used as it is for `FQUAD` (674). -/
def userInexact {σ : Type} (g : Gen σ) (c : Ctx) (s : σ) (ty : FTy) (asked : Int) (v : Bits) : Outcome (Bits × σ) :=
  match ty with
  | .float => inexactVia g .f32 c asked s v
  | .double => inexactVia g .f64 c asked s v
  | .quad =>
    fastInexact g b128 c asked s v >>= fun (r, s) =>
    .ok ((match r with | some y => y | none => v), s)
  | .other => .ok (v, s)

/-- A loaded backend as `interflop_call` sees it for this request: mcaquad with its context and
its generator, or one that does nothing with it (vprec warns: interflop_vprec.c:787-789; the
others have no user call). -/
inductive Loaded (σ : Type) where
  | mcaquad (c : Ctx) (s : σ)
  | idle

/-- `interflop_call` (vfcwrapper/main.c.in:589-598): the arguments are read afresh for every
backend, the value is shared. -/
def interflopCall {σ : Type} (g : Gen σ) (ty : FTy) (asked : Int) : List (Loaded σ) → Bits →
    Outcome (Bits × List (Loaded σ))
  | [], v => .ok (v, [])
  | .idle :: bs, v =>
    interflopCall g ty asked bs v >>= fun (v, bs) => .ok (v, .idle :: bs)
  | .mcaquad c s :: bs, v =>
    userInexact g c s ty asked v >>= fun (v, s) =>
    interflopCall g ty asked bs v >>= fun (v, bs) => .ok (v, .mcaquad c s :: bs)

end Verif.Mca
