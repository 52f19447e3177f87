import Verif.Float.Class
import Verif.Rng.Model

/-!
# What the two MCA backends share

`interflop_mca.c` (mcaquad) and `interflop_mca_int.c` (mcaint) have the same modes, the
same decision macros and the same operation macros; they differ in the perturbation of
one value, a parameter here.  The random generator is an arbitrary supply of 64-bit
words; the concrete one is `Verif.Rng`.
-/

namespace Verif.Mca
open Verif Verif.Fp

/-- `mcaquad_mode` (interflop_mca.h:41-47), `mcaint_mode` (interflop_mca_int.h:35-41). -/
inductive Mode | ieee | mca | pb | rr
deriving DecidableEq, Repr

/-- `mcaquad_context_t` (interflop_mca.h:58-70), `mcaint_context_t`.  The sparsity is a
finite `float`, kept as its value; the seed is part of the generator. -/
structure Ctx where
  mode : Mode
  prec32 : Int
  prec64 : Int
  relErr : Bool
  absErr : Bool
  absErrExp : Int
  daz : Bool
  ftz : Bool
  sparsity : ℚ

/-- Defaults: interflop_mca.h:22-34, interflop_mca_int.h:21-33. -/
def init : Ctx :=
  { mode := .mca, prec32 := 24, prec64 := 53, relErr := true, absErr := false,
    absErrExp := 112, daz := false, ftz := false, sparsity := 1 }

/-- `_set_precision` (options.h:47-65): too small exits, too large only warns. -/
def setPrec32 (p : Int) (c : Ctx) : Outcome Ctx :=
  if p < 1 then .exit else .ok { c with prec32 := p }
def setPrec64 (p : Int) (c : Ctx) : Outcome Ctx :=
  if p < 1 then .exit else .ok { c with prec64 := p }

/-- A supply of random words. -/
structure Gen (σ : Type) where
  next : σ → BitVec 64 × σ

/-- `get_rand_double01` as a rational (`Verif.Rng.toDouble_spec`). -/
def rand01 (w : BitVec 64) : ℚ := (Rng.toDouble w).val b64

/-- `_IS_REPRESENTABLE` (float_utils.h:181-187) dispatches on the type. -/
def isReprT (F : Fmt) (x : Bits) (vp : Nat) : Bool :=
  if F = b128 then isRepr128 x vp else isRepr F x vp

/-- `_MUST_NOT_BE_NOISED`: interflop_mca.c:306-313, interflop_mca_int.c:280-287. -/
def mustNotBeNoised (F : Fmt) (mode : Mode) (vp : Int) (x : Bits) : Bool :=
  mode = .ieee || (classify F x ≠ .normal && classify F x ≠ .subnormal) ||
    (mode = .rr && isReprT F x vp.toNat)

/-- `_mca_skip_eval` (options.h:73-81). -/
def skipEval {σ : Type} (g : Gen σ) (sparsity : ℚ) (s : σ) : Bool × σ :=
  if 1 ≤ sparsity then (false, s)
  else (decide (sparsity < rand01 (g.next s).1), (g.next s).2)

/-- The perturbation of one value, with what precedes it in `_INEXACT`
(interflop_mca.c:339-351, interflop_mca_int.c:296-306). -/
def inexact {σ : Type} (noise : Fmt → Ctx → Int → σ → Bits → Outcome (Bits × σ)) (g : Gen σ)
    (F : Fmt) (c : Ctx) (vp : Int) (s : σ) (x : Bits) : Outcome (Bits × σ) :=
  if mustNotBeNoised F c.mode vp x then .ok (x, s)
  else
    let (skip, s) := skipEval g c.sparsity s
    if skip then .ok (x, s) else noise F c vp s x

/-- The type of an operation: `float` computes in `double` with the binary32 precision,
`double` computes in `_Float128` with the binary64 precision. -/
inductive Ty | f32 | f64
deriving DecidableEq, Repr

def Ty.fmt : Ty → Fmt
  | .f32 => b32
  | .f64 => b64

def Ty.wide : Ty → Fmt
  | .f32 => b64
  | .f64 => b128

def Ctx.prec (c : Ctx) : Ty → Int
  | .f32 => c.prec32
  | .f64 => c.prec64

/-- Perturbation of a list of operands, from left to right. -/
def noiseList {σ : Type} (f : σ → Bits → Outcome (Bits × σ)) : σ → List Bits → Outcome (List Bits × σ)
  | s, [] => .ok ([], s)
  | s, x :: xs =>
    f s x >>= fun (y, s) =>
    noiseList f s xs >>= fun (ys, s) => .ok (y :: ys, s)

/-- `_MCAQUAD_UNARY_OP`, `_MCAQUAD_BINARY_OP`, `_MCAQUAD_TERNARY_OP`
(interflop_mca.c:444-527) and their mcaint copies (interflop_mca_int.c:387-460): one
text on one, two and three operands.  `inex` perturbs a wide value, `f` is the
operation in the wide type. -/
def opN {σ : Type} (T : Ty) (inex : σ → Bits → Outcome (Bits × σ)) (f : List Bits → Bits) (c : Ctx)
    (s : σ) (args : List Bits) : Outcome (Bits × σ) :=
  let args := if c.daz then args.map (Fp.daz T.fmt) else args
  let args := args.map (fconv T.fmt T.wide)
  (if c.mode = .pb ∨ c.mode = .mca then noiseList inex s args else .ok (args, s)) >>=
  fun (args, s) =>
  let res := f args
  (if c.mode = .rr ∨ c.mode = .mca then inex s res else .ok (res, s)) >>=
  fun (res, s) =>
  let res := if c.ftz then fconv T.fmt T.wide (Fp.daz T.fmt (fconv T.wide T.fmt res)) else res
  .ok (fconv T.wide T.fmt res, s)

/-- `cast_double_to_float` (interflop_mca.c:643-646, interflop_mca_int.c:573-576): the
unary operation of type `double`, whose operation is the conversion to `float`, then a
conversion to `float`. -/
def castOp {σ : Type} (inex : σ → Bits → Outcome (Bits × σ)) (c : Ctx) (s : σ) (a : Bits) :
    Outcome (Bits × σ) :=
  opN .f64 inex (fun l => fconv b32 b128 (fconv b128 b32 (l.headD (zeroBits false)))) c s [a] >>=
  fun (r, s) => .ok (fconv b64 b32 r, s)

/-! ## The integer noise -/

/-- The word as a signed integer (`s64`, `i128`). -/
def signedWord (F : Fmt) (x : Bits) : Int :=
  (x.pat F : Int) - (if x.sign then (2 : Int) ^ (F.ew + F.mw) else 0)

/-- `noise >>= shift` on a signed `w`-bit integer; an out-of-range count is undefined
behaviour (`strict`) or taken modulo the width (`wrap`). -/
def sar (sem : ShiftSem) (w : Nat) (n : Int) (shift : Nat) : Outcome Int :=
  if shift < w then .ok (n / 2 ^ shift)
  else match sem with
    | .strict => .ub
    | .wrap => .ok (n / 2 ^ (shift % w))

/-- Signed addition of `w`-bit integers; overflow is undefined behaviour (`strict`) or
wraps. -/
def sadd (sem : ShiftSem) (w : Nat) (a b : Int) : Outcome Nat :=
  if -(2 : Int) ^ (w - 1) ≤ a + b ∧ a + b < (2 : Int) ^ (w - 1) ∨ sem = .wrap then
    .ok ((a + b) % 2 ^ w).toNat
  else .ub

/-- `_noise_binary64` (interflop_mca_int.c:230-248) and `_noise_binary128` (256-277) for
a given random word.  In the quad case the word is the high half of the noise, the low
half being zero.  `shift` is `1 + EXP_SIZE - exp` with `exp = -(vp - 1)` (306). -/
def intNoise (sem : ShiftSem) (F : Fmt) (vp : Int) (w : BitVec 64) (x : Bits) : Outcome Bits := do
  let exp := -(vp - 1)
  let shift := (1 + (F.ew : Int) - exp).toNat
  let noise ← sar sem F.width (w.toInt * 2 ^ (F.width - 64)) shift
  let u ← sadd sem F.width (signedWord F x) noise
  return ofWord F u

/-- The tail of mcaint's `_INEXACT` (interflop_mca_int.c:306-308).  The error modes are
not consulted. -/
def intPerturb {σ : Type} (sem : ShiftSem) (g : Gen σ) (F : Fmt) (_ : Ctx) (vp : Int) (s : σ) (x : Bits) :
    Outcome (Bits × σ) :=
  intNoise sem F vp (g.next s).1 x >>= fun y => .ok (y, (g.next s).2)

def intInexact {σ : Type} (sem : ShiftSem) (g : Gen σ) (T : Ty) (c : Ctx) : σ → Bits → Outcome (Bits × σ) :=
  inexact (intPerturb sem g) g T.wide c (c.prec T)

/-! ## The floating-point noise -/

/-- `_noise_binary64` (interflop_mca.c:275-280) and `_noise_binary128` (288-295) for a
given random word: the draw minus one half, with `e` added to the exponent field, a
bit-field that wraps. -/
def quadNoise (F : Fmt) (e : Int) (w : BitVec 64) : Bits :=
  let r := if F = b64 then fadd b64 (Rng.toDouble w) ⟨true, 1022, 0⟩
    else fadd F (fconv b64 F (Rng.toDouble w)) ⟨true, F.bias - 1, 0⟩
  { r with exp := (((r.exp : Int) + e) % 2 ^ F.ew).toNat }

/-- The tail of mcaquad's `_INEXACT` (interflop_mca.c:350-361). -/
def quadPerturb {σ : Type} (g : Gen σ) (F : Fmt) (c : Ctx) (vp : Int) (s : σ) (x : Bits) :
    Outcome (Bits × σ) :=
  let (x, s) := if c.relErr then
      (fadd F x (quadNoise F (getExp F x - (vp - 1)) (g.next s).1), (g.next s).2)
    else (x, s)
  if c.absErr then .ok (fadd F x (quadNoise F c.absErrExp (g.next s).1), (g.next s).2)
  else .ok (x, s)

def quadInexact {σ : Type} (g : Gen σ) (T : Ty) (c : Ctx) : σ → Bits → Outcome (Bits × σ) :=
  inexact (quadPerturb g) g T.wide c (c.prec T)

end Verif.Mca
