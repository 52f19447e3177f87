import Verif.Float.Class

/-!
# The bitmask backend

/repo/src/backends/interflop-backend-bitmask/interflop_bitmask.c.

The hardware operations are arbitrary functions, except the conversion
`double -> float`; the random generator is an arbitrary supply of 64-bit words (the
concrete one is `Verif.Rng`).  Logging is left out.
-/

namespace Verif.Bitmask
open Verif Verif.Fp

/-- interflop_bitmask.h:33-40. -/
inductive Mode | ieee | full | ib | ob
deriving DecidableEq, Repr

/-- interflop_bitmask.h:42-48. -/
inductive Operator | zero | one | rand
deriving DecidableEq, Repr

/-- `bitmask_context_t` and the two static masks (interflop_bitmask.c:110-111). -/
structure Ctx where
  mode : Mode
  op : Operator
  prec32 : Int
  prec64 : Int
  daz : Bool
  ftz : Bool
  mask32 : Nat
  mask64 : Nat
deriving DecidableEq, Repr

/-- `FLOAT_MASK_ONE`, `DOUBLE_MASK_ONE` (float_const.h:88, 121). -/
def maskOne (F : Fmt) : Nat := 2 ^ F.width - 1

/-- `_bitmask_init_context` (interflop_bitmask.c:657-666, defaults of
interflop_bitmask.h:21-31) and the initialisers of the static masks (110-111). -/
def init : Ctx :=
  { mode := .ob, op := .zero, prec32 := 23, prec64 := 52, daz := false, ftz := false,
    mask32 := maskOne b32, mask64 := maskOne b64 }

/-- `_set_bitmask_precision` (146-154); `GET_PREC` is the mantissa width plus one. -/
def maskOf (F : Fmt) (p : Int) : Outcome Nat :=
  if p ≤ (F.mw + 1 : Nat) then cShl .strict F.width (maskOne F) ((F.mw + 1 : Nat) - p)
  else .ok (maskOne F)

/-- `_set_bitmask_precision_binary32` (156-162) with `_set_precision`
(options.h:47-65): below the minimum the process exits, above the maximum it only
warns. -/
def setPrec32 (p : Int) (c : Ctx) : Outcome Ctx :=
  if p < 1 then .exit
  else do
    let m ← maskOf b32 p
    return { c with prec32 := p, mask32 := m }

/-- `_set_bitmask_precision_binary64` (164-170). -/
def setPrec64 (p : Int) (c : Ctx) : Outcome Ctx :=
  if p < 1 then .exit
  else do
    let m ← maskOf b64 p
    return { c with prec64 := p, mask64 := m }

/-- Command line options, `parse_opt` (544-640).  A malformed or non-positive number
exits; the seed is left out. -/
inductive Opt
  | prec32 (v : Option Int)
  | prec64 (v : Option Int)
  | mode (m : Option Mode)
  | operator (o : Option Operator)
  | daz
  | ftz
deriving DecidableEq, Repr

def parseOpt (c : Ctx) : Opt → Outcome Ctx
  | .prec32 v => match v with
    | none => .exit
    | some p => if p ≤ 0 then .exit else setPrec32 p c
  | .prec64 v => match v with
    | none => .exit
    | some p => if p ≤ 0 then .exit else setPrec64 p c
  | .mode m => match m with
    | none => .exit
    | some m => .ok { c with mode := m }
  | .operator o => match o with
    | none => .exit
    | some o => .ok { c with op := o }
  | .daz => .ok { c with daz := true }
  | .ftz => .ok { c with ftz := true }

/-- `pre_init` followed by `cli` (668-692). -/
def cli : List Opt → Ctx → Outcome Ctx
  | [], c => .ok c
  | o :: os, c => parseOpt c o >>= cli os

/-- `_MUST_NOT_BE_NOISED` (284-291). -/
def mustNotBeNoised (F : Fmt) (mode : Mode) (t : Int) (x : Bits) : Bool :=
  mode = .ieee || (classify F x ≠ .normal && classify F x ≠ .subnormal) ||
    (mode = .ob && isRepr F x t.toNat)

/-- The mask used by `_INEXACT` (293-313): the static mask, widened for subnormals.
`CLZ2` is applied to the mantissa seen as a word of the full width. -/
def effMask (F : Fmt) (mask : Nat) (t : Int) (x : Bits) : Outcome Nat :=
  if classify F x = .subnormal then
    let leading0 := (F.width - 1 - Nat.log2 x.man) - (1 + F.ew)
    if F.mw < leading0 + t.toNat then .ok (maskOne F)
    else do
      let m ← cShl .strict F.width (maskOne F) ((F.mw : Int) - (leading0 + t.toNat : Nat))
      return mask ||| m
  else .ok mask

/-- The three operators (314-325); `~` is the complement in the width of the type. -/
def applyOp (F : Fmt) (op : Operator) (mask rnd : Nat) (x : Bits) : Bits :=
  match op with
  | .rand => { x with man := (x.man ^^^ ((maskOne F ^^^ mask) &&& rnd)) % 2 ^ F.mw }
  | .one => ofWord F (word F x ||| (maskOne F ^^^ mask))
  | .zero => ofWord F (word F x &&& mask)

/-- `_inexact_binary32` (328-335), `_inexact_binary64` (337-344) for a given random
word. -/
def inexact (F : Fmt) (mode : Mode) (op : Operator) (t : Int) (mask rnd : Nat) (x : Bits) :
    Outcome Bits :=
  if mustNotBeNoised F mode t x then .ok x
  else do
    let m ← effMask F mask t x
    return applyOp F op m rnd x

/-! ## Operations -/

/-- Precision and static mask of a type: `GET_BINARYN_T` (92-93), `GET_BITMASK` (113-118). -/
inductive Ty | f32 | f64
deriving DecidableEq, Repr

def Ty.fmt : Ty → Fmt
  | .f32 => b32
  | .f64 => b64

def Ctx.prec (c : Ctx) : Ty → Int
  | .f32 => c.prec32
  | .f64 => c.prec64

def Ctx.mask (c : Ctx) : Ty → Nat
  | .f32 => c.mask32
  | .f64 => c.mask64

/-- A supply of random words. -/
structure Gen (σ : Type) where
  next : σ → BitVec 64 × σ

/-- `_INEXACT_BINARYN` with the generator: only the operator `rand` draws, and only for
values that are modified; `float` uses the first half of the word
(`get_random_binary32_mask`, 213-218: the low 32 bits on little-endian machines). -/
def inexactG {σ : Type} (g : Gen σ) (T : Ty) (c : Ctx) (s : σ) (x : Bits) : Outcome (Bits × σ) :=
  if mustNotBeNoised T.fmt c.mode (c.prec T) x then .ok (x, s)
  else
    let (w, s') := if c.op = .rand then g.next s else (0, s)
    inexact T.fmt c.mode c.op (c.prec T) (c.mask T) (w.toNat % 2 ^ T.fmt.width) x >>= fun y =>
      .ok (y, s')

/-- Inbound perturbation of a list of operands. -/
def noiseList {σ : Type} (g : Gen σ) (T : Ty) (c : Ctx) : σ → List Bits → Outcome (List Bits × σ)
  | s, [] => .ok ([], s)
  | s, x :: xs =>
    inexactG g T c s x >>= fun (y, s) =>
    noiseList g T c s xs >>= fun (ys, s) => .ok (y :: ys, s)

/-- `_BITMASK_BINARY_OP` (371-393) and `_BITMASK_TERNARY_OP` (395-420): the same text on
two and three operands; `f` is the hardware operation. -/
def opN {σ : Type} (g : Gen σ) (T : Ty) (f : List Bits → Bits) (c : Ctx) (s : σ) (args : List Bits) :
    Outcome (Bits × σ) :=
  let args := if c.daz then args.map (Fp.daz T.fmt) else args
  (if c.mode = .ib ∨ c.mode = .full then noiseList g T c s args else .ok (args, s)) >>=
  fun (args, s) =>
  let res := f args
  (if c.mode = .ob ∨ c.mode = .full then inexactG g T c s res else .ok (res, s)) >>=
  fun (res, s) => .ok (if c.ftz then Fp.daz T.fmt res else res, s)

/-- `cast_double_to_float` (515-518) through `_BITMASK_UNARY_OP` (349-369) on `double`:
`RES = (float)A` is stored in a `double`, perturbed with the `double` settings and
converted to `float` at the end. -/
def castOp {σ : Type} (g : Gen σ) (c : Ctx) (s : σ) (a : Bits) : Outcome (Bits × σ) :=
  opN g .f64 (fun l => fconv b32 b64 (fconv b64 b32 (l.headD (zeroBits false)))) c s [a] >>=
  fun (r, s) => .ok (fconv b64 b32 r, s)

end Verif.Bitmask
