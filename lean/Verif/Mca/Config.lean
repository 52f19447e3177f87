import Verif.Mca.Common
import Verif.Ieee.Cmp
import Verif.Vprec.Config

/-!
# Configuration of the two MCA backends

Setters, command line, `configure` and `interflop_call` requests of interflop_mca.c (mcaquad) and
interflop_mca_int.c (mcaint).  `logger_error` terminates the process, so a rejected request is
`.exit`; `logger_warning` does nothing here.  The spelling of the options and the
dispatch by `argp` are in Verif.Cli; an option unknown to the backend is a usage error of `argp`, which exits.

`strtod` is a parameter `sd`: `none` when `errno` is set (`_vfc_strtod`,
vfcwrapper/main.c.in:309-317).  The sparsity is kept as the `float` it is.
-/

namespace Verif.Mca.Config
open Verif Verif.Fp
open Verif.Vprec.Config (strtol toInt)

/-- Which of the two backends. -/
inductive Backend | quad | int
deriving DecidableEq, Repr

/-- `mcaquad_context_t` (interflop_mca.h:55-67), `mcaint_context_t` (interflop_mca_int.h:53-65). -/
structure Cfg where
  mode : Mode
  prec32 : Int
  prec64 : Int
  relErr : Bool
  absErr : Bool
  absErrExp : Int
  daz : Bool
  ftz : Bool
  sparsity : Bits
  chooseSeed : Bool
  seed : BitVec 64
deriving DecidableEq, Repr

/-- `1.0f`. -/
def one32 : Bits := ⟨false, 127, 0⟩

/-- `_mcaquad_init_context` (interflop_mca.c:724-736), `_mcaint_init_context`
(interflop_mca_int.c:608-620), with the defaults of the headers. -/
def init : Cfg :=
  { mode := .mca, prec32 := 24, prec64 := 53, relErr := true, absErr := false, absErrExp := 112,
    daz := false, ftz := false, sparsity := one32, chooseSeed := false, seed := 0 }

/-- `_set_precision` (options.h:47-65): too small exits, too large only warns. -/
def setPrec32 (v : Int) (c : Cfg) : Outcome Cfg := if v < 1 then .exit else .ok { c with prec32 := v }
def setPrec64 (v : Int) (c : Cfg) : Outcome Cfg := if v < 1 then .exit else .ok { c with prec64 := v }

/-- `_set_mcaquad_mode` (interflop_mca.c:140-147), `_set_mcaint_mode`
(interflop_mca_int.c:105-114), the enum as an unsigned number. -/
def setMode (m : Nat) (c : Cfg) : Outcome Cfg :=
  match m with
  | 0 => .ok { c with mode := .ieee }
  | 1 => .ok { c with mode := .mca }
  | 2 => .ok { c with mode := .pb }
  | 3 => .ok { c with mode := .rr }
  | _ => .exit

/-- interflop_mca.c:162-184, interflop_mca_int.c:129-151. -/
def setErrMode (m : Nat) (c : Cfg) : Outcome Cfg :=
  match m with
  | 0 => .ok { c with relErr := true, absErr := false }
  | 1 => .ok { c with relErr := false, absErr := true }
  | 2 => .ok { c with relErr := true, absErr := true }
  | _ => .exit

/-- interflop_mca.c:187-190, interflop_mca_int.c:168-170. -/
def setAbsErrExp (v : Int) (c : Cfg) : Outcome Cfg := .ok { c with absErrExp := toInt v }

/-- interflop_mca.c:203-209, interflop_mca_int.c:179-185: a `float` comparison, false on NaN. -/
def setSparsity (x : Bits) (c : Cfg) : Outcome Cfg :=
  if Ieee.islessequal b32 x (zeroBits false) then .exit else .ok { c with sparsity := x }

/-- interflop_mca.c:212-215, interflop_mca_int.c:188-191. -/
def setSeed (v : BitVec 64) (c : Cfg) : Cfg := { c with chooseSeed := true, seed := v }

/-- Mode names, compared without case (interflop_mca.c:804-822, interflop_mca_int.c:681-699). -/
def modeName (s : List Char) : Nat :=
  let t := s.map Char.toLower
  if t = "ieee".toList then 0 else if t = "mca".toList then 1 else if t = "pb".toList then 2
  else if t = "rr".toList then 3 else 4

/-- interflop_mca.c:823-839. -/
def errModeName (s : List Char) : Nat :=
  let t := s.map Char.toLower
  if t = "rel".toList then 0 else if t = "abs".toList then 1 else if t = "all".toList then 2 else 3

/-- `--precision-binary32`: interflop_mca.c:782-792; mcaint only takes the default
(interflop_mca_int.c:659-669). -/
def cliPrec32 (be : Backend) (arg : List Char) (c : Cfg) : Outcome Cfg :=
  match strtol arg with
  | none => .exit
  | some v =>
    match be with
    | .quad => if toInt v ≤ 0 then .exit else setPrec32 (toInt v) c
    | .int => if toInt v ≠ 24 then .exit else setPrec32 (toInt v) c

/-- `--precision-binary64`: interflop_mca.c:793-803, interflop_mca_int.c:670-680. -/
def cliPrec64 (be : Backend) (arg : List Char) (c : Cfg) : Outcome Cfg :=
  match strtol arg with
  | none => .exit
  | some v =>
    match be with
    | .quad => if toInt v ≤ 0 then .exit else setPrec64 (toInt v) c
    | .int => if toInt v ≠ 53 then .exit else setPrec64 (toInt v) c

/-- `--sparsity`: interflop_mca.c:868-880; mcaint also refuses numbers above 1
(interflop_mca_int.c:718-730).  The `double` is converted to `float` first. -/
def cliSparsity (be : Backend) (sd : List Char → Option Bits) (arg : List Char) (c : Cfg) : Outcome Cfg :=
  match sd arg with
  | none => .exit
  | some d =>
    let x := fconv b64 b32 d
    if Ieee.islessequal b32 x (zeroBits false) then .exit
    else if be = .int ∧ Ieee.isgreater b32 x one32 then .exit
    else setSparsity x c

/-- `mcaquad_conf_t` (interflop_mca.h:69-79), `mcaint_conf_t`. -/
structure Conf where
  seed : BitVec 64
  sparsity : Bits
  /-- `uint32_t`, converted to `int`. -/
  prec32 : Nat
  prec64 : Nat
  mode : Nat
  errMode : Nat
  /-- `int64_t`. -/
  absErrExp : Int
  daz : Bool
  ftz : Bool

/-- interflop_mca.c:901-916, interflop_mca_int.c:751-767.  mcaquad compares the 64-bit exponent
with `(unsigned int)(-1)`; mcaint looks at the error mode. -/
def configure (be : Backend) (k : Conf) (c : Cfg) : Outcome Cfg := do
  let c := setSeed k.seed c
  let c ← setSparsity k.sparsity c
  let c ← setPrec32 (toInt k.prec32) c
  let c ← setPrec64 (toInt k.prec64) c
  let c ← setMode k.mode c
  let c ← setErrMode k.errMode c
  let c ← (match be with
    | .quad => if k.absErrExp ≠ 4294967295 then setAbsErrExp k.absErrExp c else .ok c
    | .int => if k.errMode = 1 ∨ k.errMode = 2 then setAbsErrExp k.absErrExp c else .ok c)
  return { c with daz := k.daz, ftz := k.ftz }

/-- Everything that can change the configuration. -/
inductive Req
  | cliPrec32 (arg : List Char)
  | cliPrec64 (arg : List Char)
  | cliMode (arg : List Char)
  | cliErrMode (arg : List Char)
  | cliErrExp (arg : List Char)
  | cliSeed (arg : List Char)
  | cliDaz
  | cliFtz
  | cliSparsity (arg : List Char)
  | configure (k : Conf)
  | callPrec32 (v : Int)
  | callPrec64 (v : Int)

/-- Options of the command line only. -/
def Req.isCli : Req → Bool
  | .configure _ | .callPrec32 _ | .callPrec64 _ => false
  | _ => true

/-- `parse_opt` (interflop_mca.c:773-885, interflop_mca_int.c:651-735), `configure`, and the
precision requests of `user_call` (interflop_mca.c:684-700), which mcaint does not have. -/
def step (be : Backend) (sd : List Char → Option Bits) (c : Cfg) : Req → Outcome Cfg
  | .cliPrec32 a => Config.cliPrec32 be a c
  | .cliPrec64 a => Config.cliPrec64 be a c
  | .cliMode a => setMode (modeName a) c
  | .cliErrMode a => match be with
    | .quad => setErrMode (errModeName a) c
    | .int => .exit
  | .cliErrExp a => match be with
    | .quad => match strtol a with
      | none => .exit
      | some v => setAbsErrExp v c
    | .int => .exit
  | .cliSeed a => match strtol a with
    | none => .exit
    | some v => .ok (setSeed (BitVec.ofInt 64 v) c)
  | .cliDaz => .ok { c with daz := true }
  | .cliFtz => .ok { c with ftz := true }
  | .cliSparsity a => Config.cliSparsity be sd a c
  | .configure k => Config.configure be k c
  | .callPrec32 v => match be with
    | .quad => setPrec32 v c
    | .int => .ok c
  | .callPrec64 v => match be with
    | .quad => setPrec64 v c
    | .int => .ok c

/-- A history of requests. -/
def run (be : Backend) (sd : List Char → Option Bits) : List Req → Cfg → Outcome Cfg
  | [], c => .ok c
  | q :: qs, c => step be sd c q >>= run be sd qs

/-- `_mca_skip_eval` (options.h:73-81) on the `float`: comparison with `1.0f`, then of the drawn
`double` with the sparsity promoted to `double`. -/
def skipEval {σ : Type} (g : Gen σ) (sparsity : Bits) (s : σ) : Bool × σ :=
  if Ieee.isgreaterequal b32 sparsity one32 then (false, s)
  else (Ieee.isgreater b64 (Rng.toDouble (g.next s).1) (fconv b32 b64 sparsity), (g.next s).2)

/-- The context of the operations (`Verif.Mca.Ctx`), with the sparsity as a number; an infinite one
acts as 1 (`C64_skip`). -/
def Cfg.ctx (c : Cfg) : Ctx :=
  { mode := c.mode, prec32 := c.prec32, prec64 := c.prec64, relErr := c.relErr, absErr := c.absErr,
    absErrExp := c.absErrExp, daz := c.daz, ftz := c.ftz,
    sparsity := if c.sparsity.exp = b32.expInf then 1 else c.sparsity.val b32 }

end Verif.Mca.Config
