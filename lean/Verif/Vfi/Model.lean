import Mathlib.Data.Rat.Floor
import Verif.Hash.Model
import Verif.Stdlib.Model
import Verif.Vprec.Config

/-!
# Function instrumentation

The call stack and the enter/exit hooks of /repo/src/vfcwrapper/funcinstr.c, and the VPREC
function instrumentation (VFI) of
/repo/src/backends/interflop-backend-vprec/interflop_vprec_function_instrumentation.c.
VPREC is the only backend with enter/exit hooks; one instance of it is loaded.

The two hash tables (function table, VFI table) map the string hash of an identifier to a
record.  They are modelled as partial functions on hash values: an entry is only inserted
when the lookup of its hash failed and its value is a fresh pointer, which are the
conditions of `Verif.Hash.C33_insert_get_partial`.  Collisions of the string hash are kept.
The log file is the subject of `Verif.Vfi.Log`.  Quadruple precision arguments are never generated.
-/

namespace Verif.Vfi
open Verif Verif.Fp Verif.Vprec.Config

/-- Identifiers: bytes as characters. -/
abbrev Id := List Char

/-- `vfc_hashmap_str_function`. -/
def hash (s : Id) : Nat := Hash.strHash (s.map fun c => BitVec.ofNat 8 c.toNat)

/-- `interflop_function_info_t`, interflop-stdlib/interflop.h:79-90. -/
structure Info where
  id : Id
  isLib : Bool
  isIntr : Bool
  useFloat : Bool
  useDouble : Bool
deriving DecidableEq, Repr

/-! ## Call stack, funcinstr.c:70-116 -/

/-- `_VFC_CALL_STACK_MAXSIZE`, funcinstr.c:20. -/
def maxSize : Nat := 4096

/-- `interflop_function_stack_t`.  A cell is `none` before the first write (`malloc`);
`some none` is a NULL pointer. -/
structure Stack where
  arr : Nat → Option (Option Info)
  top : Nat

/-- An array read. -/
def Stack.rd (s : Stack) (i : Nat) : Outcome (Option Info) :=
  if i < maxSize then
    match s.arr i with
    | some v => .ok v
    | none => .ub
  else .ub

/-- An array write. -/
def Stack.wr (s : Stack) (i : Nat) (v : Option Info) : Outcome Stack :=
  if i < maxSize then .ok { s with arr := fun j => if j = i then some v else s.arr j } else .ub

/-- `vfc_call_stack_init`, funcinstr.c:78-82. -/
def stackInit : Stack := ⟨fun j => if j = maxSize - 1 then some none else none, maxSize - 1⟩

/-- `vfc_call_stack_push`, funcinstr.c:85-93. -/
def Stack.push (s : Stack) (f : Info) : Outcome Stack :=
  if s.top = 0 then .exit
  else { s with top := s.top - 1 }.wr (s.top - 1) (some f)

/-- `vfc_call_stack_pop`, funcinstr.c:96-101 (the value read is not used by the callers). -/
def Stack.pop (s : Stack) : Outcome Stack :=
  if s.top < maxSize then do
    let _ ← s.rd s.top
    return { s with top := s.top + 1 }
  else .ok s

/-! ## VFI records -/

/-- The types of arguments, interflop.h:48-56; quadruple precision is left out. -/
inductive FTy | float | double | floatPtr | doublePtr
deriving DecidableEq, Repr

/-- `enum FTYPES`, interflop.h:48-56. -/
def FTy.code : FTy → Int
  | .float => 0 | .double => 1 | .floatPtr => 3 | .doublePtr => 4

/-- `_vfi_argument_data_t`, interflop_vprec_function_instrumentation.h:40-53. -/
structure ArgData where
  id : Id
  ty : Int
  minR : Int
  maxR : Int
  expLen : Int
  manLen : Int
deriving DecidableEq, Repr

/-- `_vfi_t`, interflop_vprec_function_instrumentation.h:56-87.  The argument arrays are
`none` for NULL; their length is `nb_input_args`, `nb_output_args`. -/
structure Fn where
  info : Info
  prec64 : Int
  range64 : Int
  prec32 : Int
  range32 : Int
  inArgs : Option (List ArgData)
  outArgs : Option (List ArgData)
  nCalls : Int
deriving DecidableEq, Repr

/-- Defaults for a function met for the first time,
interflop_vprec_function_instrumentation.c:562-585. -/
def newFn (i : Info) : Fn := ⟨i, 52, 11, 23, 8, none, none, 0⟩

/-- interflop_vprec_function_instrumentation.h:31-37. -/
inductive InstMode | arg | op | all | none
deriving DecidableEq, Repr

/-- An argument handed to the hooks: type, name, size, and the memory `raw_value` points to
(`none` for NULL). -/
structure Arg where
  ty : FTy
  id : Id
  size : Nat
  mem : Option (List Bits)
deriving DecidableEq, Repr

/-! ## Arguments -/

def FTy.fmt : FTy → Fmt
  | .float => b32 | .floatPtr => b32 | .double => b64 | .doublePtr => b64
def FTy.width : FTy → Nat
  | .float => 32 | .floatPtr => 32 | .double => 64 | .doublePtr => 64

/-- `_init_function_inst_arg`, :424-436. -/
def initArg (a : Arg) : ArgData :=
  if a.ty.fmt = b64 then ⟨a.id, a.ty.code, 2 ^ 31 - 1, -(2 ^ 31), 11, 52⟩
  else ⟨a.id, a.ty.code, 2 ^ 31 - 1, -(2 ^ 31), 8, 23⟩

/-- A zeroed record (`calloc`). -/
def zeroArg : ArgData := ⟨[], 0, 0, 0, 0, 0⟩

/-- Conversion of an integral floating-point number to `int`: undefined outside the range of
`int`; the x86-64 instruction returns `INT_MIN`. -/
def toCInt (sem : ShiftSem) (q : Option Int) : Outcome Int :=
  match q with
  | some q => if -(2 ^ 31) ≤ q ∧ q < 2 ^ 31 then .ok q
    else match sem with | .strict => .ub | .wrap => .ok (-(2 ^ 31))
  | none => match sem with | .strict => .ub | .wrap => .ok (-(2 ^ 31))

/-- `interflop_floor` and `interflop_ceil` (`__builtin_floor`, `__builtin_ceil`); no integer
for infinities and NaNs. -/
def floorOf (F : Fmt) (x : Bits) : Option Int := if x.exp < F.expInf then some ⌊x.val F⌋ else none
def ceilOf (F : Fmt) (x : Bits) : Option Int := if x.exp < F.expInf then some ⌈x.val F⌉ else none

/-- `interflop_isnan || interflop_isinf` as implemented by the runtime library. -/
def nonFinite (F : Fmt) (x : Bits) : Bool :=
  if F = b64 then Stdlib.isnand (Stdlib.raw F x) || Stdlib.isinfd (Stdlib.raw F x)
  else Stdlib.isnanf (Stdlib.raw F x) || Stdlib.isinff (Stdlib.raw F x)

/-- `_update_range_bounds`, :438-467. -/
def updateBounds (sem : ShiftSem) (F : Fmt) (x : Bits) (new : Bool) (d : ArgData) : Outcome ArgData := do
  let fl ← toCInt sem (floorOf F x)
  let ce ← toCInt sem (ceilOf F x)
  return if nonFinite F x then d
    else { d with
      minR := if fl < d.minR ∨ new then fl else d.minR
      maxR := if ce > d.maxR ∨ new then ce else d.maxR }

/-- `_vprec_round_binary`, :469-499, on the memory behind `raw_value`. -/
def roundFirst (sem : ShiftSem) (c : Cfg) (isInput new modeFlag : Bool) (ty : FTy)
    (expLen manLen : Int) (mem : List Bits) : Outcome (List Bits) :=
  match mem with
  | [] => .ub
  | v :: rest =>
    if !new && modeFlag then do
      let v' ← Vprec.roundBinary sem ty.fmt ty.width v isInput c.ctx expLen.toNat manLen
      return v' :: rest
    else .ok (v :: rest)

/-- One treatment of `raw_value`: round, then update the bounds with the new value. -/
def touch (sem : ShiftSem) (c : Cfg) (isInput new modeFlag : Bool) (ty : FTy) (expLen manLen : Int)
    (s : List Bits × ArgData) : Outcome (List Bits × ArgData) := do
  let mem ← roundFirst sem c isInput new modeFlag ty expLen manLen s.1
  match mem with
  | [] => .ub
  | v :: _ =>
    let d ← updateBounds sem ty.fmt v new s.2
    return (mem, d)

/-- The loop over a pointer argument, :665-675 and 683-693 (enter), 803-816 and 825-838 (exit):
`value` advances but `raw_value`, which is what is rounded, does not. -/
def ptrLoop (sem : ShiftSem) (c : Cfg) (isInput new modeFlag : Bool) (ty : FTy) (expLen manLen : Int) :
    Nat → List Bits × ArgData → Outcome (List Bits × ArgData)
  | 0, s => .ok s
  | j + 1, s => do
    let s ← touch sem c isInput new modeFlag ty expLen manLen s
    ptrLoop sem c isInput new modeFlag ty expLen manLen j s

/-- The body of the loop over arguments, :632-694 (enter) and 769-839 (exit): the same text.
The lengths are read before a new record is initialised. -/
def doArg (sem : ShiftSem) (c : Cfg) (isInput new modeFlag : Bool) (a : Arg) (d : ArgData) :
    Outcome (Arg × ArgData) :=
  let d' := if new then initArg a else d
  match a.ty, a.mem with
  | .float, some mem => do
    let (mem, d') ← touch sem c isInput new modeFlag a.ty d.expLen d.manLen (mem, d')
    return ({ a with mem := some mem }, d')
  | .double, some mem => do
    let (mem, d') ← touch sem c isInput new modeFlag a.ty d.expLen d.manLen (mem, d')
    return ({ a with mem := some mem }, d')
  | .floatPtr, some mem => do
    let (mem, d') ← ptrLoop sem c isInput new modeFlag a.ty d.expLen d.manLen a.size (mem, d')
    return ({ a with mem := some mem }, d')
  | .doublePtr, some mem => do
    let (mem, d') ← ptrLoop sem c isInput new modeFlag a.ty d.expLen d.manLen a.size (mem, d')
    return ({ a with mem := some mem }, d')
  | .floatPtr, none => .ok (a, d')
  | .doublePtr, none => .ok (a, d')
  | _, none => .ub

/-- The loop over arguments; record `i` must exist. -/
def doArgs (sem : ShiftSem) (c : Cfg) (isInput new modeFlag : Bool) :
    List Arg → List ArgData → Outcome (List Arg × List ArgData)
  | [], ds => .ok ([], ds)
  | _ :: _, [] => .ub
  | a :: as, d :: ds => do
    let (a, d) ← doArg sem c isInput new modeFlag a d
    let (as, ds) ← doArgs sem c isInput new modeFlag as ds
    return (a :: as, d :: ds)

/-- Arguments with the array of records: allocation if needed, then the loop. -/
def withArgs (sem : ShiftSem) (c : Cfg) (isInput modeFlag : Bool) (args : List Arg)
    (recs : Option (List ArgData)) : Outcome (List Arg × Option (List ArgData)) :=
  let new := recs.isNone && decide (0 < args.length)
  let recs := if new then some (List.replicate args.length zeroArg) else recs
  match recs, args with
  | none, [] => .ok ([], none)
  | none, _ :: _ => .ub
  | some ds, as => do
    let (as, ds) ← doArgs sem c isInput new modeFlag as ds
    return (as, some ds)

/-! ## Hooks -/

/-- Everything that persists between hooks. -/
structure St where
  stack : Stack
  tab : Nat → Option Info
  vmap : Nat → Option Fn
  cfg : Cfg
  inst : InstMode

/-- Whether the precision of the operations follows the function, :591-594 and 724-726. -/
def setsOps (m : InstMode) (i : Info) : Bool :=
  !i.isLib && !i.isIntr && m != .arg && m != .none

/-- :595-598 and 732-735: the four setters, in this order. -/
def setOps (f : Fn) (c : Cfg) : Outcome Cfg := do
  let c ← setPrec64 f.prec64 c
  let c ← setRange64 f.range64 c
  let c ← setPrec32 f.prec32 c
  setRange32 f.range32 c

/-- Replace the entry of one hash value. -/
def put {α : Type} (m : Nat → Option α) (k : Nat) (v : α) : Nat → Option α :=
  fun j => if j = k then some v else m j

/-- `function_inst->n_calls++` on an `int`. -/
def incr (n : Int) : Outcome Int := if n + 1 < 2 ^ 31 then .ok (n + 1) else .ub

/-- `_vfi_enter_function`, :549-699. -/
def vfiEnter (sem : ShiftSem) (st : St) (args : List Arg) : Outcome (St × List Arg) := do
  let info ← st.stack.rd st.stack.top
  match info with
  | none => .exit
  | some fi =>
    let fn := (st.vmap (hash fi.id)).getD (newFn fi)
    let n ← incr fn.nCalls
    let cfg ← (if setsOps st.inst fi then setOps fn st.cfg else .ok st.cfg)
    let modeFlag := (cfg.mode = .full ∨ cfg.mode = .ib) ∧ (st.inst = .all ∨ st.inst = .arg)
    let (args, recs) ← withArgs sem cfg true modeFlag args fn.inArgs
    return ({ st with vmap := put st.vmap (hash fi.id) { fn with nCalls := n, inArgs := recs }, cfg }, args)

/-- Return to the precision of the parent function, :721-738. -/
def restore (st : St) (parent : Option Info) : Outcome Cfg :=
  match parent with
  | none => .ok st.cfg
  | some p =>
    if setsOps st.inst p then
      match st.vmap (hash p.id) with
      | some pf => setOps pf st.cfg
      | none => .ok st.cfg
    else .ok st.cfg

/-- `_vfi_exit_function`, :704-842.  Without an entry of the function in the table the code
dereferences NULL. -/
def vfiExit (sem : ShiftSem) (st : St) (args : List Arg) : Outcome (St × List Arg) := do
  let info ← st.stack.rd st.stack.top
  match info with
  | none => .exit
  | some fi =>
    let parent ← st.stack.rd (st.stack.top + 1)
    let cfg ← restore st parent
    match st.vmap (hash fi.id) with
    | none => .ub
    | some fn =>
      let modeFlag := (cfg.mode = .full ∨ cfg.mode = .ob) ∧ (st.inst = .all ∨ st.inst = .arg)
      let (args, recs) ← withArgs sem cfg false modeFlag args fn.outArgs
      return ({ st with vmap := put st.vmap (hash fi.id) { fn with outArgs := recs }, cfg }, args)

/-- Does the call site use floating point? funcinstr.c:139, 161. -/
def Info.fp (c : Info) : Bool := c.useFloat || c.useDouble

/-- `vfc_enter_function`, funcinstr.c:123-153. -/
def enterFn (sem : ShiftSem) (c : Info) (args : List Arg) (st : St) : Outcome (St × List Arg) := do
  let f := (st.tab (hash c.id)).getD c
  let tab := put st.tab (hash c.id) f
  let stack ← st.stack.push f
  let st := { st with tab, stack }
  if c.fp then vfiEnter sem st args else return (st, args)

/-- `vfc_exit_function`, funcinstr.c:156-176. -/
def exitFn (sem : ShiftSem) (c : Info) (args : List Arg) (st : St) : Outcome (St × List Arg) := do
  let (st, args) ← (if c.fp then vfiExit sem st args else return (st, args))
  let stack ← st.stack.pop
  return ({ st with stack }, args)

/-- The program as seen by the instrumentation: hooks with the arguments present at that time. -/
inductive Ev
  | enter (c : Info) (args : List Arg)
  | exit (c : Info) (args : List Arg)

def step (sem : ShiftSem) (st : St) : Ev → Outcome St
  | .enter c args => do let r ← enterFn sem c args st; return r.1
  | .exit c args => do let r ← exitFn sem c args st; return r.1

def run (sem : ShiftSem) : St → List Ev → Outcome St
  | st, [] => .ok st
  | st, e :: es => do let st ← step sem st e; run sem st es

/-- State at start-up: empty function table, the VFI table read from the profile. -/
def init (profile : Nat → Option Fn) (cfg : Cfg) (inst : InstMode) : St :=
  ⟨stackInit, fun _ => none, profile, cfg, inst⟩

end Verif.Vfi
