import Verif.Base.Outcome

/-!
# The function instrumentation pass

`src/libvfcfuncinstrument/libVFCFuncInstrument.cpp`, run by `verificarlo --inst-func`
(verificarlo.in.in:367-372): every call is replaced by a call to a *hook*, which stores
the floating point arguments, lets the backends see and change them
(`vfc_enter_function`), calls the original function, and does the same with the result
(`vfc_exit_function`).

The supported LLVM versions are 17 to 21 (configure.ac:28), where there is one pointer
type per address space.  Simplifications: a body is the list of its instructions in
program order (blocks are only iterated over); a function that calls `main` sees the body
of `main` before the pass replaces it; texts are lists of characters.
-/

namespace Verif.FuncInst
open Verif

abbrev Str := List Char

/-- The types the pass tells apart, LLVM 17 and later. -/
inductive Ty
  | void | float | double | ptr | vecFloat | vecDouble | other (k : Nat)
deriving DecidableEq, Repr

/-- `FloatTy->getPointerTo()` and `DoubleTy->getPointerTo()`, or `PointerType::getUnqual`
of both (libVFCFuncInstrument.cpp:423-431): the pointer type of address space 0. -/
def floatPtrTy : Ty := .ptr
def doublePtrTy : Ty := .ptr

/-- `ftypesFromType` (236-246) with the numbers of `enum FTYPES` (74-82): `none` is
`FTYPES_END`. -/
def ftype (t : Ty) : Option Nat :=
  if t = .float then some 0
  else if t = .double then some 1
  else if t = floatPtrTy then some 3
  else if t = doublePtrTy then some 4
  else none

/-- Operands: a parameter of the function, the result of an instruction of its body, or
anything else (constants, globals, functions). -/
inductive V
  | param (i : Nat) | inst (i : Nat) | other
deriving DecidableEq, Repr

/-- The allocated type of an `alloca`. -/
inductive Alloc
  | array (n : Nat) | vector (n : Nat) | single
deriving DecidableEq, Repr

structure Loc where
  file : Str
  line : Nat
deriving DecidableEq, Repr

/-- A call instruction: the callee as an index into the module (`none`: not a direct
call), its arguments, its debug location, and for `llvm.dbg.*` the variable described
(the number of the parameter from 1, its name). -/
structure Call where
  callee : Option Nat
  args : List (V × Ty)
  loc : Option Loc := none
  dbgVar : Option (Nat × Str) := none
deriving DecidableEq, Repr

inductive Instr
  | alloca (a : Alloc)
  /-- `getelementptr` of `base`, `off` elements further. -/
  | gep (base : V) (off : Nat)
  | call (c : Call)
  /-- Any other instruction, with the types of its operands. -/
  | other (ops : List Ty)
deriving DecidableEq, Repr

/-- Debug information of a function definition. -/
structure Sub where
  name : Str
  loc : Loc
deriving DecidableEq, Repr

/-- A function of the module.  `uses i` is the use list of parameter `i`: the positions in
`body` of its users, in the order of `Value::users()`.  `imm` lists the parameters that
must be constants (`immarg`). -/
structure Func where
  name : Str
  ret : Ty
  params : List Ty
  body : List Instr := []
  uses : Nat → List Nat := fun _ => []
  sub : Option Sub := none
  library : Bool := false
  intrinsic : Bool := false
  imm : List Nat := []

/-- A module: its functions, in order. -/
abbrev Module := List Func

/-! ## Does a call use floating point? -/

/-- Types of the operands of an instruction; the last operand of a call is the callee. -/
def Instr.opTys : Instr → List Ty
  | .alloca _ => []
  | .gep _ _ => [.ptr]
  | .call c => c.args.map (·.2) ++ [.ptr]
  | .other l => l

/-- `haveFloatingPointArithmetic` (96-143) for the type `t` (`float` with its pointer type,
or `double`), called with a function: `call` is `NULL` for `main`. -/
def uses (t vec ptrTy : Ty) (call : Option Call) (f : Func) : Bool :=
  decide (f.ret = t) ||
  (if f.body ≠ [] then f.body.any fun i => i.opTys.any fun o => o = t || o = vec
   else match call with
    | some c => c.args.any fun a => a.2 = t || a.2 = ptrTy
    | none => false)

def useFloat : Option Call → Func → Bool := uses .float .vecFloat floatPtrTy
def useDouble : Option Call → Func → Bool := uses .double .vecDouble doublePtrTy

/-! ## Names and sizes of arguments -/

/-- The calls of a body that are users of parameter `i`, in use list order. -/
def callUsers (F : Func) (i : Nat) : List Call :=
  (F.uses i).filterMap fun k => match (F.body[k]? : Option Instr) with
    | some (Instr.call c) => some c
    | _ => none

/-- `getSizeOf` (146-183).  A parameter is looked up in the first call that uses it, in the
same function, at the position the parameter has in that function; `getOperand` past the
callee is out of bounds, and `getArrayNumElements` of a vector type is an invalid cast.
Running out of `fuel` whatever its amount is an infinite recursion. -/
def getSizeOf (F : Func) : Nat → V → Outcome Nat
  | 0, _ => .ub
  | fuel + 1, .param i =>
    if i < F.params.length then
      match callUsers F i with
      | [] => .ok 0
      | c :: _ =>
        if h : i < c.args.length then getSizeOf F fuel c.args[i].1
        else if i = c.args.length then .ok 0
        else .ub
    else .ok 0
  | fuel + 1, .inst k =>
    match F.body[k]? with
    | some (.alloca (.array n)) => .ok n
    | some (.alloca (.vector _)) => .ub
    | some (.alloca .single) => .ok 1
    | some (.gep b _) => getSizeOf F fuel b
    | _ => .ok 0
  | _ + 1, .other => .ok 0

def dec (n : Nat) : Str := Nat.toDigits 10 n

/-- The debug intrinsics with a variable (192-194). -/
def dbgNames : List Str := ["llvm.dbg.declare".toList, "llvm.dbg.value".toList, "llvm.dbg.addr".toList]

/-- `getArgName` (186-207): `getCalledFunction` is not checked for `NULL`. -/
def getArgName (m : Module) (i : Nat) : List Instr → Outcome Str
  | [] => .ok ("parameter_".toList ++ dec (i + 1))
  | .call c :: rest =>
    match c.callee.bind (m[·]?) with
    | none => .ub
    | some g =>
      if g.name ∈ dbgNames then
        match c.dbgVar with
        | some (k, n) => if k = i + 1 then .ok n else getArgName m i rest
        | none => getArgName m i rest
      else getArgName m i rest
  | _ :: rest => getArgName m i rest

/-! ## The hook -/

/-- What the hook passes by address: a stack slot for a floating point argument, the
pointer argument itself, the slot of the result, or a pointer result. -/
inductive Ptr
  | slot (i : Nat) | param (i : Nat) | retSlot | ret
deriving DecidableEq, Repr

/-- An argument of the calls to `vfc_enter_function` and `vfc_exit_function` past the
fixed ones. -/
inductive VA
  | int (n : Nat) | str (s : Str) | ptr (p : Ptr)
deriving DecidableEq, Repr

def isFp (t : Ty) : Bool := t = .float || t = .double
def isPtr (t : Ty) : Bool := t = floatPtrTy || t = doublePtrTy

/-- A call being hooked: the calling function and the instruction. -/
structure Site where
  caller : Func
  call : Call

/-- The operand passed for parameter `i` of the hook: `call->getOperand(i)`. -/
def Site.operand (s : Site) (i : Nat) : V := (s.call.args[i]?.map (·.1)).getD .other

/-- Step 1, `allocateMemoryForPointers` (209-234): the numbers of inputs and outputs. -/
def countIn (call : Bool) (params : List Ty) : Nat :=
  params.countP fun t => isFp t || (isPtr t && call)

def countOut (call : Bool) (ret : Ty) (params : List Ty) : Nat :=
  (if isFp ret || (isPtr ret && call) then 1 else 0) + params.countP fun t => isPtr t && call

/-- Step 2, `initializeInputArgs` (248-275): `i` is the number of the parameter, `slot` the
next stack slot. -/
def inputArgs (m : Module) (fuel : Nat) (hooked : Func) (site : Option Site) :
    List Ty → Nat → Nat → Outcome (List VA)
  | [], _, _ => .ok []
  | t :: ts, i, slot => do
    let head ← (match ftype t with
      | none => .ok []
      | some k => do
        let name ← getArgName m i hooked.body
        return [VA.int k, VA.str name])
    if isFp t then do
      let rest ← inputArgs m fuel hooked site ts (i + 1) (slot + 1)
      return head ++ [VA.int 1, VA.ptr (.slot slot)] ++ rest
    else match site with
      | some s =>
        if isPtr t then do
          let n ← getSizeOf s.caller fuel (s.operand i)
          let rest ← inputArgs m fuel hooked site ts (i + 1) slot
          return head ++ [VA.int n, VA.ptr (.param i)] ++ rest
        else do
          let rest ← inputArgs m fuel hooked site ts (i + 1) slot
          return head ++ rest
      | none => do
        let rest ← inputArgs m fuel hooked site ts (i + 1) slot
        return head ++ rest

/-- The pointer parameters of step 6, `initializeOutputArgs` (302-314). -/
def outputPtrs (m : Module) (fuel : Nat) (hooked : Func) (s : Site) : List Ty → Nat → Outcome (List VA)
  | [], _ => .ok []
  | t :: ts, i =>
    if isPtr t then do
      let name ← getArgName m i hooked.body
      let n ← getSizeOf s.caller fuel (s.operand i)
      let rest ← outputPtrs m fuel hooked s ts (i + 1)
      return [VA.int ((ftype t).getD 6), VA.str name, VA.int n, VA.ptr (.param i)] ++ rest
    else outputPtrs m fuel hooked s ts (i + 1)

/-- Step 6, `initializeOutputArgs` (277-315).  A pointer result is an instruction of the
hook: `getSizeOf` does not find it in the calling function, hence 0. -/
def outputArgs (m : Module) (fuel : Nat) (hooked : Func) (site : Option Site) (ret : Ty) (params : List Ty) :
    Outcome (List VA) := do
  let head := (match ftype ret with
    | none => []
    | some k => [VA.int k, VA.str "return_value".toList])
  let tail := (if isFp ret then [VA.int 1, VA.ptr .retSlot]
    else if isPtr ret ∧ site.isSome then [VA.int 0, VA.ptr .ret]
    else [])
  let rest ← (match site with
    | some s => outputPtrs m fuel hooked s params 0
    | none => .ok [])
  return head ++ tail ++ rest

/-- What the hook passes to `vfc_enter_function` and `vfc_exit_function`. -/
structure Hook where
  /-- `FunctionID`. -/
  id : Str
  /-- The symbol of the hook. -/
  symbol : Str
  /-- Calling function, position of the call in its body, called function. -/
  caller : Nat
  pos : Nat
  callee : Nat
  library : Bool
  intrinsic : Bool
  float : Bool
  double : Bool
  nIn : Nat
  enter : List VA
  nOut : Nat
  exit : List VA
deriving DecidableEq, Repr

/-! ## The pass -/

/-- `isLLVMDebugFunction` (398-401). -/
def isDebug (n : Str) : Bool := "llvm.dbg.".toList.isPrefixOf n || "llvm.lifetime.".toList.isPrefixOf n

/-- The identifier of a call (549-551, and 482-483 for `main`, whose parent is empty). -/
def ident (file parent name : Str) (line cpt : Nat) : Str :=
  file ++ "/".toList ++ parent ++ "/".toList ++ name ++ "/".toList ++ dec line ++ "/".toList ++ dec cpt

/-- The symbol of the hook (545-547, 479-480). -/
def symbolOf (id : Str) : Str := "vfc_".toList ++ id ++ "_hook".toList

/-- One call instruction with a direct callee and a location (536-616): nothing, or a hook,
and the next number. -/
def hookCall (m : Module) (fuel : Nat) (ci : Nat) (F : Func) (parent : Str) (pos : Nat) (c : Call) (gi : Nat)
    (g : Func) (l : Loc) (cpt : Nat) : Outcome (List Hook × Nat) := do
  let id := ident l.file parent g.name l.line cpt
  let uf := useFloat (some c) g
  let ud := useDouble (some c) g
  if g.intrinsic && !(uf || ud) then return ([], cpt + 1)
  else do
    let params := c.args.map (·.2)
    let site : Site := ⟨F, c⟩
    let e ← inputArgs m fuel g (some site) params 0 0
    let x ← outputArgs m fuel g (some site) g.ret params
    return ([⟨id, symbolOf id, ci, pos, gi, g.library, g.intrinsic, uf, ud, countIn true params, e,
      countOut true g.ret params, x⟩], cpt + 1)

/-- The loop over the instructions of a function (523-620). -/
def walkBody (m : Module) (fuel : Nat) (ci : Nat) (F : Func) (parent : Str) :
    List Instr → Nat → Nat → Outcome (List Hook × Nat)
  | [], _, cpt => .ok ([], cpt)
  | .call c :: rest, pos, cpt => do
    let (h, cpt) ← (match c.callee.bind fun gi => (m[gi]?).map fun g => (gi, g) with
      | none => .ok ([], cpt)
      | some (gi, g) =>
        if isDebug g.name then .ok ([], cpt)
        else match c.loc with
          | none => .ok ([], cpt)
          | some l => hookCall m fuel ci F parent pos c gi g l cpt)
    let (hs, cpt) ← walkBody m fuel ci F parent rest (pos + 1) cpt
    return (h ++ hs, cpt)
  | _ :: rest, pos, cpt => walkBody m fuel ci F parent rest (pos + 1) cpt

/-- The loop over the functions (520-622): those without debug information are skipped. -/
def walkFuncs (m : Module) (fuel : Nat) : List (Nat × Func) → Nat → Outcome (List Hook × Nat)
  | [], cpt => .ok ([], cpt)
  | (ci, F) :: rest, cpt => do
    let (h, cpt) ← (match F.sub with
      | none => .ok ([], cpt)
      | some s => walkBody m fuel ci F s.name F.body 0 cpt)
    let (hs, cpt) ← walkFuncs m fuel rest cpt
    return (h ++ hs, cpt)

def mainName : Str := "main".toList

/-- The functions with their positions. -/
def indexed (m : Module) : List (Nat × Func) := m.zipIdx.map fun p => (p.2, p.1)

/-- `OriginalFunctions` (441-445, 514): the definitions, and the clone of `main` last. -/
def originals (m : Module) : List (Nat × Func) :=
  (indexed m).filter (fun p => p.2.name ≠ mainName ∧ p.2.body ≠ []) ++
  (indexed m).filter (fun p => p.2.name = mainName)

/-- The hook of `main` (469-515): `main` itself becomes the hook, of its clone.  A missing
subprogram is dereferenced. -/
def hookMain (m : Module) (fuel : Nat) (mi : Nat) (F : Func) : Outcome Hook :=
  match F.sub with
  | none => .ub
  | some s => do
    let id := ident s.loc.file [] F.name s.loc.line 1
    let e ← inputArgs m fuel F none F.params 0 0
    let x ← outputArgs m fuel F none F.ret F.params
    return ⟨id, symbolOf id, mi, 0, mi, false, false, useFloat none F, useDouble none F,
      countIn false F.params, e, countOut false F.ret F.params, x⟩

/-- `runOnModule` (416-624): the hook of `main` if there is one, and the hooks of calls. -/
def runOnModule (m : Module) (fuel : Nat) : Outcome (Option Hook × List Hook) := do
  let main ← (match (indexed m).find? fun p => p.2.name = mainName with
    | none => .ok none
    | some (mi, F) => do
      let h ← hookMain m fuel mi F
      return some h)
  let (hs, _) ← walkFuncs m fuel (originals m) (if main.isSome then 2 else 1)
  return (main, hs)

/-! ## What the runtime reads -/

/-- One argument as read by `_vprec_enter/exit_function`: type, name, size, address. -/
structure Quad where
  ty : Nat
  name : Str
  size : Nat
  addr : Ptr
deriving DecidableEq, Repr

/-- The `va_arg` loop (interflop_vprec_function_instrumentation.c:626-630, 763-767), and
what remains of the argument list.  Reading an argument with another type, or past the
last one, is undefined. -/
def readArgs : Nat → List VA → Outcome (List Quad × List VA)
  | 0, l => .ok ([], l)
  | n + 1, .int t :: .str s :: .int k :: .ptr p :: rest => do
    let (qs, rest) ← readArgs n rest
    return (⟨t, s, k, p⟩ :: qs, rest)
  | _ + 1, _ => .ub

/-- `vfc_enter_function` and `vfc_exit_function` (funcinstr.c:140-153, 161-173): one
`va_list`, passed to each of the `k` backends that implement the call in turn. -/
def readAll : Nat → Nat → List VA → Outcome (List (List Quad))
  | 0, _, _ => .ok []
  | k + 1, n, l => do
    let (qs, rest) ← readArgs n l
    let qss ← readAll k n rest
    return qs :: qss

/-! ## What the hook does -/

/-- The stores of step 2: the floating point arguments, in order. -/
def stores {α : Type} : List Ty → List α → List α
  | t :: ts, a :: as => if isFp t then a :: stores ts as else stores ts as
  | _, _ => []

/-- The loads of step 4 (346-355): the arguments of the original function. -/
def loads {α : Type} : List Ty → List α → List α → List α
  | t :: ts, a :: as, slots =>
    if isFp t then match slots with
      | s :: slots => s :: loads ts as slots
      | [] => a :: loads ts as []
    else a :: loads ts as slots
  | _, _, _ => []

/-- Steps 3 to 9 (342-395), for any state `σ` and words `α`: `enter` and `exit` are the
calls into the runtime, seen as functions of the contents of the slots. -/
def hookRun {σ α : Type} (params : List Ty) (ret : Ty)
    (enter : σ → List α → Outcome (σ × List α)) (callee : σ → List α → Outcome (σ × α))
    (exit : σ → Option α → Outcome (σ × Option α)) (s : σ) (args : List α) : Outcome (σ × α) := do
  let (s, slots) ← enter s (stores params args)
  let (s, r) ← callee s (loads params args slots)
  if isFp ret then do
    let (s, r') ← exit s (some r)
    return (s, r'.getD r)
  else do
    let (s, _) ← exit s none
    return (s, r)

end Verif.FuncInst
