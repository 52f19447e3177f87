import Verif.Pass.Replace
import Verif.Pass.Select
import Verif.Prism.Features

/-!
# The PRISM pass: which function replaces an instruction

Model of `src/libvfcinstrumentprism/libVFCInstrumentPRISM.cpp` (names, the library, the choice of a
function for an instruction, the types of the call) and of
`libVFCInstrumentPRISMOptions.hpp`.  Types, opcodes and instructions are those of
`Verif.Pass.Replace`.

Simplifications.
* `abi::__cxa_demangle` is a parameter `demangle`.
* A function of a module is reduced to its name, whether it is only declared, its type and its
  attribute `target-features`.
* `getOrInsertFunction` returns the function of that name if the module has one, as with opaque
  pointers (LLVM 15 and later).
-/

namespace Verif.Prism

open Verif.Pass (STy Ty Opcode Instr)

/-- `RoundingMode::PrismRoundingMode` (`libVFCInstrumentPRISMOptions.hpp:12`). -/
inductive Rounding where
  | stochasticRounding | upDown
deriving DecidableEq, Repr

/-- `RoundingMode(const std::string &)` (`libVFCInstrumentPRISMOptions.hpp:20-29`). -/
def Rounding.ofText (s : Str) : Outcome Rounding :=
  if s = "up-down".toList then .ok .upDown
  else if s = "stochastic-rounding".toList then .ok .stochasticRounding
  else .exit

/-- `RoundingMode::get_namespace` (`libVFCInstrumentPRISMOptions.hpp:31-40`). -/
def Rounding.ns : Rounding → Str
  | .upDown => "ud".toList
  | .stochasticRounding => "sr".toList

/-- `DispatchMode::PrismDispatchMode` (`libVFCInstrumentPRISMOptions.hpp:45`). -/
inductive Dispatch where
  | static | dynamic
deriving DecidableEq, Repr

/-- `DispatchMode(const std::string &)` (`libVFCInstrumentPRISMOptions.hpp:51-60`). -/
def Dispatch.ofText (s : Str) : Outcome Dispatch :=
  if s = "static".toList then .ok .static
  else if s = "dynamic".toList then .ok .dynamic
  else .exit

/-- `DispatchMode::get_namespace` (`libVFCInstrumentPRISMOptions.hpp:62-71`). -/
def Dispatch.ns : Dispatch → Str
  | .static => "static".toList ++ "_dispatch".toList
  | .dynamic => "dynamic".toList ++ "_dispatch".toList

/-- `fops::type` (`libVFCInstrumentPRISM.cpp:104-112`). -/
inductive FOp where
  | add | sub | mul | div | fma | cmp | ignore
deriving DecidableEq, Repr

/-- `fops::getName` (`libVFCInstrumentPRISM.cpp:115-133`). -/
def FOp.name : FOp → Str
  | .add => "add".toList | .sub => "sub".toList | .mul => "mul".toList | .div => "div".toList
  | .fma => "fma".toList | .cmp => "cmp".toList | .ignore => "ignore".toList

/-- `fops::isFMA` (`libVFCInstrumentPRISM.cpp:135-144`). -/
def isFMA : Option String → Bool
  | none => false
  | some name => "llvm.fma".toList.isPrefixOf name.toList

/-- `fops::getOpCode` (`libVFCInstrumentPRISM.cpp:146-164`). -/
def getOpCode : Opcode → FOp
  | .fadd => .add
  | .fsub => .sub
  | .fmul => .mul
  | .fdiv => .div
  | .call callee => if isFMA callee then .fma else .ignore
  | _ => .ignore

/-- `fops::mustReplace` (`libVFCInstrumentPRISM.cpp:166-168`). -/
def mustReplace (i : Instr) : Bool := getOpCode i.op != .ignore

/-- `fops::getArity` (`libVFCInstrumentPRISM.cpp:170-185`). -/
def arity : FOp → Nat
  | .fma => 3
  | .ignore => 0
  | _ => 2

/-- `fops::isValidFpType` (`libVFCInstrumentPRISM.cpp:187-189`). -/
def isValidFpType (t : STy) : Bool := t == .float || t == .double

/-- `fops::getFpTypeName` (`libVFCInstrumentPRISM.cpp:191-199`); `none` is `llvm_unreachable`. -/
def fpTypeName : STy → Option Str
  | .float => some "f32".toList
  | .double => some "f64".toList
  | _ => none

/-- `fops::isValidVectorSize` (`libVFCInstrumentPRISM.cpp:201-204`). -/
def isValidVectorSize (n : Nat) : Bool :=
  n == 2 || n == 4 || n == 8 || n == 16 || n == 32 || n == 64

/-- `isValidInstruction` (`libVFCInstrumentPRISM.cpp:670-700`), on the type of the first operand;
a scalable vector is a fatal error. -/
def isValidInstruction (opTy : Ty) : Outcome Bool :=
  match opTy with
  | .vec n t => .ok (isValidVectorSize n && isValidFpType t)
  | .svec _ _ => .exit
  | .scalar t => .ok (isValidFpType t)
  | .ptr => .ok false

/-- `PrismPassingMode` (`libVFCInstrumentPRISM.cpp:233`). -/
inductive Passing where
  | byValue | byPointer
deriving DecidableEq, Repr

/-- `PassingModeNamespace` (`libVFCInstrumentPRISM.cpp:235-243`). -/
def Passing.ns : Passing → Str
  | .byValue => "fixed".toList
  | .byPointer => "variable".toList

/-- `getFloatingPointTypeName` (`libVFCInstrumentPRISM.cpp:388-397`); `none` is
`llvm_unreachable`, or the cast of a scalable vector to a fixed one. -/
def typeName : Ty → Option Str
  | .vec n t => (fpTypeName t).map (· ++ "x".toList ++ Nat.toDigits 10 n)
  | .scalar t => fpTypeName t
  | _ => none

/-- `getFunctionName` (`libVFCInstrumentPRISM.cpp:399-437`); the type is that of the result. -/
def functionName (r : Rounding) (d : Dispatch) (op : FOp) (ty : Ty) (p : Passing) : Outcome Str :=
  if op = .ignore then .exit
  else match typeName ty with
    | none => .ub
    | some fp =>
      match ty with
      | .vec _ _ => .ok ("prism::".toList ++ r.ns ++ "::vector::".toList ++ d.ns ++ "::".toList ++
          p.ns ++ "::".toList ++ (op.name ++ fp))
      | _ => .ok ("prism::".toList ++ r.ns ++ "::scalar::".toList ++ d.ns ++ "::".toList ++
          (op.name ++ fp))

/-! ## The library -/

/-- Type of a function.  `void` is `none`. -/
structure Sig where
  params : List Ty
  ret : Option Ty
deriving DecidableEq, Repr

/-- A function of a module. -/
structure Fn where
  mangled : Str
  declaration : Bool
  sig : Sig
  features : Option Str
deriving DecidableEq, Repr

/-- The text before the first parenthesis (`libVFCInstrumentPRISM.cpp:311-314`). -/
def shortName (demangled : Str) : Str := demangled.takeWhile (· != '(')

/-- `getDemangledNames` (`libVFCInstrumentPRISM.cpp:300-319`): the map from short demangled names
to mangled names, filled by successive assignments. -/
def shortNames (demangle : Str → Str) (lib : List Fn) : Str → Option Str :=
  lib.foldl (fun m f =>
    if f.declaration then m
    else fun n => if n = shortName (demangle f.mangled) then some f.mangled else m n) fun _ => none

/-- `functionsToExclude`, filled by `getDemangledNames` (`libVFCInstrumentPRISM.cpp:302-306`). -/
def defined (lib : List Fn) : List Str := (lib.filter fun f => !f.declaration).map Fn.mangled

/-- `IRModule::getFunction` (`libVFCInstrumentPRISM.cpp:261-266`). -/
def getFunction (demangle : Str → Str) (lib : List Fn) (name : Str) : Option Fn :=
  match shortNames demangle lib name with
  | none => none
  | some mangled => lib.find? fun f => decide (f.mangled = mangled)

/-- What a run of the pass is given. -/
structure Config where
  rounding : Rounding
  dispatch : Dispatch
  strictABI : Bool
  /-- `VfclibInstInstrumentFMA` (`libVFCInstrumentPRISMOptions.hpp:130-133`), which nothing reads. -/
  instFMA : Bool
  demangle : Str → Str
  staticLib : List Fn
  dynamicLib : List Fn
  /-- The functions of the module instrumented. -/
  userModule : List Fn

/-- `PrismModule::getFunction` (`libVFCInstrumentPRISM.cpp:373-378`). -/
def Config.lib (c : Config) : List Fn :=
  match c.dispatch with
  | .static => c.staticLib
  | .dynamic => c.dynamicLib

/-- A function and how its vectors are passed (`libVFCInstrumentPRISM.cpp:334-364`). -/
structure PrismFunction where
  fn : Fn
  passing : Passing
deriving DecidableEq, Repr

/-- `copyFunction` (`libVFCInstrumentPRISM.cpp:268-274`): `getOrInsertFunction` in the module of
the instruction. -/
def Config.copy (c : Config) (f : Fn) : Fn :=
  match c.userModule.find? fun g => decide (g.mangled = f.mangled) with
  | some g => g
  | none => { f with declaration := true }

/-- `getPrismFunction` (`libVFCInstrumentPRISM.cpp:450-478`). -/
def Config.getPrismFunction (c : Config) (op : FOp) (ty : Ty) : Outcome (Option PrismFunction) := do
  let fixed ← functionName c.rounding c.dispatch op ty .byValue
  match getFunction c.demangle c.lib fixed with
  | some f => .ok (some ⟨c.copy f, .byValue⟩)
  | none =>
    let variable_ ← functionName c.rounding c.dispatch op ty .byPointer
    match getFunction c.demangle c.lib variable_ with
    | some f => .ok (some ⟨c.copy f, .byPointer⟩)
    | none => if c.strictABI then .exit else .ok none

/-! ## The call -/

/-- How an operand is passed. -/
inductive Operand where
  /-- As it is. -/
  | direct
  /-- Through a bit cast to `double`. -/
  | cast
  /-- Through the address of a slot of the frame in which it is stored. -/
  | slot
deriving DecidableEq, Repr

/-- A vector of two `float`s (`isf32x2Value`, `libVFCInstrumentPRISM.cpp:736-744`). -/
def isF32x2 (t : Ty) : Bool := t == .vec 2 .float

/-- Is the type that of a vector? -/
def isVector : Ty → Bool
  | .vec _ _ => true
  | .svec _ _ => true
  | _ => false

/-- `getOperandVector` (`libVFCInstrumentPRISM.cpp:774-817`) on an operand of type `opTy` for a
parameter of type `param`. -/
def operandVector (p : Passing) (opTy param : Ty) : Operand :=
  if p = .byPointer ∧ param = .ptr then .slot
  else if isF32x2 opTy then .cast
  else .direct

/-- How the result is obtained. -/
inductive Return where
  /-- The value of the call. -/
  | direct
  /-- A bit cast of the value of the call. -/
  | cast
  /-- Loaded from the slot whose address is the last argument. -/
  | slot
deriving DecidableEq, Repr

/-- `getReturnValueVector` (`libVFCInstrumentPRISM.cpp:877-898`). -/
def returnVector (p : Passing) (ty : Ty) (ret : Option Ty) : Return :=
  match p with
  | .byPointer => .slot
  | .byValue => if isF32x2 ty ∧ ret = some (.scalar .double) then .cast else .direct

/-- A call replacing an instruction. -/
structure Plan where
  callee : Str
  sig : Sig
  operands : List Operand
  ret : Return
deriving DecidableEq, Repr

/-- `getOperands` and `getReturnValueVector` for an instruction of type `ty`
(`libVFCInstrumentPRISM.cpp:835-898, 913-926`).  A parameter that does not exist is read out of
bounds. -/
def planCall (op : FOp) (ty : Ty) (F : PrismFunction) : Outcome Plan :=
  if F.fn.sig.params.length < arity op then .ub
  else if isVector ty then
    let operands := (F.fn.sig.params.take (arity op)).map (operandVector F.passing ty)
    match F.passing with
    | .byPointer =>
      if F.fn.sig.params.length ≤ arity op then .ub
      else .ok ⟨F.fn.mangled, F.fn.sig, operands, .slot⟩
    | .byValue => .ok ⟨F.fn.mangled, F.fn.sig, operands, returnVector .byValue ty F.fn.sig.ret⟩
  else .ok ⟨F.fn.mangled, F.fn.sig, List.replicate (arity op) .direct, .direct⟩

/-- `runOnBasicBlock` on one instruction, as far as `replaceWithPRCall`
(`libVFCInstrumentPRISM.cpp:901-970`): `none` when the instruction is left alone.  `caller` is the
attribute `target-features` of the function instrumented. -/
def Config.plan (c : Config) (caller : Option Str) (i : Instr) : Outcome (Option Plan) :=
  if !mustReplace i then .ok none
  else do
    let valid ← isValidInstruction i.opTy
    if !valid then .ok none
    else
      match ← c.getPrismFunction (getOpCode i.op) i.retTy with
      | none => .ok none
      | some F =>
        if !areABICompatible caller F.fn.features then .ok none
        else do
          let p ← planCall (getOpCode i.op) i.retTy F
          .ok (some p)

/-- `runOnModule` (`libVFCInstrumentPRISM.cpp:612-659`): the functions selected.  The selection is
that of the other pass (`Verif.Pass.Select`) but for the functions defined in either library. -/
def Config.select (c : Config) (moduleName : Str) (inc exc : Pass.File) (function : Str)
    (names : List Str) : Except Pass.Fail (List Str) :=
  Pass.select moduleName inc exc function
    (names.filter fun n => decide (n ∉ defined c.staticLib ++ defined c.dynamicLib))

end Verif.Prism
