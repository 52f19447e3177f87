import Verif.Base.Outcome

/-!
# Which instructions the instrumentation pass replaces, and by what

Model of `src/libvfcinstrument/libVFCInstrument.cpp` (`mustReplace`, `isValidInstruction`,
`getMCAFunctionName`, `replaceWithMCACall`) and of the names defined by the macros of
`src/vfcwrapper/main.c.in`.

Simplifications.
* LLVM types are reduced to scalars and vectors of scalars; pointers, with or without the
  `byval` attribute, only occur in the signature of a wrapper.
* `CastInst::isBitCastable` is modelled on these types: neither side a pointer, same size in
  bits.  (The real function also casts between pointers, which does not occur here.)
* Metadata, attributes and the ABI adjustment of the caller are left out.
-/

namespace Verif.Pass

/-- Scalar types. -/
inductive STy where
  | half | bfloat | float | double | x86fp80 | fp128 | ppcfp128
  | int (bits : Nat)
deriving DecidableEq, Repr

/-- Types of values. -/
inductive Ty where
  | scalar (t : STy)
  | vec (n : Nat) (t : STy)
  /-- Scalable vectors. -/
  | svec (n : Nat) (t : STy)
  | ptr
deriving DecidableEq, Repr

/-- Size of a scalar in bits. -/
def STy.bits : STy → Nat
  | .half => 16 | .bfloat => 16 | .float => 32 | .double => 64 | .x86fp80 => 80
  | .fp128 => 128 | .ppcfp128 => 128 | .int b => b

/-- Opcodes the pass tells apart. -/
inductive Opcode where
  | fadd | fsub | fmul | fdiv | fcmp | fptrunc
  /-- A call; the name of the function called, if it is a direct call. -/
  | call (callee : Option String)
  | other
deriving DecidableEq, Repr

/-- An instruction: opcode, type of its first operand, type of its result. -/
structure Instr where
  op : Opcode
  opTy : Ty
  retTy : Ty
deriving DecidableEq, Repr

/-- `enum FPOps` (`libVFCInstrument.cpp:105-114`). -/
inductive FPOp where
  | add | sub | mul | div | cmp | fma | cast | ignore
deriving DecidableEq, Repr

/-- `Fops2str` (`libVFCInstrument.cpp:117-118`). -/
def FPOp.str : FPOp → String
  | .add => "add" | .sub => "sub" | .mul => "mul" | .div => "div"
  | .cmp => "cmp" | .fma => "fma" | .cast => "cast" | .ignore => "ignore"

/-- `validTypesMap` (`libVFCInstrument.cpp:121-122`). -/
def validTypesMap : STy → Option String
  | .float => some "float"
  | .double => some "double"
  | _ => none

/-- `validVectorSizes` (`libVFCInstrument.cpp:125`). -/
def validVectorSizes : List Nat := [2, 4, 8, 16]

/-- The options of the pass. -/
structure Flags where
  fcmp : Bool
  fma : Bool
  cast : Bool
deriving DecidableEq, Repr

/-- `isFMAOperation` (`libVFCInstrument.cpp:580-597`). -/
def isFMAOperation : Option String → Bool
  | none => false
  | some name => name == "llvm.fmuladd.f32" || name == "llvm.fmuladd.f64" ||
      name == "llvm.fma.f32" || name == "llvm.fma.f64"

/-- `isValidCastOperation` (`libVFCInstrument.cpp:601-610`). -/
def isValidCastOperation (i : Instr) : Bool :=
  i.opTy == .scalar .double && i.retTy == .scalar .float

/-- `mustReplace` (`libVFCInstrument.cpp:612-647`). -/
def mustReplace (fl : Flags) (i : Instr) : FPOp :=
  match i.op with
  | .fadd => .add
  | .fsub => .sub
  | .fmul => .mul
  | .fdiv => .div
  | .fcmp => if fl.fcmp then .cmp else .ignore
  | .call callee => if fl.fma && isFMAOperation callee then .fma else .ignore
  | .fptrunc => if fl.cast && isValidCastOperation i then .cast else .ignore
  | .other => .ignore

/-- `isValidScalarInstruction` (`libVFCInstrument.cpp:348-355`). -/
def isValidScalar (t : STy) : Bool := (validTypesMap t).isSome

/-- `isValidInstruction` (`libVFCInstrument.cpp:358-380`); `none` when the pass reports a fatal
error. -/
def isValidInstruction (i : Instr) : Option Bool :=
  match i.opTy with
  | .scalar t => some (isValidScalar t)
  | .vec n t => some (validVectorSizes.contains n && isValidScalar t)
  | .svec _ _ => none
  | .ptr => some false

/-- `validTypesMap[...]` as `operator[]`: a missing key gives the empty string. -/
def tyName (t : STy) : String := (validTypesMap t).getD ""

/-- `getMCAFunctionName` (`libVFCInstrument.cpp:318-345`), on an instruction whose first operand
is neither a pointer nor a scalable vector. -/
def mcaName (i : Instr) (op : FPOp) : String :=
  let size := match i.opTy with
    | .vec n _ => toString n ++ "x"
    | _ => ""
  let base := match i.opTy with
    | .scalar t => tyName t
    | .vec _ t => tyName t
    | _ => ""
  let precision :=
    if op = .cast then
      (match i.opTy with | .scalar t => tyName t | _ => "") ++ "to" ++
        (match i.retTy with | .scalar t => tyName t | _ => "")
    else base
  "_" ++ size ++ precision ++ op.str

/-! ## The wrappers -/

/-- What a wrapper computes: operation, element type, number of elements (0 for a scalar). -/
structure Wrapper where
  name : String
  op : FPOp
  ty : STy
  width : Nat
deriving DecidableEq, Repr

/-- `define_arithmetic_wrapper(precision, operation, ...)` (`main.c.in:600-611`). -/
def arith (ty : STy) (tn : String) (op : FPOp) (on : String) : Wrapper :=
  ⟨"_" ++ tn ++ on, op, ty, 0⟩

/-- `define_vectorized_arithmetic_wrapper(precision, operation, size)` (`main.c.in:643-652`). -/
def varith (ty : STy) (tn : String) (op : FPOp) (on : String) (size : Nat) (sn : String) : Wrapper :=
  ⟨"_" ++ sn ++ "x" ++ tn ++ on, op, ty, size⟩

/-- The four arithmetic wrappers of one type and size. -/
def varith4 (ty : STy) (tn : String) (size : Nat) (sn : String) : List Wrapper :=
  [varith ty tn .add "add" size sn, varith ty tn .sub "sub" size sn,
   varith ty tn .mul "mul" size sn, varith ty tn .div "div" size sn]

/-- `define_vectorized_comparison_wrapper(precision, size)` (`main.c.in:695-703`). -/
def vcmp (ty : STy) (tn : String) (size : Nat) (sn : String) : Wrapper :=
  ⟨"_" ++ sn ++ "x" ++ tn ++ "cmp", .cmp, ty, size⟩

/-- `define_arithmetic_fma_wrapper(precision)` (`main.c.in:717-727`). -/
def fmaw (ty : STy) (tn : String) : Wrapper := ⟨"_" ++ tn ++ "fma", .fma, ty, 0⟩

/-- The wrappers of `main.c.in`, in the order of the file: scalar arithmetic (613-620), scalar
comparisons (622-640), vector arithmetic (655-692), vector comparisons (705-715), fused
multiply-add (729-730), cast (732-740). -/
def wrappers : List Wrapper :=
  [arith .float "float" .add "add", arith .float "float" .sub "sub",
   arith .float "float" .mul "mul", arith .float "float" .div "div",
   arith .double "double" .add "add", arith .double "double" .sub "sub",
   arith .double "double" .mul "mul", arith .double "double" .div "div",
   ⟨"_floatcmp", .cmp, .float, 0⟩, ⟨"_doublecmp", .cmp, .double, 0⟩] ++
  varith4 .float "float" 2 "2" ++ varith4 .double "double" 2 "2" ++
  varith4 .float "float" 4 "4" ++ varith4 .double "double" 4 "4" ++
  varith4 .float "float" 8 "8" ++ varith4 .double "double" 8 "8" ++
  varith4 .float "float" 16 "16" ++ varith4 .double "double" 16 "16" ++
  [vcmp .float "float" 2 "2", vcmp .double "double" 2 "2",
   vcmp .float "float" 4 "4", vcmp .double "double" 4 "4",
   vcmp .float "float" 8 "8", vcmp .double "double" 8 "8",
   vcmp .float "float" 16 "16", vcmp .double "double" 16 "16",
   fmaw .float "float", fmaw .double "double",
   ⟨"_doubletofloatcast", .cast, .double, 0⟩]

/-- `vfcwrapperM->getFunction(name)` (`libVFCInstrument.cpp:528`). -/
def lookup (name : String) : Option Wrapper := wrappers.find? (·.name == name)

/-! ## Replacement -/

/-- Signature of a wrapper as the compiler emits it for the target: the types of its arguments,
each with its `byval` attribute, and the type of its result. -/
structure Sig where
  args : List (Ty × Bool)
  ret : Ty
deriving DecidableEq, Repr

/-- Size in bits of a type that has one. -/
def Ty.bits : Ty → Option Nat
  | .scalar t => some t.bits
  | .vec n t => some (n * t.bits)
  | _ => none

/-- `CastInst::isBitCastable` (LLVM), on the types above. -/
def isBitCastable (a b : Ty) : Bool :=
  match a.bits, b.bits with
  | some m, some n => m == n
  | _, _ => false

/-- How an operand is passed. -/
inductive Operand where
  /-- As it is. -/
  | direct
  /-- Through a bit cast to the type of the parameter. -/
  | bitcast
  /-- Through the address of a copy. -/
  | byval
deriving DecidableEq, Repr

/-- `updateOperand` (`libVFCInstrument.cpp:404-426`). -/
def updateOperand (opTy : Ty) (arg : Ty × Bool) : Operand :=
  if opTy ≠ arg.1 then
    if isBitCastable opTy arg.1 then .bitcast
    else if arg.2 && arg.1 == .ptr then .byval
    else .direct
  else .direct

/-- What a value of the intermediate representation is. -/
inductive Value where
  /-- The call to the wrapper. -/
  | call
  /-- A bit cast of the call. -/
  | bitcast
  /-- An integer truncation of the call. -/
  | trunc
deriving DecidableEq, Repr

/-- `updateReturn` (`libVFCInstrument.cpp:429-437`). -/
def updateReturn (sigRet retTy : Ty) : Value :=
  if retTy ≠ sigRet then
    if isBitCastable sigRet retTy then .bitcast else .call
  else .call

/-- `dyn_cast<CallInst>`: null for anything but a call. -/
def dynCastCall : Value → Option Value
  | .call => some .call
  | _ => none

/-- What becomes of an instruction of the work list. -/
inductive Result where
  /-- Left as it is, no call inserted. -/
  | kept
  /-- A call to the wrapper is inserted before the instruction, which is left as it is. -/
  | dead (name : String) (operands : List Operand)
  /-- The instruction is replaced by a value computed from a call to the wrapper. -/
  | replaced (name : String) (operands : List Operand) (value : Value)
deriving DecidableEq, Repr

/-- Is `CreateIntCast` defined from the first type to the second?  Both must be integers, or
vectors of integers with the same number of elements. -/
def intCastable : Ty → Ty → Bool
  | .scalar (.int _), .scalar (.int _) => true
  | .vec m (.int _), .vec n (.int _) => m == n
  | _, _ => false

/-- `replaceWithMCACall` and the end of `runOnBasicBlock`
(`libVFCInstrument.cpp:440-524, 545-578, 660-671`) for an instruction with opcode `op`;
`sig` gives the signature of each wrapper.  A missing wrapper is a null pointer dereferenced
(`libVFCInstrument.cpp:528-531`), a scalable vector a fatal error; an integer cast of something
that is not an integer violates the precondition of `CreateIntCast`. -/
def replace (sig : String → Sig) (i : Instr) (op : FPOp) : Outcome Result :=
  match isValidInstruction i with
  | none => .exit
  | some false => .ok .kept
  | some true =>
    let name := mcaName i op
    match lookup name with
    | none => .ub
    | some _ =>
      let s := sig name
      match op with
      | .cmp =>
        let ops := (s.args.drop 1).map (updateOperand i.opTy)
        if intCastable s.ret i.retTy then .ok (.replaced name ops .trunc) else .ub
      | _ =>
        let ops := s.args.map (updateOperand i.opTy)
        match dynCastCall (updateReturn s.ret i.retTy) with
        | some v => .ok (.replaced name ops v)
        | none => .ok (.dead name ops)

/-- `runOnBasicBlock` on one instruction (`libVFCInstrument.cpp:649-675`). -/
def instrument (sig : String → Sig) (fl : Flags) (i : Instr) : Outcome Result :=
  let op := mustReplace fl i
  if op = .ignore then .ok .kept else replace sig i op

end Verif.Pass
