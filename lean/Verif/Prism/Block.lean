import Verif.Prism.Model

/-!
# The PRISM pass: replacing the instructions of a function

Model of `runOnBasicBlock`, `replaceWithPRCall`, `replaceArithmeticWithPRCall`, `getOperands`,
`getAllocaForVec` and `getReturnValueVector` (`libVFCInstrumentPRISM.cpp:750-973`) on functions in
static single assignment form, and of the execution of such functions.

Simplifications.
* Values are named by numbers.  The names of the values made for one instruction are taken five at
  a time from a counter.
* An instruction that is no candidate for replacement is an arbitrary function of its operands and
  of the memory; so is the end of a block.  Phi nodes are of this kind, the memory holding the
  number of the block executed before.
* The bit cast of an address to a pointer is the address itself, as with opaque pointers.
* A slot of the frame is named by the key of `prismAllocaMap` (the function being fixed), `none`
  standing for `returnIndex`.
* Only the function called can reach the slots whose addresses it is given.
-/

namespace Verif.Prism

open Verif.Pass (Ty Instr)

/-- `prismAllocaKey` (`libVFCInstrumentPRISM.cpp:484-486`) without the function. -/
structure Slot where
  ty : Ty
  index : Option Nat
deriving DecidableEq, Repr

/-- An argument of a call: a value, or the address of a slot. -/
inductive Arg where
  | val (id : Nat)
  | addr (k : Slot)
deriving DecidableEq, Repr

/-- Instructions. -/
inductive Ins (V M : Type) where
  /-- An instruction the pass may replace. -/
  | fp (id : Nat) (i : Instr) (args : List Nat)
  /-- Any other instruction of the program. -/
  | other (id : Nat) (args : List Nat) (f : List V → M → V × M)
  /-- Bit cast of two `float`s to a `double`. -/
  | cast (id a : Nat)
  /-- Bit cast of a `double` to two `float`s. -/
  | uncast (id a : Nat)
  | store (k : Slot) (a : Nat)
  | load (id : Nat) (k : Slot)
  | call (id : Nat) (callee : Str) (args : List Arg)

/-- A basic block: its instructions, the operands of its terminator and what the terminator does,
`none` being the return from the function. -/
structure Block (V M : Type) where
  body : List (Ins V M)
  uses : List Nat
  next : List V → M → M × Option Nat

/-- A function: its attribute `target-features`, the slots allocated at its beginning, its blocks
and the next name. -/
structure Func (V M : Type) where
  features : Option Str
  allocas : List Slot
  blocks : List (Block V M)
  fresh : Nat

variable {V M : Type}

/-! ## Execution -/

/-- What the instructions compute. -/
structure Sem (V M : Type) where
  /-- The instructions the pass may replace. -/
  fp : Instr → List V → M → V × M
  cast : V → V
  uncast : V → V
  /-- The functions of the library: value, slots and memory afterwards. -/
  lib : Str → List (V ⊕ Slot) → (Slot → V) → M → V × (Slot → V) × M

/-- A state of the execution. -/
structure State (V M : Type) where
  env : Nat → V
  slots : Slot → V
  mem : M

/-- Assign a value. -/
def State.set (s : State V M) (id : Nat) (v : V) : State V M :=
  { s with env := fun n => if n = id then v else s.env n }

/-- The value of an argument. -/
def Arg.eval (s : State V M) : Arg → V ⊕ Slot
  | .val id => .inl (s.env id)
  | .addr k => .inr k

/-- Execution of an instruction. -/
def exec (S : Sem V M) (s : State V M) : Ins V M → State V M
  | .fp id i args =>
    let r := S.fp i (args.map s.env) s.mem
    { s.set id r.1 with mem := r.2 }
  | .other id args f =>
    let r := f (args.map s.env) s.mem
    { s.set id r.1 with mem := r.2 }
  | .cast id a => s.set id (S.cast (s.env a))
  | .uncast id a => s.set id (S.uncast (s.env a))
  | .store k a => { s with slots := fun k' => if k' = k then s.env a else s.slots k' }
  | .load id k => s.set id (s.slots k)
  | .call id callee args =>
    let r := S.lib callee (args.map (Arg.eval s)) s.slots s.mem
    { s.set id r.1 with slots := r.2.1, mem := r.2.2 }

/-- Execution of a block: the state and the next block. -/
def execBlock (S : Sem V M) (b : Block V M) (s : State V M) : State V M × Option Nat :=
  let s := b.body.foldl (exec S) s
  let r := b.next (b.uses.map s.env) s.mem
  ({ s with mem := r.1 }, r.2)

/-- Execution of at most `n` blocks: the state and the block to execute next, `none` when the
function has returned or jumps to a block that does not exist. -/
def run (S : Sem V M) (F : Func V M) : Nat → State V M × Option Nat → State V M × Option Nat
  | 0, c => c
  | n + 1, (s, cur) =>
    match cur.bind fun b => F.blocks[b]? with
    | none => (s, none)
    | some b => run S F n (execBlock S b s)

/-! ## Replacement -/

/-- Replace the uses of a value by another in an argument. -/
def Arg.rename (x y : Nat) : Arg → Arg
  | .val a => .val (if a = x then y else a)
  | .addr k => .addr k

/-- Replace the uses of a value by another in an instruction. -/
def Ins.rename (x y : Nat) : Ins V M → Ins V M
  | .fp id i args => .fp id i (args.map fun a => if a = x then y else a)
  | .other id args f => .other id (args.map fun a => if a = x then y else a) f
  | .cast id a => .cast id (if a = x then y else a)
  | .uncast id a => .uncast id (if a = x then y else a)
  | .store k a => .store k (if a = x then y else a)
  | .load id k => .load id k
  | .call id callee args => .call id callee (args.map (Arg.rename x y))

/-- `getOperands` (`libVFCInstrumentPRISM.cpp:846-854`), the instructions made: operand number `j`
is bit cast to the value named `base + j`, or stored in its slot. -/
def operandCode (ty : Ty) (base : Nat) : Nat → List Operand → List Nat → List (Ins V M)
  | j, .direct :: os, _ :: as => operandCode ty base (j + 1) os as
  | j, .cast :: os, a :: as => .cast (base + j) a :: operandCode ty base (j + 1) os as
  | j, .slot :: os, a :: as => .store ⟨ty, some j⟩ a :: operandCode ty base (j + 1) os as
  | _, _, _ => []

/-- `getOperands` (`libVFCInstrumentPRISM.cpp:846-854`), the arguments. -/
def operandArgs (ty : Ty) (base : Nat) : Nat → List Operand → List Nat → List Arg
  | j, .direct :: os, a :: as => .val a :: operandArgs ty base (j + 1) os as
  | j, .cast :: os, _ :: as => .val (base + j) :: operandArgs ty base (j + 1) os as
  | j, .slot :: os, _ :: as => .addr ⟨ty, some j⟩ :: operandArgs ty base (j + 1) os as
  | _, _, _ => []

/-- The name of the value replacing the instruction. -/
def resultName (base : Nat) : Return → Nat
  | .direct => base + 3
  | _ => base + 4

/-- `replaceArithmeticWithPRCall` (`libVFCInstrumentPRISM.cpp:901-929`): the instructions inserted
after the instruction replaced. -/
def expand (ty : Ty) (base : Nat) (p : Plan) (args : List Nat) : List (Ins V M) :=
  let code := operandCode ty base 0 p.operands args
  let as := operandArgs ty base 0 p.operands args
  match p.ret with
  | .direct => code ++ [.call (base + 3) p.callee as]
  | .cast => code ++ [.call (base + 3) p.callee as, .uncast (base + 4) (base + 3)]
  | .slot => code ++ [.call (base + 3) p.callee (as ++ [.addr ⟨ty, none⟩]), .load (base + 4) ⟨ty, none⟩]

/-- The slots a call uses, in the order in which they are asked for. -/
def slotsOf (ty : Ty) (p : Plan) : List Slot :=
  ((p.operands.zipIdx.filter fun o => decide (o.1 = .slot)).map fun o => ⟨ty, some o.2⟩) ++
    (if p.ret = .slot then [⟨ty, none⟩] else [])

/-- `getAllocaForVec` (`libVFCInstrumentPRISM.cpp:750-772`): a slot that is not in the map is
allocated at the beginning of the function. -/
def addSlot (allocas : List Slot) (k : Slot) : List Slot :=
  if k ∈ allocas then allocas else k :: allocas

/-- Is this the instruction naming `x`, a candidate for replacement? -/
def Ins.isFp (x : Nat) : Ins V M → Bool
  | .fp id _ _ => id == x
  | _ => false

/-- The candidate named `x`. -/
def findFp (x : Nat) (F : Func V M) : Option (Instr × List Nat) :=
  (F.blocks.flatMap Block.body).findSome? fun
    | .fp id i args => if id = x then some (i, args) else none
    | _ => none

/-- `replaceWithPRCall` and `ReplaceInstWithValue` (`libVFCInstrumentPRISM.cpp:931-950, 961-970`)
on the instruction named `x`: the call is inserted after the instruction, the uses of its value
become uses of the new one, the instruction is erased. -/
def replaceOne (c : Config) (F : Func V M) (x : Nat) : Outcome (Func V M) :=
  match findFp x F with
  | none => .ok F
  | some (i, args) => do
    match ← c.plan F.features i with
    | none => .ok F
    | some p =>
      let y := resultName F.fresh p.ret
      .ok { features := F.features
            allocas := (slotsOf i.retTy p).foldl addSlot F.allocas
            blocks := F.blocks.map fun b =>
              { b with
                body := (b.body.flatMap fun ins =>
                  if ins.isFp x then expand i.retTy F.fresh p args else [ins]).map (Ins.rename x y)
                uses := b.uses.map fun a => if a = x then y else a }
            fresh := F.fresh + 5 }

/-- `runOnFunction` and `runOnBasicBlock` (`libVFCInstrumentPRISM.cpp:702-714, 952-973`): the
candidates are replaced one after the other.  The work list is a set of addresses, so that
`order`, the order of the replacements, is not that of the program. -/
def replaceAll (c : Config) (F : Func V M) : List Nat → Outcome (Func V M)
  | [] => .ok F
  | x :: xs => do
    let F ← replaceOne c F x
    replaceAll c F xs

/-- The work lists of the blocks (`libVFCInstrumentPRISM.cpp:954-959`), together and in the order
of the program. -/
def workList (F : Func V M) : List Nat :=
  (F.blocks.flatMap Block.body).filterMap fun
    | .fp id i _ => if mustReplace i then some id else none
    | _ => none

/-- What `runOnFunction` returns (`libVFCInstrumentPRISM.cpp:702-714, 953, 972`): the
disjunction of the results of the blocks, all `false`. -/
def runOnFunctionResult (F : Func V M) : Bool := F.blocks.any fun _ => false

end Verif.Prism
