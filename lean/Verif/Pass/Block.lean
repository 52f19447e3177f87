import Verif.Pass.Replace
import Verif.Wrapper.Dispatch

/-!
# The instrumentation pass on a whole function, and what the function computes

Model of `runOnFunction`, `runOnBasicBlock`, `replaceWithMCACall` and the functions it calls
(`libVFCInstrument.cpp:382-394, 404-524, 545-578, 649-675`) on functions in static single
assignment form, and of the execution of such functions linked with `vfcwrapper`.

Simplifications.
* Values are bit patterns named by numbers, lane 0 of a vector in the lowest bits; a bit cast
  changes nothing.  The names of the values made for one instruction are taken five at a time from
  a counter.
* An instruction that is no candidate for replacement is an arbitrary function of its operands and
  of the memory; so is the end of a block.  Phi nodes are of this kind, the ends of the blocks before
  putting the values coming in into the memory.  Calls are too, including calls of instrumented functions.
* The memory is arbitrary; it includes the state of the backends.
* `alloca` followed by `store`, whose address is only given to the wrapper as a `byval` argument, is
  one instruction: its value is what the address points to, and it takes room on the stack.
-/

namespace Verif.Pass

/-- Instructions; `id` is the name of the value. -/
inductive Ins (M : Type) where
  /-- An instruction the pass may replace, with the predicate if it is a comparison. -/
  | fp (id : Nat) (i : Instr) (pred : Nat) (args : List Nat)
  /-- Any other instruction of the program. -/
  | other (id : Nat) (args : List Nat) (f : List Nat → M → Nat × M)
  | bitcast (id a : Nat)
  /-- `alloca` and `store` (`libVFCInstrument.cpp:420-421`) of a value of some size in bits. -/
  | spill (id a bits : Nat)
  | call (id : Nat) (callee : String) (pred : Option Nat) (args : List Nat)
  /-- Integer truncation to the type. -/
  | trunc (id a : Nat) (ty : Ty)

/-- A basic block: its instructions, the operands of its terminator and what the terminator does,
`none` being the return from the function. -/
structure Block (M : Type) where
  body : List (Ins M)
  uses : List Nat
  next : List Nat → M → M × Option Nat

/-- A function: its blocks and the next name. -/
structure Func (M : Type) where
  blocks : List (Block M)
  fresh : Nat

variable {M : Type}

/-! ## Execution -/

/-- What instructions compute. -/
structure Sem (M : Type) where
  /-- The instructions the pass may replace: instruction, predicate, operands. -/
  native : Instr → Nat → List Nat → Nat
  /-- The wrappers: name, predicate, operands. -/
  wrapper : String → Option Nat → List Nat → M → Nat × M
  trunc : Ty → Nat → Nat

/-- A state of the execution; `stack` is the room taken on the stack, in bits. -/
structure State (M : Type) where
  env : Nat → Nat
  stack : Nat
  mem : M

/-- Assign a value. -/
def State.set (s : State M) (id v : Nat) : State M :=
  { s with env := fun n => if n = id then v else s.env n }

/-- Execution of an instruction. -/
def exec (S : Sem M) (s : State M) : Ins M → State M
  | .fp id i pred args => s.set id (S.native i pred (args.map s.env))
  | .other id args f => { s.set id (f (args.map s.env) s.mem).1 with mem := (f (args.map s.env) s.mem).2 }
  | .bitcast id a => s.set id (s.env a)
  | .spill id a bits => { s.set id (s.env a) with stack := s.stack + bits }
  | .call id callee pred args =>
    { s.set id (S.wrapper callee pred (args.map s.env) s.mem).1 with
      mem := (S.wrapper callee pred (args.map s.env) s.mem).2 }
  | .trunc id a ty => s.set id (S.trunc ty (s.env a))

/-- Execution of a block, given how instructions are executed: the state and the next block. -/
def runBlock (step : State M → Ins M → State M) (b : Block M) (s : State M) : State M × Option Nat :=
  let s := b.body.foldl step s
  let r := b.next (b.uses.map s.env) s.mem
  ({ s with mem := r.1 }, r.2)

/-- Execution of at most `n` blocks: the state and the block to execute next, `none` when the
function has returned or jumps to a block that does not exist. -/
def run (step : State M → Ins M → State M) (F : Func M) : Nat → State M × Option Nat → State M × Option Nat
  | 0, c => c
  | n + 1, (s, cur) =>
    match cur.bind fun b => F.blocks[b]? with
    | none => (s, none)
    | some b => run step F n (runBlock step b s)

/-! ## Replacement -/

/-- Replace the uses of a value by another in an instruction. -/
def Ins.rename (x y : Nat) : Ins M → Ins M
  | .fp id i pred args => .fp id i pred (args.map fun a => if a = x then y else a)
  | .other id args f => .other id (args.map fun a => if a = x then y else a) f
  | .bitcast id a => .bitcast id (if a = x then y else a)
  | .spill id a bits => .spill id (if a = x then y else a) bits
  | .call id callee pred args => .call id callee pred (args.map fun a => if a = x then y else a)
  | .trunc id a ty => .trunc id (if a = x then y else a) ty

/-- `updateOperand` (`libVFCInstrument.cpp:404-426`) on the operands from number `j` on: the
instructions made. -/
def operandCode (bits base : Nat) : Nat → List Operand → List Nat → List (Ins M)
  | j, .direct :: os, _ :: as => operandCode bits base (j + 1) os as
  | j, .bitcast :: os, a :: as => .bitcast (base + j) a :: operandCode bits base (j + 1) os as
  | j, .byval :: os, a :: as => .spill (base + j) a bits :: operandCode bits base (j + 1) os as
  | _, _, _ => []

/-- `updateOperand` (`libVFCInstrument.cpp:404-426`): the values passed. -/
def operandArgs (base : Nat) : Nat → List Operand → List Nat → List Nat
  | j, .direct :: os, a :: as => a :: operandArgs base (j + 1) os as
  | j, .bitcast :: os, _ :: as => (base + j) :: operandArgs base (j + 1) os as
  | j, .byval :: os, _ :: as => (base + j) :: operandArgs base (j + 1) os as
  | _, _, _ => []

/-- The predicate is the first argument of the wrapper of a comparison
(`libVFCInstrument.cpp:500-501`). -/
def immediate (i : Instr) (pred : Nat) : Option Nat := if i.op = .fcmp then some pred else none

/-- The instructions inserted before the instruction (`libVFCInstrument.cpp:440-524, 550`) and the
value replacing it, if any. -/
def expand (base : Nat) (i : Instr) (pred : Nat) (args : List Nat) : Result → List (Ins M) × Option Nat
  | .kept => ([], none)
  | .replaced name ops v =>
    let code := operandCode (i.opTy.bits.getD 0) base 0 ops args ++
      [.call (base + 3) name (immediate i pred) (operandArgs base 0 ops args)]
    match v with
    | .trunc => (code ++ [.trunc (base + 4) (base + 3) i.retTy], some (base + 4))
    | _ => (code, some (base + 3))
  | .dead name ops =>
    (operandCode (i.opTy.bits.getD 0) base 0 ops args ++
      [.call (base + 3) name (immediate i pred) (operandArgs base 0 ops args), .bitcast (base + 4) (base + 3)], none)

/-- Is this the candidate named `x`? -/
def Ins.isFp (x : Nat) : Ins M → Bool
  | .fp id _ _ _ => id == x
  | _ => false

/-- The candidate named `x`. -/
def findFp (x : Nat) (F : Func M) : Option (Instr × Nat × List Nat) :=
  (F.blocks.flatMap Block.body).findSome? fun
    | .fp id i pred args => if id = x then some (i, pred, args) else none
    | _ => none

/-- `ReplaceInstWithValue` with the code of the replacement: the code takes the place of the instruction,
and its value takes the place of the instruction's (`libVFCInstrument.cpp:666-669`). -/
def Block.replaced (x y : Nat) (code : List (Ins M)) (b : Block M) : Block M :=
  { b with
    body := (b.body.flatMap fun ins => if ins.isFp x then code else [ins]).map (Ins.rename x y)
    uses := b.uses.map fun a => if a = x then y else a }

/-- The code stays in front of an instruction that is not replaced: the builder has inserted it
there (`libVFCInstrument.cpp:550, 665-666`). -/
def Block.prepended (x : Nat) (code : List (Ins M)) (b : Block M) : Block M :=
  { b with body := b.body.flatMap fun ins => if ins.isFp x then code ++ [ins] else [ins] }

/-- The loop body of `runOnBasicBlock` (`libVFCInstrument.cpp:660-671`) for the instruction named
`x`: the call is inserted before it; if there is a value, the uses of the instruction become uses of
the value and the instruction is erased. -/
def replaceOne (sig : String → Sig) (fl : Flags) (F : Func M) (x : Nat) : Outcome (Func M) :=
  match findFp x F with
  | none => .ok F
  | some (i, pred, args) =>
    instrument sig fl i >>= fun r =>
    match expand F.fresh i pred args r with
    | (code, some y) => .ok { blocks := F.blocks.map (Block.replaced x y code), fresh := F.fresh + 5 }
    | (code, none) => .ok { blocks := F.blocks.map (Block.prepended x code), fresh := F.fresh + 5 }

/-- `runOnFunction` and `runOnBasicBlock` (`libVFCInstrument.cpp:382-394, 649-675`).  The work list
of a block is a set ordered by addresses, so that `order`, the order of the replacements, is not
that of the program. -/
def replaceAll (sig : String → Sig) (fl : Flags) (F : Func M) : List Nat → Outcome (Func M)
  | [] => .ok F
  | x :: xs => replaceOne sig fl F x >>= fun F => replaceAll sig fl F xs

/-- The work lists of the blocks (`libVFCInstrument.cpp:651-658`), together and in the order of the
program. -/
def workList (fl : Flags) (F : Func M) : List Nat :=
  (F.blocks.flatMap Block.body).filterMap fun
    | .fp id i _ _ => if mustReplace fl i ≠ .ignore then some id else none
    | _ => none

/-! ## The wrappers on bit patterns -/

/-- Lane `k` of a vector of elements of `b` bits. -/
def lane (b v k : Nat) : BitVec 64 := BitVec.ofNat 64 (v / 2 ^ (b * k) % 2 ^ b)

/-- A vector from its lanes. -/
def pack (b : Nat) : List (BitVec 64) → Nat
  | [] => 0
  | x :: xs => x.toNat % 2 ^ b + 2 ^ b * pack b xs

/-- The precision of an element type. -/
def precOf : STy → Option Wrapper.Prec
  | .float => some .float
  | .double => some .double
  | _ => none

/-- The entry of the backends a wrapper calls. -/
def entry (op : FPOp) (t : STy) : Option Wrapper.OpId :=
  match op, precOf t with
  | .add, some p => some (.arith .add p)
  | .sub, some p => some (.arith .sub p)
  | .mul, some p => some (.arith .mul p)
  | .div, some p => some (.arith .div p)
  | .cmp, some p => some (.cmp p)
  | .fma, some p => some (.fma p)
  | .cast, some .double => some .cast
  | _, _ => none

/-- Size of the elements of the result of an operation on a type: `int` for comparisons, `float`
for the cast. -/
def resBits (op : FPOp) (t : STy) : Nat :=
  match op with
  | .cmp => 32
  | .cast => 32
  | _ => t.bits

/-- The operands of lane `k`, after the predicate if there is one. -/
def laneArgs (b : Nat) (pred : Option Nat) (vals : List Nat) (k : Nat) : List (BitVec 64) :=
  (pred.toList.map (BitVec.ofNat 64)) ++ vals.map (lane b · k)

/-- The lanes of a wrapper from number `k` on, one after the other (`main.c.in:643-652, 695-703`);
`f` is the scalar wrapper. -/
def lanesFrom {σ : Type} (f : List (BitVec 64) → σ → BitVec 64 × σ) (b : Nat) (pred : Option Nat) (vals : List Nat) :
    Nat → Nat → σ → List (BitVec 64) × σ
  | 0, _, s => ([], s)
  | n + 1, k, s =>
    let r := f (laneArgs b pred vals k) s
    let rest := lanesFrom f b pred vals n (k + 1) r.2
    (r.1 :: rest.1, rest.2)

/-- A scalar wrapper as the program sees it.  An indeterminate value is read as 0
(`Wrapper.C30_defined`: it does not happen). -/
def scalarWrapper {σ κ : Type} (bs : List (Wrapper.Backend σ κ)) (ctx : Nat → κ) (o : Wrapper.OpId)
    (x : List (BitVec 64)) (s : σ) : BitVec 64 × σ :=
  ((Wrapper.scalar bs ctx o x s).1.getD 0, (Wrapper.scalar bs ctx o x s).2)

/-- A function of `vfcwrapper` (`main.c.in:600-740`) by its name; the memory is that of the program
and the state of the backends. -/
def wrapperFn {P σ κ : Type} (bs : List (Wrapper.Backend σ κ)) (ctx : Nat → κ) (name : String) (pred : Option Nat)
    (vals : List Nat) (m : P × σ) : Nat × (P × σ) :=
  match lookup name with
  | none => (0, m)
  | some w =>
    match entry w.op w.ty with
    | none => (0, m)
    | some o =>
      let r := lanesFrom (scalarWrapper bs ctx o) w.ty.bits pred vals (max 1 w.width) 0 m.2
      (pack (resBits w.op w.ty) r.1, (m.1, r.2))

/-- Truncation of `int`s to bits (`CreateIntCast`, `libVFCInstrument.cpp:502`). -/
def truncLanes : Ty → Nat → Nat
  | .vec n _, v => pack 1 ((List.range n).map fun k => lane 32 v k)
  | _, v => v % 2

end Verif.Pass
