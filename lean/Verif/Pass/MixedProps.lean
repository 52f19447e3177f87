import Verif.Pass.LoopProps
import Verif.Pass.CastProps

/-!
# Property C102: the errors of programs that mix single and double precision

Programs as in C100, with numbers of both types, conversions from one to the other, fused multiply-adds, changes of sign, phi nodes and
selections.  Comparisons are those of the machine, as the options of Verificarlo have them unless they are asked for; additions,
subtractions, multiplications and divisions of either type, fused multiply-adds with `--inst-fma` and conversions of doubles to floats
with `--inst-cast` are those of the backends, which keep a contract for each.
-/

namespace Verif.Pass.Mix
open Verif Verif.Fp

variable {K σ κ α β : Type}

/-! ## Programs -/

/-- A statement and the name it defines; constants, addresses and phi nodes depend on the part `K` of the memory without floating point
numbers, where the program keeps its counters and the block it comes from.  Phi nodes are executed one after the other. -/
inductive Stmt (K : Type) where
  | const (p : Wrapper.Prec) (id : Nat) (x : K → Bits)
  | arith (p : Wrapper.Prec) (id : Nat) (op : Wrapper.Arith) (a b : Nat)
  | fma (p : Wrapper.Prec) (id : Nat) (a b c : Nat)
  | less (p : Wrapper.Prec) (id : Nat) (a b : Nat)
  | extend (id : Nat) (a : Nat)
  | trunc (id : Nat) (a : Nat)
  | neg (p : Wrapper.Prec) (id : Nat) (a : Nat)
  | select (id : Nat) (c a b : Nat)
  | phi (id : Nat) (pick : K → Bool) (a b : Nat)
  | load (id : Nat) (addr : K → Nat)
  | store (id : Nat) (a : Nat) (addr : K → Nat)

/-- A block, the comparison it ends with, if any, and what it does then: the next block, none to return. -/
structure Part (K : Type) where
  body : List (Stmt K)
  test : Option Nat
  next : K → Bool → K × Option Nat

/-- The intrinsic functions of LLVM. -/
def fmaName : Wrapper.Prec → String
  | .float => "llvm.fma.f32"
  | .double => "llvm.fma.f64"

def Stmt.ins : Stmt K → Ins (Mem K × σ)
  | .const p id x => .other id [] fun _ m => (word (fmtOf p) (x m.1.2), m)
  | .arith p id op a b => .fp id ⟨opcode op, .scalar (scalarOf p), .scalar (scalarOf p)⟩ 0 [a, b]
  | .fma p id a b c => .fp id ⟨.call (some (fmaName p)), .scalar (scalarOf p), .scalar (scalarOf p)⟩ 0 [a, b, c]
  | .less p id a b => .fp id ⟨.fcmp, .scalar (scalarOf p), .scalar (.int 1)⟩ olt [a, b]
  | .extend id a => .other id [a] fun v m => (word b64 (fconv b32 b64 (ofWord b32 (v.headD 0))), m)
  | .trunc id a => .fp id ⟨.fptrunc, .scalar .double, .scalar .float⟩ 0 [a]
  | .neg p id a => .other id [a] fun v m => (word (fmtOf p) (fneg (ofWord (fmtOf p) (v.headD 0))), m)
  | .select id c a b => .other id [c, a, b] fun v m => (if v.headD 0 = 1 then v.getD 1 0 else v.getD 2 0, m)
  | .phi id pick a b => .other id [a, b] fun v m => (if pick m.1.2 then v.getD 0 0 else v.getD 1 0, m)
  | .load id addr => .other id [] fun _ m => (m.1.1 (addr m.1.2), m)
  | .store id a addr => .other id [a] fun v m => (0, ((fun i => if i = addr m.1.2 then v.headD 0 else m.1.1 i, m.1.2), m.2))

/-- The function the program is compiled to, before the pass. -/
def compile (fresh : Nat) (prog : List (Part K)) : Func (Mem K × σ) :=
  { blocks := prog.map fun b =>
      { body := b.body.map Stmt.ins
        uses := b.test.toList
        next := fun v m => (((m.1.1, (b.next m.1.2 (v.headD 0 == 1)).1), m.2), (b.next m.1.2 (v.headD 0 == 1)).2) }
    fresh := fresh }

def Stmt.id : Stmt K → Nat
  | .const _ id _ | .arith _ id _ _ _ | .fma _ id _ _ _ | .less _ id _ _ | .extend id _ | .trunc id _ | .neg _ id _ | .select id _ _ _
  | .phi id _ _ _ | .load id _ | .store id _ _ => id

def Stmt.args : Stmt K → List Nat
  | .const _ _ _ | .load _ _ => []
  | .arith _ _ _ a b | .less _ _ a b | .phi _ _ a b => [a, b]
  | .fma _ _ a b c | .select _ a b c => [a, b, c]
  | .extend _ a | .trunc _ a | .neg _ _ a | .store _ a _ => [a]

/-- Names are defined once, and below `fresh`. -/
structure WellFormed (fresh : Nat) (prog : List (Part K)) : Prop where
  ssa : ((prog.flatMap Part.body).map Stmt.id).Nodup
  id : ∀ s ∈ prog.flatMap Part.body, s.id < fresh ∧ s.id ∉ s.args ∧ ∀ a ∈ s.args, a < fresh
  test : ∀ b ∈ prog, ∀ a ∈ b.test, a < fresh

/-- The wrappers of operations on scalars (`main.c.in:600-640,717-740`). -/
def wrapperSig (name : String) : Sig :=
  if name = "_doubletofloatcast" then ⟨[(.scalar .double, false)], .scalar .float⟩ else
  if name = "_floatcmp" then ⟨[(.scalar (.int 32), false), (.scalar .float, false), (.scalar .float, false)], .scalar (.int 32)⟩ else
  if name = "_doublecmp" then ⟨[(.scalar (.int 32), false), (.scalar .double, false), (.scalar .double, false)], .scalar (.int 32)⟩ else
  if name = "_floatfma" then ⟨[(.scalar .float, false), (.scalar .float, false), (.scalar .float, false)], .scalar .float⟩
  else if name = "_doublefma" then ⟨[(.scalar .double, false), (.scalar .double, false), (.scalar .double, false)], .scalar .double⟩
  else
  if name ∈ ["_floatadd", "_floatsub", "_floatmul", "_floatdiv"] then ⟨[(.scalar .float, false), (.scalar .float, false)], .scalar .float⟩
  else ⟨[(.scalar .double, false), (.scalar .double, false)], .scalar .double⟩

/-! ## Executions on abstract numbers -/

/-- Arithmetic that may fail. -/
structure Dom (α : Type) where
  const : Wrapper.Prec → Bits → Option α
  op : Wrapper.Prec → Wrapper.Arith → α → α → Option α
  fma : Wrapper.Prec → α → α → α → Option α
  less : Wrapper.Prec → α → α → Option Bool
  extend : α → Option α
  trunc : α → Option α
  neg : Wrapper.Prec → α → Option α

def Stmt.eval (D : Dom α) (s : Abs α K) : Stmt K → Option (Abs α K)
  | .const p id x => (D.const p (x s.ctl)).map (s.set id)
  | .arith p id op a b => (s.reg a).bind fun x => (s.reg b).bind fun y => (D.op p op x y).map (s.set id)
  | .fma p id a b c => (s.reg a).bind fun x => (s.reg b).bind fun y => (s.reg c).bind fun z => (D.fma p x y z).map (s.set id)
  | .less p id a b => (s.reg a).bind fun x => (s.reg b).bind fun y => (D.less p x y).map (s.setFlag id)
  | .extend id a => (s.reg a).bind fun x => (D.extend x).map (s.set id)
  | .trunc id a => (s.reg a).bind fun x => (D.trunc x).map (s.set id)
  | .neg p id a => (s.reg a).bind fun x => (D.neg p x).map (s.set id)
  | .select id c a b => (s.flag c).bind fun t => (s.reg (if t then a else b)).map (s.set id)
  | .phi id pick a b => (s.reg (if pick s.ctl then a else b)).map (s.set id)
  | .load id addr => (s.cell (addr s.ctl)).map (s.set id)
  | .store id a addr => (s.reg a).map fun x =>
      { s with
        reg := fun i => if i = id then none else s.reg i
        flag := fun i => if i = id then none else s.flag i
        cell := fun i => if i = addr s.ctl then some x else s.cell i }

def evalBody (D : Dom α) : List (Stmt K) → Abs α K → Option (Abs α K)
  | [], s => some s
  | a :: l, s => (a.eval D s).bind (evalBody D l)

/-- The outcome of the comparison a block ends with. -/
def Part.outcome (b : Part K) (s : Abs α K) : Option Bool :=
  match b.test with
  | none => some false
  | some t => s.flag t

def Part.eval (D : Dom α) (b : Part K) (s : Abs α K) : Option (Abs α K × Option Nat) :=
  (evalBody D b.body s).bind fun s => (b.outcome s).map fun t => ({ s with ctl := (b.next s.ctl t).1 }, (b.next s.ctl t).2)

/-- At most `n` blocks. -/
def evalRun (D : Dom α) (prog : List (Part K)) : Nat → Abs α K × Option Nat → Option (Abs α K × Option Nat)
  | 0, c => some c
  | n + 1, (s, cur) =>
    match cur.bind fun b => prog[b]? with
    | none => some (s, none)
    | some b => (b.eval D s).bind (evalRun D prog n)

/-- Exact arithmetic, in which conversions change nothing. -/
def exactDom : Dom ℚ where
  const p x := some (x.val (fmtOf p))
  op _ a x y := if a = .div ∧ y = 0 then none else some (realOp a x y)
  fma _ x y z := some (x * y + z)
  less _ x y := some (decide (x < y))
  extend x := some x
  trunc x := some x
  neg _ x := some (-x)

/-- A number, its type, and a bound on its error. -/
structure Val where
  prec : Wrapper.Prec
  val : ℚ
  err : ℚ

/-- The bounds on the errors of the backends, for each type. -/
structure Bounds where
  inn : Wrapper.Prec → Nat
  η : Wrapper.Prec → ℚ
  I : Wrapper.Prec → Range
  R : Wrapper.Prec → Range
  /-- the error of conversions, and the numbers it holds for -/
  cast : ℚ
  C : Range

structure Bounds.Ok (B : Bounds) : Prop where
  pos : ∀ p, 0 ≤ B.η p
  range : ∀ p, (B.I p).low ≤ (B.R p).low ∧ (B.R p).high ≤ (B.I p).high
  cast : 0 ≤ B.cast

/-- The numbers of both ranges. -/
def meet (S T : Range) : Range := ⟨max S.low T.low, min S.high T.high⟩

/-- The relative error of an operation of the machine. -/
def unit (p : Wrapper.Prec) : ℚ := 2 ^ (-((fmtOf p).mw : ℤ) - 1)

/-- A number at most `ez` from `z`, changed by `u` relatively if it is in the range `S`. -/
def rounded (p : Wrapper.Prec) (u : ℚ) (S : Range) (z ez : ℚ) : Option Val :=
  let e := ez + u * (|z| + ez)
  if z = 0 ∧ ez = 0 then some ⟨p, 0, 0⟩
  else if 2 ^ S.low ≤ |z| - e ∧ |z| + e < 2 ^ S.high then some ⟨p, z, e⟩
  else none

/-- The bound on the error of an operand after the backend has rounded it. -/
def inputErr (B : Bounds) (p : Wrapper.Prec) (x : Val) : ℚ := x.err + B.inn p * B.η p * (|x.val| + x.err)

/-- The relative error of a conversion to single precision: that of the backend if conversions are instrumented. -/
def castUnit (fl : Flags) (B : Bounds) : ℚ := if fl.cast then B.cast else unit .float

/-- The numbers it holds for. -/
def castRange (fl : Flags) (B : Bounds) : Range := meet (B.I .float) (if fl.cast then B.C else normal b32)

/-- The analysis of a program compiled with the options `fl`. -/
def errDom (fl : Flags) (B : Bounds) : Dom Val where
  const p x := if x.WF (fmtOf p) ∧ x.Fin (fmtOf p) ∧ (B.I p).Ok (x.val (fmtOf p)) then some ⟨p, x.val (fmtOf p), 0⟩ else none
  op p a x y :=
    if x.prec ≠ p ∨ y.prec ≠ p ∨ (a = .div ∧ (y.val = 0 ∨ |y.val| ≤ inputErr B p y)) then none
    else rounded p (B.η p) (B.R p) (realOp a x.val y.val) (spreadOp a x.val (inputErr B p x) y.val (inputErr B p y))
  fma p x y z :=
    if x.prec ≠ p ∨ y.prec ≠ p ∨ z.prec ≠ p then none
    else if fl.fma then rounded p (B.η p) (B.R p) (x.val * y.val + z.val)
      (spreadOp .mul x.val (inputErr B p x) y.val (inputErr B p y) + inputErr B p z)
    else rounded p (unit p) (meet (B.I p) (normal (fmtOf p))) (x.val * y.val + z.val) (spreadOp .mul x.val x.err y.val y.err + z.err)
  less p x y :=
    if x.prec ≠ p ∨ y.prec ≠ p then none
    else if x.err + y.err < |x.val - y.val| ∨ (x.err = 0 ∧ y.err = 0) then some (decide (x.val < y.val)) else none
  extend x := if x.prec ≠ .float then none else rounded .double 0 (B.I .double) x.val x.err
  trunc x := if x.prec ≠ .double then none else rounded .float (castUnit fl B) (castRange fl B) x.val x.err
  neg p x := if x.prec ≠ p then none else some ⟨p, -x.val, x.err⟩

/-! ## The analysis follows the exact execution -/

/-- What `D` knows of numbers is right of the numbers `f` takes from them. -/
structure Follows (f : α → β) (D : Dom α) (D' : Dom β) : Prop where
  const : ∀ p x v, D.const p x = some v → D'.const p x = some (f v)
  op : ∀ p a x y v, D.op p a x y = some v → D'.op p a (f x) (f y) = some (f v)
  fma : ∀ p x y z v, D.fma p x y z = some v → D'.fma p (f x) (f y) (f z) = some (f v)
  less : ∀ p x y b, D.less p x y = some b → D'.less p (f x) (f y) = some b
  extend : ∀ x v, D.extend x = some v → D'.extend (f x) = some (f v)
  trunc : ∀ x v, D.trunc x = some v → D'.trunc (f x) = some (f v)
  neg : ∀ p x v, D.neg p x = some v → D'.neg p (f x) = some (f v)

theorem map_reg (f : α → β) (s : Abs α K) (i : Nat) {x : α} (h : s.reg i = some x) : (s.map f).reg i = some (f x) := by
  simp [Abs.map, h]

theorem eval_follows {f : α → β} {D : Dom α} {D' : Dom β} (h : Follows f D D') (s s' : Abs α K) (a : Stmt K)
    (he : a.eval D s = some s') : a.eval D' (s.map f) = some (s'.map f) := by
  cases a with
  | const p id x =>
    obtain ⟨v, h1, rfl⟩ := Option.map_eq_some_iff.1 he
    simp only [Stmt.eval, show (s.map f).ctl = s.ctl from rfl, h.const p _ v h1, Option.map_some, map_set]
  | arith p id op a b =>
    obtain ⟨x, hx, he⟩ := Option.bind_eq_some_iff.1 he
    obtain ⟨y, hy, he⟩ := Option.bind_eq_some_iff.1 he
    obtain ⟨v, h1, rfl⟩ := Option.map_eq_some_iff.1 he
    simp only [Stmt.eval, map_reg f s a hx, map_reg f s b hy, Option.bind_some, h.op p op x y v h1, Option.map_some, map_set]
  | fma p id a b c =>
    obtain ⟨x, hx, he⟩ := Option.bind_eq_some_iff.1 he
    obtain ⟨y, hy, he⟩ := Option.bind_eq_some_iff.1 he
    obtain ⟨z, hz, he⟩ := Option.bind_eq_some_iff.1 he
    obtain ⟨v, h1, rfl⟩ := Option.map_eq_some_iff.1 he
    simp only [Stmt.eval, map_reg f s a hx, map_reg f s b hy, map_reg f s c hz, Option.bind_some, h.fma p x y z v h1, Option.map_some, map_set]
  | less p id a b =>
    obtain ⟨x, hx, he⟩ := Option.bind_eq_some_iff.1 he
    obtain ⟨y, hy, he⟩ := Option.bind_eq_some_iff.1 he
    obtain ⟨v, h1, rfl⟩ := Option.map_eq_some_iff.1 he
    simp only [Stmt.eval, map_reg f s a hx, map_reg f s b hy, Option.bind_some, h.less p x y v h1, Option.map_some, map_setFlag]
  | extend id a =>
    obtain ⟨x, hx, he⟩ := Option.bind_eq_some_iff.1 he
    obtain ⟨v, h1, rfl⟩ := Option.map_eq_some_iff.1 he
    simp only [Stmt.eval, map_reg f s a hx, Option.bind_some, h.extend x v h1, Option.map_some, map_set]
  | trunc id a =>
    obtain ⟨x, hx, he⟩ := Option.bind_eq_some_iff.1 he
    obtain ⟨v, h1, rfl⟩ := Option.map_eq_some_iff.1 he
    simp only [Stmt.eval, map_reg f s a hx, Option.bind_some, h.trunc x v h1, Option.map_some, map_set]
  | neg p id a =>
    obtain ⟨x, hx, he⟩ := Option.bind_eq_some_iff.1 he
    obtain ⟨v, h1, rfl⟩ := Option.map_eq_some_iff.1 he
    simp only [Stmt.eval, map_reg f s a hx, Option.bind_some, h.neg p x v h1, Option.map_some, map_set]
  | select id c a b =>
    obtain ⟨t, ht, he⟩ := Option.bind_eq_some_iff.1 he
    obtain ⟨v, h1, rfl⟩ := Option.map_eq_some_iff.1 he
    simp only [Stmt.eval, show (s.map f).flag c = some t from ht, Option.bind_some, map_reg f s _ h1, Option.map_some, map_set]
  | phi id pick a b =>
    obtain ⟨v, h1, rfl⟩ := Option.map_eq_some_iff.1 he
    simp only [Stmt.eval, show (s.map f).ctl = s.ctl from rfl, map_reg f s _ h1, Option.map_some, map_set]
  | load id addr =>
    obtain ⟨v, h1, rfl⟩ := Option.map_eq_some_iff.1 he
    simp only [Stmt.eval, show (s.map f).cell (addr (s.map f).ctl) = some (f v) by simp [Abs.map, h1], Option.map_some, map_set]
  | store id a addr =>
    obtain ⟨v, h1, rfl⟩ := Option.map_eq_some_iff.1 he
    simp only [Stmt.eval, map_reg f s a h1, Option.map_some]
    congr 1
    unfold Abs.map
    congr 1 <;> (funext i; dsimp only; split_ifs <;> rfl)

theorem body_follows {f : α → β} {D : Dom α} {D' : Dom β} (h : Follows f D D') (l : List (Stmt K)) (s s' : Abs α K)
    (he : evalBody D l s = some s') : evalBody D' l (s.map f) = some (s'.map f) := by
  induction l generalizing s with
  | nil => rw [evalBody] at he ⊢; rw [Option.some.inj he]
  | cons a l ih =>
    obtain ⟨s1, h1, h2⟩ := Option.bind_eq_some_iff.1 he
    rw [evalBody, eval_follows h s s1 a h1]
    exact ih s1 h2

theorem run_follows {f : α → β} {D : Dom α} {D' : Dom β} (h : Follows f D D') (prog : List (Part K)) (n : Nat) (s s' : Abs α K)
    (cur cur' : Option Nat) (he : evalRun D prog n (s, cur) = some (s', cur')) :
    evalRun D' prog n (s.map f, cur) = some (s'.map f, cur') := by
  induction n generalizing s cur with
  | zero =>
    obtain ⟨rfl, rfl⟩ := Prod.mk.inj (Option.some.inj he)
    rfl
  | succ n ih =>
    rw [evalRun] at he ⊢
    cases hb : cur.bind fun b => prog[b]? with
    | none =>
      rw [hb] at he
      obtain ⟨rfl, rfl⟩ := Prod.mk.inj (Option.some.inj he)
      rfl
    | some b =>
      rw [hb] at he
      obtain ⟨⟨s1, c1⟩, h1, h2⟩ := Option.bind_eq_some_iff.1 he
      obtain ⟨s2, h3, h4⟩ := Option.bind_eq_some_iff.1 h1
      obtain ⟨t, h5, h6⟩ := Option.map_eq_some_iff.1 h4
      obtain ⟨rfl, rfl⟩ := Prod.mk.inj h6
      have e : b.eval D' (s.map f) = some (({ s2 with ctl := (b.next s2.ctl t).1 } : Abs α K).map f, (b.next s2.ctl t).2) := by
        unfold Part.eval
        rw [body_follows h _ _ _ h3, Option.bind_some, show b.outcome (s2.map f) = b.outcome s2 from rfl, h5]
        rfl
      dsimp only
      rw [e]
      exact ih _ _ h2

theorem rounded_val {p : Wrapper.Prec} {u : ℚ} {S : Range} {z ez : ℚ} {w : Val} (h : rounded p u S z ez = some w) : w.prec = p ∧ w.val = z := by
  simp only [rounded] at h
  split_ifs at h with h1 h2
  · obtain rfl := Option.some.inj h
    exact ⟨rfl, h1.1.symm⟩
  · obtain rfl := Option.some.inj h
    exact ⟨rfl, rfl⟩

/-- The values of the analysis are those of exact arithmetic, and its comparisons are those of the exact values. -/
theorem err_follows (fl : Flags) (B : Bounds) : Follows Val.val (errDom fl B) exactDom where
  const p x v h := by
    simp only [errDom] at h
    split_ifs at h
    rw [← Option.some.inj h]
    rfl
  op p a x y v h := by
    simp only [errDom] at h
    split_ifs at h with h1
    simp only [exactDom]
    rw [if_neg fun h2 => h1 (Or.inr (Or.inr ⟨h2.1, Or.inl h2.2⟩)), (rounded_val h).2]
  fma p x y z v h := by
    simp only [errDom] at h
    split_ifs at h with h1 <;> simp only [exactDom, (rounded_val h).2]
  less p x y b h := by
    simp only [errDom] at h
    split_ifs at h
    rw [← Option.some.inj h]
    rfl
  extend x v h := by
    simp only [errDom] at h
    split_ifs at h with h1
    simp only [exactDom, (rounded_val h).2]
  trunc x v h := by
    simp only [errDom] at h
    split_ifs at h with h1
    simp only [exactDom, (rounded_val h).2]
  neg p x v h := by
    simp only [errDom] at h
    split_ifs at h
    rw [← Option.some.inj h]
    rfl

/-! ## One operation -/

/-- A number of the program within the bound of the analysis. -/
def Within (I : Wrapper.Prec → Range) (v : Val) (y : Bits) : Prop :=
  y.WF (fmtOf v.prec) ∧ y.Fin (fmtOf v.prec) ∧ (I v.prec).Ok (y.val (fmtOf v.prec)) ∧ |y.val (fmtOf v.prec) - v.val| ≤ v.err

theorem rounded_sound {I : Wrapper.Prec → Range} {p : Wrapper.Prec} {u : ℚ} (h0 : 0 ≤ u) {S : Range} (hS : (I p).low ≤ S.low ∧ S.high ≤ (I p).high)
    {z ez z' : ℚ} (hz : |z' - z| ≤ ez) {y : Bits} (hy : y.WF (fmtOf p))
    (c : S.Ok z' → y.Fin (fmtOf p) ∧ |y.val (fmtOf p) - z'| ≤ u * |z'|) {w : Val} (h : rounded p u S z ez = some w) : Within I w y := by
  have hez := le_trans (abs_nonneg _) hz
  simp only [rounded] at h
  split_ifs at h with h2 h3
  · obtain rfl := Option.some.inj h
    rw [h2.1, h2.2, sub_zero] at hz
    have hz0 : z' = 0 := abs_eq_zero.1 (le_antisymm hz (abs_nonneg _))
    obtain ⟨fy, ey⟩ := c (Or.inl hz0)
    rw [hz0, abs_zero, mul_zero, sub_zero] at ey
    have := abs_eq_zero.1 (le_antisymm ey (abs_nonneg _))
    exact ⟨hy, fy, Or.inl this, by show |y.val (fmtOf p) - 0| ≤ 0; rw [this]; simp⟩
  · obtain rfl := Option.some.inj h
    have a1 := abs_sub_abs_le_abs_sub z' z
    have a2 := abs_sub_abs_le_abs_sub z z'
    rw [abs_sub_comm] at a2
    have hη : 0 ≤ u * (|z| + ez) := by positivity
    obtain ⟨fy, ey⟩ := c (Or.inr ⟨by linarith [h3.1], by linarith [h3.2]⟩)
    have e3 : |y.val (fmtOf p) - z| ≤ ez + u * (|z| + ez) := by
      have := abs_sub_le (y.val (fmtOf p)) z' z
      have := mul_le_mul_of_nonneg_left (show |z'| ≤ |z| + ez by linarith) h0
      linarith
    refine ⟨hy, fy, Or.inr ⟨?_, ?_⟩, e3⟩
    · show _ ≤ |y.val (fmtOf p)|
      have := abs_sub_abs_le_abs_sub z (y.val (fmtOf p))
      rw [abs_sub_comm] at this
      exact le_trans (zpow_le_zpow_right₀ (by norm_num) hS.1) (by linarith [h3.1])
    · show |y.val (fmtOf p)| < _
      have := abs_sub_abs_le_abs_sub (y.val (fmtOf p)) z
      exact lt_of_lt_of_le (show _ < (2 : ℚ) ^ S.high by linarith [h3.2]) (zpow_le_zpow_right₀ (by norm_num) hS.2)

/-- The contract of the backends, for both types and for conversions. -/
def Bounds.contract (B : Bounds) : Contract := fun o x y =>
  (∀ p, SignedContract p (B.inn p) (B.η p) (B.I p) (B.R p) o x y) ∧ CastContract B.cast B.C o x y

/-- The operands of the backend. -/
theorem input_sound (B : Bounds) (hB : B.Ok) (p : Wrapper.Prec) (u : Val) (V V' : ℚ) (h1 : |V - u.val| ≤ u.err)
    (h2 : |V' - V| ≤ B.inn p * B.η p * |V|) : |V' - u.val| ≤ inputErr B p u := by
  have h3 : |V| ≤ |u.val| + u.err := by
    have := abs_sub_abs_le_abs_sub V u.val
    linarith
  have h4 := mul_le_mul_of_nonneg_left h3 (mul_nonneg (Nat.cast_nonneg (α := ℚ) (B.inn p)) (hB.pos p))
  have h5 := abs_sub_le V' V u.val
  unfold inputErr
  linarith

theorem op_sound (fl : Flags) (B : Bounds) (hB : B.Ok) (p : Wrapper.Prec) (a : Wrapper.Arith) (x : List (BitVec 64)) (y : Bits) (u v w : Val)
    (wA : Within B.I u (operand (fmtOf p) x 0)) (wB : Within B.I v (operand (fmtOf p) x 1)) (hy : y.WF (fmtOf p))
    (hc : B.contract (.arith a p) x y) (h : (errDom fl B).op p a u v = some w) : Within B.I w y := by
  simp only [errDom] at h
  split_ifs at h with h1
  simp only [not_or, not_not] at h1
  obtain ⟨h2, h3, h1⟩ := h1
  unfold Within at wA wB
  rw [h2] at wA
  rw [h3] at wB
  obtain ⟨-, fA, iA, dA⟩ := wA
  obtain ⟨-, fB, iB, dB⟩ := wB
  obtain ⟨A', B', cA, cB, c⟩ := hc.1 p rfl fA fB iA iB
  have mA := input_sound B hB p u _ _ dA cA
  have mB := input_sound B hB p v _ _ dB cB
  have hd : a = .div → inputErr B p v < |v.val| := fun ha => by
    by_contra hn
    exact h1 ⟨ha, Or.inr (not_lt.1 hn)⟩
  have hB' : a = .div → B' ≠ 0 := by
    rintro ha rfl
    have := hd ha
    rw [zero_sub, abs_neg] at mB
    linarith
  exact rounded_sound (hB.pos p) (hB.range p) (spread_sound a mA mB hd) hy (c hB') h

/-- The error of a product and a sum. -/
theorem spread_fma {x y z ex ey ez X Y Z : ℚ} (hx : |X - x| ≤ ex) (hy : |Y - y| ≤ ey) (hz : |Z - z| ≤ ez) :
    |X * Y + Z - (x * y + z)| ≤ spreadOp .mul x ex y ey + ez := by
  have m := spread_sound .mul hx hy (by simp)
  rw [show X * Y + Z - (x * y + z) = (realOp .mul X Y - realOp .mul x y) + (Z - z) by simp only [realOp]; ring]
  exact le_trans (abs_add_le _ _) (add_le_add m hz)

/-- A fused multiply-add of the backend. -/
theorem fma_sound (fl : Flags) (hf : fl.fma = true) (B : Bounds) (hB : B.Ok) (p : Wrapper.Prec) (x : List (BitVec 64)) (y : Bits) (u v t w : Val)
    (wA : Within B.I u (operand (fmtOf p) x 0)) (wB : Within B.I v (operand (fmtOf p) x 1)) (wC : Within B.I t (operand (fmtOf p) x 2))
    (hy : y.WF (fmtOf p)) (hc : B.contract (.fma p) x y) (h : (errDom fl B).fma p u v t = some w) : Within B.I w y := by
  simp only [errDom, hf, if_true] at h
  split_ifs at h with h1
  simp only [not_or, not_not] at h1
  obtain ⟨h2, h3, h4⟩ := h1
  unfold Within at wA wB wC
  rw [h2] at wA
  rw [h3] at wB
  rw [h4] at wC
  obtain ⟨A', B', C', cA, cB, cC, c⟩ := hc.1 p rfl wA.2.1 wB.2.1 wC.2.1 wA.2.2.1 wB.2.2.1 wC.2.2.1
  exact rounded_sound (hB.pos p) (hB.range p) (spread_fma (input_sound B hB p u _ _ wA.2.2.2 cA) (input_sound B hB p v _ _ wB.2.2.2 cB)
    (input_sound B hB p t _ _ wC.2.2.2 cC)) hy c h

theorem less_sound (fl : Flags) (B : Bounds) (p : Wrapper.Prec) (u v : Val) (A A2 : Bits) (hA : Within B.I u A) (hA2 : Within B.I v A2)
    (b : Bool) (h : (errDom fl B).less p u v = some b) : u.prec = p ∧ v.prec = p ∧ decide (A.val (fmtOf p) < A2.val (fmtOf p)) = b := by
  obtain ⟨-, -, -, eA⟩ := hA
  obtain ⟨-, -, -, eB⟩ := hA2
  simp only [errDom] at h
  split_ifs at h with h0 h1
  simp only [not_or, not_not] at h0
  obtain ⟨e1, e2⟩ := h0
  refine ⟨e1, e2, ?_⟩
  rw [e1] at eA
  rw [e2] at eB
  rw [← Option.some.inj h, decide_eq_decide]
  have a1 := abs_le.1 eA
  have a2 := abs_le.1 eB
  rcases h1 with h1 | ⟨h1, h2⟩
  · rcases lt_abs.1 h1 with h1 | h1 <;> constructor <;> intro h2 <;> linarith
  · rw [h1] at a1
    rw [h2] at a2
    constructor <;> intro h3 <;> linarith

/-! ## The machine -/

/-- The conversion of a double to single precision. -/
theorem host_trunc (x : Bits) (hx : x.WF b64) (fx : x.Fin b64) : Vprec.Host b32 (x.val b64) (fconv b64 b32 x) := by
  have e : fconv b64 b32 x = encode b32 x.sign (x.mag b64) 925 := fconv_back wider32 x (fin_lt hx fx)
  have := Vprec.host_encodeQ b32 (by decide) x.sign (x.mag b64) (2 ^ 925) (by positivity)
  rw [encodeQ_pow] at this
  rw [e]
  have v : x.val b64 = sgn x.sign * ((x.mag b64 : ℚ) / ((2 ^ 925 : ℕ) : ℚ)) * 2 ^ b32.uexp := by
    rw [val_eq_mag, show b64.uexp = -1074 from rfl, show b32.uexp = -149 from rfl, show (-1074 : ℤ) = -149 - (925 : ℕ) by norm_num,
      zpow_sub₀ (by norm_num), zpow_natCast]
    push_cast
    ring
  rw [v]
  exact this

/-- The conversion of a single to double precision. -/
theorem extend_exact (x : Bits) (hx : x.WF b32) (fx : x.Fin b32) :
    (fconv b32 b64 x).WF b64 ∧ (fconv b32 b64 x).Fin b64 ∧ (fconv b32 b64 x).val b64 = x.val b32 := by
  obtain ⟨w1, w2, w3, w4⟩ := widen_spec wider32 x hx (fin_lt hx fx)
  refine ⟨w2, by unfold Bits.Fin; omega, ?_⟩
  rw [val_eq_mag, val_eq_mag, w1, w4, show b64.uexp = -1074 from rfl, show b32.uexp = -149 from rfl,
    show (-149 : ℤ) = -1074 + (925 : ℕ) by norm_num, zpow_add₀ (by norm_num), zpow_natCast]
  push_cast
  ring

/-- A result of the machine in the range of normal numbers. -/
theorem host_unit (p : Wrapper.Prec) (z : ℚ) (y : Bits) (h : Vprec.Host (fmtOf p) z y) (S : Range) (hz : (meet S (normal (fmtOf p))).Ok z) :
    y.Fin (fmtOf p) ∧ |y.val (fmtOf p) - z| ≤ unit p * |z| := by
  rcases hz with rfl | hz
  · obtain ⟨fy, ey⟩ := host_zero (fmtOf p) y h
    exact ⟨fy, by rw [ey]; simp⟩
  · obtain ⟨h1, h2⟩ := hz
    obtain ⟨fy, ey⟩ := host_rel (fmtOf p) (by cases p <;> decide) z y h
      (le_trans (zpow_le_zpow_right₀ (by norm_num) (le_max_right _ _)) h1)
      (lt_of_lt_of_le h2 (zpow_le_zpow_right₀ (by norm_num) (min_le_right _ _)))
    exact ⟨fy, by rw [mul_comm]; exact ey⟩

/-- The machine compares, converts and multiplies and adds as IEEE 754 says. -/
structure Machine (op1 : Wrapper.OpId → List (BitVec 64) → BitVec 64) : Prop where
  cmp : ∀ p, Compares p op1
  fma : ∀ p A B C, A.WF (fmtOf p) → B.WF (fmtOf p) → C.WF (fmtOf p) →
    op1 (.fma p) [image (fmtOf p) A, image (fmtOf p) B, image (fmtOf p) C] = image (fmtOf p) (ffma (fmtOf p) A B C)
  cast : ∀ A, A.WF b64 → op1 .cast [image b64 A] = image b32 (fconv b64 b32 A)

/-! ## The compiled program -/

/-- A state of the program that is as the analysis says. -/
structure Agrees (W : Val → Bits → Prop) (s : Abs Val K) (env : Nat → Nat) (m : Mem K) : Prop where
  reg : ∀ i v, s.reg i = some v → ∃ y, W v y ∧ env i = word (fmtOf v.prec) y
  flag : ∀ i b, s.flag i = some b → env i = b.toNat
  cell : ∀ i v, s.cell i = some v → ∃ y, W v y ∧ m.1 i = word (fmtOf v.prec) y
  ctl : m.2 = s.ctl

theorem Agrees.set {W : Val → Bits → Prop} {s : Abs Val K} {env : Nat → Nat} {m : Mem K} (h : Agrees W s env m) (id : Nat)
    (v : Val) (y : Bits) (hy : W v y) (x : Nat) (hx : x = word (fmtOf v.prec) y) :
    Agrees W (s.set id v) (fun i => if i = id then x else env i) m where
  reg i w hw := by
    simp only [Abs.set] at hw
    split_ifs at hw with hi
    · obtain rfl := Option.some.inj hw
      exact ⟨y, hy, by rw [if_pos hi, hx]⟩
    · rw [if_neg hi]
      exact h.reg i w hw
  flag i b hb := by
    simp only [Abs.set] at hb
    split_ifs at hb with hi
    rw [if_neg hi]
    exact h.flag i b hb
  cell := h.cell
  ctl := h.ctl

theorem image_toNat (p : Wrapper.Prec) (y : Bits) (hy : y.WF (fmtOf p)) : (image (fmtOf p) y).toNat % 2 ^ (fmtOf p).width = word (fmtOf p) y := by
  have hw := word_lt (fmtOf p) y hy
  have h64 : 2 ^ (fmtOf p).width ≤ 2 ^ 64 := Nat.pow_le_pow_right (by norm_num) (width_small p)
  unfold image
  rw [BitVec.toNat_ofNat, Nat.mod_eq_of_lt (show word (fmtOf p) y < 2 ^ 64 by omega), Nat.mod_eq_of_lt hw]

theorem native_fma (op1 : Wrapper.OpId → List (BitVec 64) → BitVec 64) (hM : Machine op1) (rest : Instr → Nat → List Nat → Nat) (p : Wrapper.Prec)
    (A B C : Bits) (wA : A.WF (fmtOf p)) (wB : B.WF (fmtOf p)) (wC : C.WF (fmtOf p)) :
    nativeOf op1 rest ⟨.call (some (fmaName p)), .scalar (scalarOf p), .scalar (scalarOf p)⟩ 0
      [word (fmtOf p) A, word (fmtOf p) B, word (fmtOf p) C] = word (fmtOf p) (ffma (fmtOf p) A B C) := by
  have hk : kind (.call (some (fmaName p))) = some .fma := by cases p <;> decide
  have hm : meaning .fma (scalarOf p) = some (.fma p) := by cases p <;> rfl
  have ho : outBits (.fma p) = (fmtOf p).width := by cases p <;> rfl
  have hn : ¬ (Opcode.call (some (fmaName p)) = .fcmp) := by simp
  have hwf : (ffma (fmtOf p) A B C).WF (fmtOf p) := ffma_wf _ (by cases p <;> decide) _ _ _ wC
  simp only [nativeOf, hk, Ty.shape, hm, if_neg hn, ho]
  show (op1 (.fma p) [lane (scalarOf p).bits (word (fmtOf p) A) 0, lane (scalarOf p).bits (word (fmtOf p) B) 0, lane (scalarOf p).bits (word (fmtOf p) C) 0]).toNat % 2 ^ (fmtOf p).width + 2 ^ (fmtOf p).width * 0 = _
  rw [lane_image p A wA, lane_image p B wB, lane_image p C wC, hM.fma p A B C wA wB wC, image_toNat p _ hwf, Nat.mul_zero, Nat.add_zero]

theorem native_cast (op1 : Wrapper.OpId → List (BitVec 64) → BitVec 64) (hM : Machine op1) (rest : Instr → Nat → List Nat → Nat)
    (A : Bits) (wA : A.WF b64) :
    nativeOf op1 rest ⟨.fptrunc, .scalar .double, .scalar .float⟩ 0 [word b64 A] = word b32 (fconv b64 b32 A) := by
  have hn : ¬ (Opcode.fptrunc = .fcmp) := by simp
  simp only [nativeOf, kind, Ty.shape, meaning, if_neg hn]
  show (op1 .cast [lane (scalarOf .double).bits (word (fmtOf .double) A) 0]).toNat % 2 ^ b32.width + 2 ^ b32.width * 0 = _
  rw [lane_image .double A wA, show image (fmtOf .double) A = image b64 A from rfl, hM.cast A wA, Nat.mul_zero, Nat.add_zero]
  exact image_toNat .float _ (fconv_wf _ _ (by decide) _)

theorem native_less (op1 : Wrapper.OpId → List (BitVec 64) → BitVec 64) (hM : Machine op1) (rest : Instr → Nat → List Nat → Nat) (p : Wrapper.Prec)
    (A B : Bits) (wA : A.WF (fmtOf p)) (wB : B.WF (fmtOf p)) (fA : A.Fin (fmtOf p)) (fB : B.Fin (fmtOf p)) :
    nativeOf op1 rest ⟨.fcmp, .scalar (scalarOf p), .scalar (.int 1)⟩ olt [word (fmtOf p) A, word (fmtOf p) B] =
      (decide (A.val (fmtOf p) < B.val (fmtOf p))).toNat := by
  have hm : meaning .cmp (scalarOf p) = some (.cmp p) := by cases p <;> rfl
  simp only [nativeOf, kind, Ty.shape, hm, if_true]
  show (op1 (.cmp p) [BitVec.ofNat 64 4, lane (scalarOf p).bits (word (fmtOf p) A) 0, lane (scalarOf p).bits (word (fmtOf p) B) 0]).toNat % 2 ^ 1 + 2 ^ 1 * 0 = _
  rw [lane_image p A wA, lane_image p B wB, hM.cmp p A B wA wB fA fB]
  split_ifs with h <;> simp [h]

/-- What an analysis says of numbers, `W`, is right of the operations of backends that keep the contract `C`, and of those of the machine. -/
structure Sound (fl : Flags) (C : Contract) (W : Val → Bits → Prop) (D : Dom Val) : Prop where
  wf : ∀ v y, W v y → y.WF (fmtOf v.prec) ∧ y.Fin (fmtOf v.prec)
  const : ∀ p x v, D.const p x = some v → v.prec = p ∧ W v x
  op : ∀ p a u v w, D.op p a u v = some w → u.prec = p ∧ v.prec = p ∧ w.prec = p ∧
    ∀ x y, W u (operand (fmtOf p) x 0) → W v (operand (fmtOf p) x 1) → y.WF (fmtOf p) → C (.arith a p) x y → W w y
  fma : ∀ p u v t w, D.fma p u v t = some w → u.prec = p ∧ v.prec = p ∧ t.prec = p ∧ w.prec = p ∧
    (fl.fma = true → ∀ x y, W u (operand (fmtOf p) x 0) → W v (operand (fmtOf p) x 1) → W t (operand (fmtOf p) x 2) →
      y.WF (fmtOf p) → C (.fma p) x y → W w y) ∧
    (fl.fma = false → ∀ A B E, W u A → W v B → W t E → W w (ffma (fmtOf p) A B E))
  less : ∀ p u v b, D.less p u v = some b → u.prec = p ∧ v.prec = p ∧
    ∀ A B, W u A → W v B → decide (A.val (fmtOf p) < B.val (fmtOf p)) = b
  extend : ∀ u w, D.extend u = some w → u.prec = .float ∧ w.prec = .double ∧ ∀ A, W u A → W w (fconv b32 b64 A)
  trunc : ∀ u w, D.trunc u = some w → u.prec = .double ∧ w.prec = .float ∧
    (fl.cast = true → ∀ x y, W u (operand b64 x 0) → y.WF b32 → C .cast x y → W w y) ∧
    (fl.cast = false → ∀ A, W u A → W w (fconv b64 b32 A))
  neg : ∀ p u w, D.neg p u = some w → u.prec = p ∧ w.prec = p ∧ ∀ A, W u A → W w (fneg A)

theorem stmt_sound {fl : Flags} (hfc : fl.fcmp = false) {Ct : Contract} {W : Val → Bits → Prop} {D : Dom Val} (hD : Sound fl Ct W D)
    (op1 : Wrapper.OpId → List (BitVec 64) → BitVec 64) (hM : Machine op1)
    (rest : Instr → Nat → List Nat → Nat) (bs : List (Wrapper.Backend σ κ)) (ctx : Nat → κ) (a : Stmt K) (s s' : Abs Val K)
    (t t' : State (Mem K × σ)) (hs : MStep Ct fl (linked op1 rest bs ctx) t a.ins t')
    (hR : Agrees W s t.env t.mem.1) (he : a.eval D s = some s') : Agrees W s' t'.env t'.mem.1 := by
  cases a with
  | const p id x =>
    obtain ⟨v, h1, rfl⟩ := Option.map_eq_some_iff.1 he
    cases hs
    obtain ⟨p1, h2⟩ := hD.const _ _ _ h1
    refine hR.set id _ (x s.ctl) h2 _ ?_
    show word (fmtOf p) (x t.mem.1.2) = _
    rw [hR.ctl, p1]
  | arith p id op a b =>
    obtain ⟨x, hx, he⟩ := Option.bind_eq_some_iff.1 he
    obtain ⟨y, hy, he⟩ := Option.bind_eq_some_iff.1 he
    obtain ⟨v, h1, rfl⟩ := Option.map_eq_some_iff.1 he
    obtain ⟨A, wA, eA⟩ := hR.reg a x hx
    obtain ⟨C, wC, eC⟩ := hR.reg b y hy
    obtain ⟨p1, p2, p3, hop⟩ := hD.op _ _ _ _ _ h1
    rw [p1] at eA
    rw [p2] at eC
    have wfA := (hD.wf _ _ wA).1
    have wfC := (hD.wf _ _ wC).1
    rw [p1] at wfA
    rw [p2] at wfC
    cases hs with
    | native id i pred args u hn =>
      exact absurd ⟨by cases op <;> trivial, by cases p; exacts [Or.inl rfl, Or.inr rfl]⟩ hn
    | op id i pred args r t2 b1 b2 b3 =>
      obtain ⟨op', ty, w, o, k1, k2, k3, k4, k5⟩ := b3
      obtain ⟨rfl, rfl⟩ := Prod.mk.inj (Option.some.inj k2)
      rw [meaning_opcode p _ _ k1] at k3
      obtain rfl := Option.some.inj k3
      obtain ⟨z, wz, lz, cz⟩ := k5 0 (by decide)
      have hvw : r = word (fmtOf p) z := word_of_lane p r (by simpa [resultFmt] using k4) z wz lz
      refine hR.set id v z (hop _ z ?_ ?_ wz cz) r (by rw [p3]; exact hvw)
      · rw [operand_word p A wfA _ 0]
        · exact wA
        · show lane (scalarOf p).bits (t.env a) 0 = _
          rw [eA, bits_scalarOf]
      · rw [operand_word p C wfC _ 1]
        · exact wC
        · show lane (scalarOf p).bits (t.env b) 0 = _
          rw [eC, bits_scalarOf]
  | fma p id a b c =>
    obtain ⟨x, hx, he⟩ := Option.bind_eq_some_iff.1 he
    obtain ⟨y, hy, he⟩ := Option.bind_eq_some_iff.1 he
    obtain ⟨z, hz, he⟩ := Option.bind_eq_some_iff.1 he
    obtain ⟨v, h1, rfl⟩ := Option.map_eq_some_iff.1 he
    obtain ⟨A, wA, eA⟩ := hR.reg a x hx
    obtain ⟨C, wC, eC⟩ := hR.reg b y hy
    obtain ⟨E, wE, eE⟩ := hR.reg c z hz
    have hk : kind (.call (some (fmaName p))) = some .fma := by cases p <;> decide
    have hm : meaning .fma (scalarOf p) = some (.fma p) := by cases p <;> rfl
    obtain ⟨p1, p2, p3, p4, hb, hn⟩ := hD.fma _ _ _ _ _ h1
    have wA' := (hD.wf _ _ wA).1
    have wC' := (hD.wf _ _ wC).1
    have wE' := (hD.wf _ _ wE).1
    rw [p1] at wA' eA
    rw [p2] at wC' eC
    rw [p3] at wE' eE
    cases hs with
    | op id i pred args r t2 b1 b2 b3 =>
      have hf : fl.fma = true := by
        unfold Asked at b1
        simpa only [hk] using b1
      obtain ⟨op', ty, w, o, k1, k2, k3, k4, k5⟩ := b3
      obtain rfl := Option.some.inj (hk.symm.trans k1)
      obtain ⟨rfl, rfl⟩ := Prod.mk.inj (Option.some.inj k2)
      obtain rfl := Option.some.inj (hm.symm.trans k3)
      obtain ⟨q, wq, lq, cq⟩ := k5 0 (by decide)
      have hvw : r = word (fmtOf p) q := word_of_lane p r (by simpa [resultFmt] using k4) q wq lq
      refine hR.set id v q (hb hf _ q ?_ ?_ ?_ wq cq) r (by rw [p4]; exact hvw)
      · rw [operand_word p A wA' _ 0]
        · exact wA
        · show lane (scalarOf p).bits (t.env a) 0 = _
          rw [eA, bits_scalarOf]
      · rw [operand_word p C wC' _ 1]
        · exact wC
        · show lane (scalarOf p).bits (t.env b) 0 = _
          rw [eC, bits_scalarOf]
      · rw [operand_word p E wE' _ 2]
        · exact wE
        · show lane (scalarOf p).bits (t.env c) 0 = _
          rw [eE, bits_scalarOf]
    | native id i pred args u hna =>
      have hf : fl.fma = false := by
        by_contra hf
        refine hna ⟨?_, by cases p; exacts [Or.inl rfl, Or.inr rfl]⟩
        unfold Asked
        simp only [hk]
        exact Bool.eq_true_of_not_eq_false hf
      refine hR.set id v (ffma (fmtOf p) A C E) (hn hf A C E wA wC wE) _ ?_
      rw [p4]
      show nativeOf op1 rest _ 0 [t.env a, t.env b, t.env c] = _
      rw [eA, eC, eE]
      exact native_fma op1 hM rest p A C E wA' wC' wE'
  | less p id a b =>
    obtain ⟨x, hx, he⟩ := Option.bind_eq_some_iff.1 he
    obtain ⟨y, hy, he⟩ := Option.bind_eq_some_iff.1 he
    obtain ⟨v, h1, rfl⟩ := Option.map_eq_some_iff.1 he
    obtain ⟨A, wA, eA⟩ := hR.reg a x hx
    obtain ⟨C, wC, eC⟩ := hR.reg b y hy
    obtain ⟨p1, p2, h2⟩ := hD.less p x y v h1
    have h2 := h2 A C wA wC
    replace wA := hD.wf _ _ wA
    replace wC := hD.wf _ _ wC
    rw [p1] at wA eA
    rw [p2] at wC eC
    cases hs with
    | op id i pred args r t b1 b2 b3 => exact absurd (show fl.fcmp = true from b1) (by simp [hfc])
    | native id i pred args u hn =>
      have hv : (linked (P := Mem K) op1 rest bs ctx).native ⟨.fcmp, .scalar (scalarOf p), .scalar (.int 1)⟩ olt [t.env a, t.env b] = v.toNat := by
        rw [eA, eC, ← h2]
        exact native_less op1 hM rest p A C wA.1 wC.1 wA.2 wC.2
      constructor
      · intro i w hw
        simp only [Abs.setFlag] at hw
        split_ifs at hw with hi
        obtain ⟨y, y1, y2⟩ := hR.reg i w hw
        refine ⟨y, y1, ?_⟩
        show (if i = id then _ else t.env i) = _
        rw [if_neg hi, y2]
      · intro i c hc
        simp only [Abs.setFlag] at hc
        show (if i = id then _ else t.env i) = _
        split_ifs at hc with hi
        · obtain rfl := Option.some.inj hc
          rw [if_pos hi]
          exact hv
        · rw [if_neg hi]
          exact hR.flag i c hc
      · exact hR.cell
      · exact hR.ctl
  | extend id a =>
    obtain ⟨x, hx, he⟩ := Option.bind_eq_some_iff.1 he
    obtain ⟨v, h1, rfl⟩ := Option.map_eq_some_iff.1 he
    obtain ⟨A, wA, eA⟩ := hR.reg a x hx
    obtain ⟨p1, p2, h2⟩ := hD.extend _ _ h1
    have wf := (hD.wf _ _ wA).1
    rw [p1] at wf eA
    cases hs
    refine hR.set id v (fconv b32 b64 A) (h2 A wA) _ ?_
    rw [p2]
    show word b64 (fconv b32 b64 (ofWord b32 (t.env a))) = _
    rw [eA]
    show word b64 (fconv b32 b64 (ofWord b32 (word b32 A))) = _
    rw [ofWord_word b32 A wf]
    rfl
  | trunc id a =>
    obtain ⟨x, hx, he⟩ := Option.bind_eq_some_iff.1 he
    obtain ⟨v, h1, rfl⟩ := Option.map_eq_some_iff.1 he
    obtain ⟨A, wA, eA⟩ := hR.reg a x hx
    obtain ⟨p1, p2, hb, hna⟩ := hD.trunc _ _ h1
    have wf := (hD.wf _ _ wA).1
    rw [p1] at wf eA
    cases hs with
    | op id i pred args r t2 b1 b2 b3 =>
      have hca : fl.cast = true := b1.1
      obtain ⟨op', ty, w, o, k1, k2, k3, k4, k5⟩ := b3
      obtain rfl := Option.some.inj k1
      obtain ⟨rfl, rfl⟩ := Prod.mk.inj (Option.some.inj k2)
      obtain rfl := Option.some.inj k3
      obtain ⟨q, wq, lq, cq⟩ := k5 0 (by decide)
      have hvw : r = word b32 q := word_of_lane .float r (by simpa [resultFmt, fmtOf] using k4) q wq lq
      have ho : operand b64 [lane 64 (t.env a) 0] 0 = A := operand_word .double A wf _ 0 (by rw [eA]; rfl)
      exact hR.set id v q (hb hca _ q (by show W x (operand b64 [lane 64 (t.env a) 0] 0); rw [ho]; exact wA) wq cq) r (by rw [p2]; exact hvw)
    | native id i pred args u hn =>
      have hca : fl.cast = false := by
        by_contra hf
        exact hn ⟨⟨Bool.eq_true_of_not_eq_false hf, rfl, rfl⟩, Or.inr rfl⟩
      refine hR.set id v (fconv b64 b32 A) (hna hca A wA) _ ?_
      rw [p2]
      show nativeOf op1 rest ⟨.fptrunc, .scalar .double, .scalar .float⟩ 0 [t.env a] = _
      rw [eA]
      exact native_cast op1 hM rest A wf
  | neg p id a =>
    obtain ⟨x, hx, he⟩ := Option.bind_eq_some_iff.1 he
    obtain ⟨v, h1, rfl⟩ := Option.map_eq_some_iff.1 he
    obtain ⟨A, wA, eA⟩ := hR.reg a x hx
    obtain ⟨p1, p2, h2⟩ := hD.neg _ _ _ h1
    have wf := (hD.wf _ _ wA).1
    rw [p1] at wf eA
    cases hs
    refine hR.set id _ (fneg A) (h2 A wA) _ ?_
    rw [p2]
    show word (fmtOf p) (fneg (ofWord (fmtOf p) (t.env a))) = _
    rw [eA, ofWord_word _ A wf]
  | select id c a b =>
    obtain ⟨k, hk, he⟩ := Option.bind_eq_some_iff.1 he
    obtain ⟨v, h1, rfl⟩ := Option.map_eq_some_iff.1 he
    obtain ⟨A, wA, eA⟩ := hR.reg _ v h1
    have hf := hR.flag c k hk
    cases hs
    refine hR.set id v A wA _ ?_
    show (if t.env c = 1 then t.env a else t.env b) = _
    rw [hf, ← eA]
    cases k <;> simp
  | phi id pick a b =>
    obtain ⟨v, h1, rfl⟩ := Option.map_eq_some_iff.1 he
    obtain ⟨A, wA, eA⟩ := hR.reg _ v h1
    cases hs
    refine hR.set id v A wA _ ?_
    show (if pick t.mem.1.2 then t.env a else t.env b) = _
    rw [hR.ctl, ← eA]
    split_ifs <;> rfl
  | load id addr =>
    obtain ⟨v, h1, rfl⟩ := Option.map_eq_some_iff.1 he
    cases hs
    obtain ⟨y, y1, y2⟩ := hR.cell _ v h1
    refine hR.set id v y y1 _ ?_
    show t.mem.1.1 (addr t.mem.1.2) = _
    rw [hR.ctl, y2]
  | store id a addr =>
    obtain ⟨v, h1, rfl⟩ := Option.map_eq_some_iff.1 he
    cases hs
    obtain ⟨y, y1, y2⟩ := hR.reg a v h1
    constructor
    · intro i w hw
      dsimp only at hw
      split_ifs at hw with hi
      obtain ⟨z, z1, z2⟩ := hR.reg i w hw
      refine ⟨z, z1, ?_⟩
      show (if i = id then _ else t.env i) = _
      rw [if_neg hi, z2]
    · intro i c hc
      dsimp only at hc
      split_ifs at hc with hi
      show (if i = id then _ else t.env i) = _
      rw [if_neg hi]
      exact hR.flag i c hc
    · intro i w hw
      dsimp only at hw
      show ∃ z, W w z ∧ (if i = addr t.mem.1.2 then t.env a else t.mem.1.1 i) = _
      rw [hR.ctl]
      split_ifs at hw with hi
      · obtain rfl := Option.some.inj hw
        exact ⟨y, y1, by rw [if_pos hi, y2]⟩
      · rw [if_neg hi]
        exact hR.cell i w hw
    · exact hR.ctl

theorem body_sound {fl : Flags} (hfc : fl.fcmp = false) {Ct : Contract} {W : Val → Bits → Prop} {D : Dom Val} (hD : Sound fl Ct W D) (op1 : Wrapper.OpId → List (BitVec 64) → BitVec 64) (hM : Machine op1)
    (rest : Instr → Nat → List Nat → Nat) (bs : List (Wrapper.Backend σ κ)) (ctx : Nat → κ) (l : List (Stmt K)) (s s' : Abs Val K)
    (t t' : State (Mem K × σ)) (hs : MSteps Ct fl (linked op1 rest bs ctx) t (l.map Stmt.ins) t')
    (hR : Agrees W s t.env t.mem.1) (he : evalBody D l s = some s') : Agrees W s' t'.env t'.mem.1 := by
  induction l generalizing s t with
  | nil =>
    cases hs
    rw [← Option.some.inj he]
    exact hR
  | cons a l ih =>
    obtain ⟨s1, h1, h2⟩ := Option.bind_eq_some_iff.1 he
    cases hs with
    | cons g1 g2 => exact ih s1 _ g2 (stmt_sound hfc hD op1 hM rest bs ctx a s s1 t _ g1 hR h1) h2

theorem run_sound {fl : Flags} (hfc : fl.fcmp = false) {Ct : Contract} {W : Val → Bits → Prop} {D : Dom Val} (hD : Sound fl Ct W D) (op1 : Wrapper.OpId → List (BitVec 64) → BitVec 64) (hM : Machine op1)
    (rest : Instr → Nat → List Nat → Nat) (bs : List (Wrapper.Backend σ κ)) (ctx : Nat → κ) (fresh : Nat) (prog : List (Part K)) (n : Nat)
    (s s' : Abs Val K) (t t' : State (Mem K × σ)) (cur cur' fin : Option Nat)
    (hs : MRuns Ct fl (linked op1 rest bs ctx) (compile fresh prog) n t cur t' fin)
    (hR : Agrees W s t.env t.mem.1) (he : evalRun D prog n (s, cur) = some (s', cur')) :
    fin = cur' ∧ Agrees W s' t'.env t'.mem.1 := by
  induction n generalizing s t cur with
  | zero =>
    cases hs
    obtain ⟨rfl, rfl⟩ := Prod.mk.inj (Option.some.inj he)
    exact ⟨rfl, hR⟩
  | succ n ih =>
    have hget : ∀ k : Nat, (compile (σ := σ) fresh prog).blocks[k]? = prog[k]?.map _ := fun k => List.getElem?_map
    rw [evalRun] at he
    cases hs with
    | stop n t cur h =>
      have hn : (cur.bind fun b => prog[b]?) = none := by
        cases cur with
        | none => rfl
        | some k =>
          rw [Option.bind_some, hget] at h
          exact Option.map_eq_none_iff.1 h
      rw [hn] at he
      obtain ⟨rfl, rfl⟩ := Prod.mk.inj (Option.some.inj he)
      exact ⟨rfl, hR⟩
    | block hb g1 g2 =>
      rename_i s1 k b
      rw [hget] at hb
      obtain ⟨q, hq, rfl⟩ := Option.map_eq_some_iff.1 hb
      rw [Option.bind_some, hq] at he
      obtain ⟨⟨a1, c1⟩, e1, e2⟩ := Option.bind_eq_some_iff.1 he
      obtain ⟨a2, e3, e4⟩ := Option.bind_eq_some_iff.1 e1
      obtain ⟨o, e5, e6⟩ := Option.map_eq_some_iff.1 e4
      obtain ⟨rfl, rfl⟩ := Prod.mk.inj e6
      have hA := body_sound hfc hD op1 hM rest bs ctx q.body s a2 t s1 g1 hR e3
      have ho : ((q.test.toList.map s1.env).headD 0 == 1) = o := by
        unfold Part.outcome at e5
        cases ht : q.test with
        | none =>
          rw [ht] at e5
          rw [← Option.some.inj e5]
          rfl
        | some x =>
          rw [ht] at e5
          show (s1.env x == 1) = o
          rw [hA.flag x o e5]
          cases o <;> rfl
      have hc := hA.ctl
      dsimp only at g2
      rw [ho, hc] at g2
      exact ih { a2 with ctl := (q.next a2.ctl o).1 } _ _ g2 ⟨hA.reg, hA.flag, hA.cell, rfl⟩ e2

theorem compile_all (fresh : Nat) (prog : List (Part K)) :
    (compile (σ := σ) fresh prog).all = (prog.flatMap Part.body).map Stmt.ins := by
  simp only [compile, Func.all, List.flatMap_map, List.map_flatMap]

theorem ins_name (a : Stmt K) : (a.ins (σ := σ)).name = a.id := by cases a <;> rfl

theorem ins_args (a : Stmt K) : (a.ins (σ := σ)).args = a.args := by cases a <;> rfl

/-- The floating point instructions of programs: those the pass replaces, and others. -/
theorem ins_fp (fl : Flags) (a : Stmt K) (id : Nat) (i : Instr) (pred : Nat) (args : List Nat) (h : (.fp id i pred args : Ins (Mem K × σ)) = a.ins) :
    (∃ p op x y, i = ⟨opcode op, .scalar (scalarOf p), .scalar (scalarOf p)⟩ ∧ args = [x, y]) ∨
    (fl.fma = true ∧ ∃ p x y z, i = ⟨.call (some (fmaName p)), .scalar (scalarOf p), .scalar (scalarOf p)⟩ ∧ args = [x, y, z]) ∨
    (fl.cast = true ∧ ∃ x, i = ⟨.fptrunc, .scalar .double, .scalar .float⟩ ∧ args = [x]) ∨
    (fl.fcmp = true ∧ ∃ p x y, i = ⟨.fcmp, .scalar (scalarOf p), .scalar (.int 1)⟩ ∧ pred = olt ∧ args = [x, y]) ∨
      (args.length ≤ 3 ∧ ((fl.fma = false ∧ ∃ p, i = ⟨.call (some (fmaName p)), .scalar (scalarOf p), .scalar (scalarOf p)⟩) ∨
        (fl.fcmp = false ∧ ∃ p, i = ⟨.fcmp, .scalar (scalarOf p), .scalar (.int 1)⟩) ∨ (fl.cast = false ∧ i = ⟨.fptrunc, .scalar .double, .scalar .float⟩))) := by
  cases a <;> cases h
  · exact Or.inl ⟨_, _, _, _, rfl, rfl⟩
  · cases hf : fl.fma
    · exact Or.inr (Or.inr (Or.inr (Or.inr ⟨by simp, Or.inl ⟨rfl, _, rfl⟩⟩)))
    · exact Or.inr (Or.inl ⟨rfl, _, _, _, _, rfl, rfl⟩)
  · cases hf : fl.fcmp
    · exact Or.inr (Or.inr (Or.inr (Or.inr ⟨by simp, Or.inr (Or.inl ⟨rfl, _, rfl⟩)⟩)))
    · exact Or.inr (Or.inr (Or.inr (Or.inl ⟨rfl, _, _, _, rfl, rfl, rfl⟩)))
  · cases hf : fl.cast
    · exact Or.inr (Or.inr (Or.inr (Or.inr ⟨by simp, Or.inr (Or.inr ⟨rfl, rfl⟩)⟩)))
    · exact Or.inr (Or.inr (Or.inl ⟨rfl, _, rfl, rfl⟩))

theorem instrument_op (fl : Flags) (p : Wrapper.Prec) (op : Wrapper.Arith) :
    ∃ name, instrument wrapperSig fl ⟨opcode op, .scalar (scalarOf p), .scalar (scalarOf p)⟩ = .ok (.replaced name [.direct, .direct] .call) := by
  obtain ⟨f1, f2, f3⟩ := fl
  cases p <;> cases op
  · exact ⟨"_floatadd", by revert f1 f2 f3; decide +kernel⟩
  · exact ⟨"_floatsub", by revert f1 f2 f3; decide +kernel⟩
  · exact ⟨"_floatmul", by revert f1 f2 f3; decide +kernel⟩
  · exact ⟨"_floatdiv", by revert f1 f2 f3; decide +kernel⟩
  · exact ⟨"_doubleadd", by revert f1 f2 f3; decide +kernel⟩
  · exact ⟨"_doublesub", by revert f1 f2 f3; decide +kernel⟩
  · exact ⟨"_doublemul", by revert f1 f2 f3; decide +kernel⟩
  · exact ⟨"_doublediv", by revert f1 f2 f3; decide +kernel⟩

theorem instrument_fma (fl : Flags) (hf : fl.fma = true) (p : Wrapper.Prec) :
    ∃ name, instrument wrapperSig fl ⟨.call (some (fmaName p)), .scalar (scalarOf p), .scalar (scalarOf p)⟩ =
      .ok (.replaced name [.direct, .direct, .direct] .call) := by
  obtain ⟨f1, f2, f3⟩ := fl
  obtain rfl : f2 = true := hf
  cases p
  · exact ⟨"_floatfma", by revert f1 f3; decide +kernel⟩
  · exact ⟨"_doublefma", by revert f1 f3; decide +kernel⟩

theorem instrument_cast (fl : Flags) (hf : fl.cast = true) :
    instrument wrapperSig fl ⟨.fptrunc, .scalar .double, .scalar .float⟩ = .ok (.replaced "_doubletofloatcast" [.direct] .call) := by
  obtain ⟨f1, f2, f3⟩ := fl
  obtain rfl : f3 = true := hf
  revert f1 f2
  decide +kernel

theorem instrument_less (fl : Flags) (hf : fl.fcmp = true) (p : Wrapper.Prec) :
    ∃ name, instrument wrapperSig fl ⟨.fcmp, .scalar (scalarOf p), .scalar (.int 1)⟩ = .ok (.replaced name [.direct, .direct] .trunc) := by
  obtain ⟨f1, f2, f3⟩ := fl
  obtain rfl : f1 = true := hf
  cases p
  · exact ⟨"_floatcmp", by revert f2 f3; decide +kernel⟩
  · exact ⟨"_doublecmp", by revert f2 f3; decide +kernel⟩

/-- How many operands an instruction has. -/
def arity : Opcode → Nat
  | .fptrunc => 1
  | .call _ => 3
  | _ => 2

/-- **C102, types.**  The call put in place of an instruction on scalars is well typed: the wrapper takes as many operands as the instruction has, of its type,
behind the predicate of a comparison, and returns its type, or an `int`, which is then truncated, for a comparison. -/
theorem C102_typed (fl : Flags) (p : Wrapper.Prec) (i : Instr)
    (hi : i ∈ [.fadd, .fsub, .fmul, .fdiv].map (fun o => (⟨o, .scalar (scalarOf p), .scalar (scalarOf p)⟩ : Instr)) ++
      [⟨.call (some (fmaName p)), .scalar (scalarOf p), .scalar (scalarOf p)⟩, ⟨.fcmp, .scalar (scalarOf p), .scalar (.int 1)⟩,
        ⟨.fptrunc, .scalar .double, .scalar .float⟩]) :
    instrument wrapperSig fl i = .ok .kept ∨ ∃ name passed ret, instrument wrapperSig fl i = .ok (.replaced name passed ret) ∧
      (wrapperSig name).args.map Prod.fst = (if i.op = .fcmp then [.scalar (.int 32)] else []) ++ List.replicate (arity i.op) i.opTy ∧
      (wrapperSig name).ret = (if i.op = .fcmp then .scalar (.int 32) else i.retTy) ∧ (ret = .trunc ↔ i.op = .fcmp) := by
  have key : ∀ (a b c : Bool) (p : Wrapper.Prec), ∀ i ∈ [Opcode.fadd, .fsub, .fmul, .fdiv].map (fun o => (⟨o, .scalar (scalarOf p), .scalar (scalarOf p)⟩ : Instr)) ++
      [⟨.call (some (fmaName p)), .scalar (scalarOf p), .scalar (scalarOf p)⟩, ⟨.fcmp, .scalar (scalarOf p), .scalar (.int 1)⟩,
        ⟨.fptrunc, .scalar .double, .scalar .float⟩],
      (match instrument wrapperSig ⟨a, b, c⟩ i with
      | .ok .kept => true
      | .ok (.replaced name _ ret) => decide (
        (wrapperSig name).args.map Prod.fst = (if i.op = .fcmp then [.scalar (.int 32)] else []) ++ List.replicate (arity i.op) i.opTy ∧
        (wrapperSig name).ret = (if i.op = .fcmp then .scalar (.int 32) else i.retTy) ∧ (ret = .trunc ↔ i.op = .fcmp))
      | _ => false) = true := by
    intro a b c p
    cases a <;> cases b <;> cases c <;> cases p <;> decide +kernel
  obtain ⟨a, b, c⟩ := fl
  have := key a b c p i hi
  split at this
  · next h => exact .inl h
  · next name passed ret h => exact .inr ⟨name, passed, ret, h, of_decide_eq_true this⟩
  · cases this

theorem instrument_kept (fl : Flags) (i : Instr)
    (h : (fl.fma = false ∧ ∃ p, i = ⟨.call (some (fmaName p)), .scalar (scalarOf p), .scalar (scalarOf p)⟩) ∨
      (fl.fcmp = false ∧ ∃ p, i = ⟨.fcmp, .scalar (scalarOf p), .scalar (.int 1)⟩) ∨ (fl.cast = false ∧ i = ⟨.fptrunc, .scalar .double, .scalar .float⟩)) :
    instrument wrapperSig fl i = .ok .kept ∧ ¬ Asked fl i := by
  obtain ⟨f1, f2, f3⟩ := fl
  rcases h with ⟨hf, p, rfl⟩ | ⟨hf, p, rfl⟩ | ⟨hf, rfl⟩
  · obtain rfl : f2 = false := hf
    cases p <;> cases f1 <;> cases f3 <;> exact ⟨by decide +kernel, by decide⟩
  · obtain rfl : f1 = false := hf
    cases p <;> cases f2 <;> cases f3 <;> exact ⟨by decide +kernel, by decide⟩
  · obtain rfl : f3 = false := hf
    cases f1 <;> cases f2 <;> exact ⟨by decide +kernel, by decide⟩

/-- The wrappers return numbers of the type of the operation. -/
theorem sig_ret (fl : Flags) (p : Wrapper.Prec) :
    (∀ op, (wrapperSig (mcaName ⟨opcode op, .scalar (scalarOf p), .scalar (scalarOf p)⟩
      (mustReplace fl ⟨opcode op, .scalar (scalarOf p), .scalar (scalarOf p)⟩))).ret = .scalar (scalarOf p)) ∧
    (fl.fma = true → (wrapperSig (mcaName ⟨.call (some (fmaName p)), .scalar (scalarOf p), .scalar (scalarOf p)⟩
      (mustReplace fl ⟨.call (some (fmaName p)), .scalar (scalarOf p), .scalar (scalarOf p)⟩))).ret = .scalar (scalarOf p)) ∧
    (fl.cast = true → (wrapperSig (mcaName ⟨.fptrunc, .scalar .double, .scalar .float⟩
      (mustReplace fl ⟨.fptrunc, .scalar .double, .scalar .float⟩))).ret = .scalar .float) ∧
    (fl.fcmp = true → (wrapperSig (mcaName ⟨.fcmp, .scalar (scalarOf p), .scalar (.int 1)⟩
      (mustReplace fl ⟨.fcmp, .scalar (scalarOf p), .scalar (.int 1)⟩))).ret = .scalar (.int 32)) := by
  obtain ⟨f1, f2, f3⟩ := fl
  refine ⟨fun op => ?_, fun h => ?_, fun h => ?_, fun h => ?_⟩
  · revert f1 f2 f3
    cases p <;> cases op <;> decide +kernel
  · obtain rfl : f2 = true := h
    revert f1 f3
    cases p <;> decide +kernel
  · obtain rfl : f3 = true := h
    revert f1 f2
    decide +kernel
  · obtain rfl : f1 = true := h
    revert f2 f3
    cases p <;> decide +kernel

theorem compile_source (fl : Flags) (fresh : Nat) (prog : List (Part K)) (hw : WellFormed fresh prog) :
    Source wrapperSig fl (compile (σ := σ) fresh prog) where
  named := by
    constructor
    · intro ins h
      rw [compile_all] at h
      obtain ⟨a, ha, rfl⟩ := List.mem_map.1 h
      rw [ins_name]
      exact (hw.id a ha).1
    · intro ins h
      rw [compile_all] at h
      obtain ⟨a, ha, rfl⟩ := List.mem_map.1 h
      rw [ins_args]
      exact (hw.id a ha).2.2
    · intro b hb a ha
      obtain ⟨q, hq, rfl⟩ := List.mem_map.1 hb
      exact hw.test q hq a (Option.mem_toList.1 ha)
    · intro ins h _
      rw [compile_all] at h
      obtain ⟨a, ha, rfl⟩ := List.mem_map.1 h
      rw [ins_args, ins_name]
      exact (hw.id a ha).2.1
  ssa := by
    rw [compile_all, List.map_map]
    have : (Ins.name ∘ Stmt.ins (σ := σ) : Stmt K → Nat) = Stmt.id := by
      funext a
      exact ins_name (σ := σ) a
    rw [this]
    exact hw.ssa
  arity := by
    intro id i pred args h
    rw [compile_all] at h
    obtain ⟨a, -, h⟩ := List.mem_map.1 h
    rcases ins_fp fl a id i pred args h.symm with ⟨p, op, x, y, rfl, rfl⟩ | ⟨hf, p, x, y, z, rfl, rfl⟩ | ⟨hf, x, rfl, rfl⟩ |
      ⟨hf, p, x, y, rfl, rfl, rfl⟩ | ⟨ha, hi⟩
    · refine ⟨by simp, fun r hr _ => ?_⟩
      obtain ⟨name, e⟩ := instrument_op fl p op
      rw [e] at hr
      obtain rfl := Outcome.ok.inj hr
      rfl
    · refine ⟨by simp, fun r hr _ => ?_⟩
      obtain ⟨name, e⟩ := instrument_fma fl hf p
      rw [e] at hr
      obtain rfl := Outcome.ok.inj hr
      rfl
    · refine ⟨by simp, fun r hr _ => ?_⟩
      rw [instrument_cast fl hf] at hr
      obtain rfl := Outcome.ok.inj hr
      rfl
    · refine ⟨by simp, fun r hr _ => ?_⟩
      obtain ⟨name, e⟩ := instrument_less fl hf p
      rw [e] at hr
      obtain rfl := Outcome.ok.inj hr
      rfl
    · refine ⟨ha, fun r hr hk => ?_⟩
      rw [(instrument_kept fl i hi).1] at hr
      exact absurd (Outcome.ok.inj hr).symm hk
  typed := by
    intro id i pred args h h1 _
    rw [compile_all] at h
    obtain ⟨a, -, h⟩ := List.mem_map.1 h
    rcases ins_fp fl a id i pred args h.symm with ⟨p, op, x, y, rfl, rfl⟩ | ⟨hf, p, x, y, z, rfl, rfl⟩ | ⟨hf, x, rfl, rfl⟩ |
      ⟨hf, p, x, y, rfl, rfl, rfl⟩ | ⟨ha, hi⟩
    · refine ⟨by cases p <;> cases op <;> rfl, ?_⟩
      unfold ReturnsNaturally
      rw [if_neg (by cases op <;> simp [opcode])]
      exact (sig_ret fl p).1 op
    · refine ⟨by cases p <;> trivial, ?_⟩
      unfold ReturnsNaturally
      rw [if_neg (by simp)]
      exact (sig_ret fl p).2.1 hf
    · refine ⟨trivial, ?_⟩
      unfold ReturnsNaturally
      rw [if_neg (by simp)]
      exact (sig_ret fl .float).2.2.1 hf
    · refine ⟨by cases p <;> trivial, ?_⟩
      unfold ReturnsNaturally
      rw [if_pos rfl]
      exact Or.inl ⟨rfl, (sig_ret fl p).2.2.2 hf⟩
    · exact absurd h1 (instrument_kept fl i hi).2

theorem compile_blind (fresh : Nat) (prog : List (Part K)) : Blind (compile (σ := σ) fresh prog) where
  other := by
    intro id args f h
    rw [compile_all] at h
    obtain ⟨a, -, h⟩ := List.mem_map.1 h
    cases a <;> cases h <;> exact fun _ _ _ _ => ⟨rfl, rfl⟩
  next := by
    intro b hb
    obtain ⟨q, hq, rfl⟩ := List.mem_map.1 hb
    exact fun _ _ _ _ => ⟨rfl, rfl⟩
  fresh := by
    intro ins h
    rw [compile_all] at h
    obtain ⟨a, -, rfl⟩ := List.mem_map.1 h
    cases a <;> first | exact Or.inl ⟨_, _, _, _, rfl⟩ | exact Or.inr ⟨_, _, _, rfl⟩

theorem compile_ok (fl : Flags) (fresh : Nat) (prog : List (Part K)) (order : List Nat) :
    ∃ F', replaceAll wrapperSig fl (compile (σ := σ) fresh prog) order = .ok F' := by
  refine replaceAll_ok wrapperSig fl order _ fun id i pred args h => ?_
  rw [compile_all] at h
  obtain ⟨a, -, h⟩ := List.mem_map.1 h
  rcases ins_fp fl a id i pred args h.symm with ⟨p, op, x, y, rfl, rfl⟩ | ⟨hf, p, x, y, z, rfl, rfl⟩ | ⟨hf, x, rfl, rfl⟩ |
      ⟨hf, p, x, y, rfl, rfl, rfl⟩ | ⟨ha, hi⟩
  · obtain ⟨name, e⟩ := instrument_op fl p op
    exact ⟨_, e⟩
  · obtain ⟨name, e⟩ := instrument_fma fl hf p
    exact ⟨_, e⟩
  · exact ⟨_, instrument_cast fl hf⟩
  · obtain ⟨name, e⟩ := instrument_less fl hf p
    exact ⟨_, e⟩
  · exact ⟨_, (instrument_kept fl i hi).1⟩

/-- Comparisons are all `olt`, of numbers, and give one bit. -/
theorem compile_typed (fresh : Nat) (prog : List (Part K)) : CmpTyped (· = olt) (compile (σ := σ) fresh prog) := by
  intro id i pred args h hf
  rw [compile_all] at h
  obtain ⟨a, -, h⟩ := List.mem_map.1 h
  rcases ins_fp ⟨true, true, true⟩ a id i pred args h.symm with ⟨p, op, x, y, rfl, rfl⟩ | ⟨-, p, x, y, z, rfl, rfl⟩ | ⟨-, x, rfl, rfl⟩ |
      ⟨-, p, x, y, rfl, rfl, rfl⟩ | ⟨-, hi⟩
  · cases op <;> cases hf
  · cases hf
  · cases hf
  · exact ⟨rfl, fun _ _ => rfl, fun _ _ h => (by cases h)⟩
  · rcases hi with ⟨h, -⟩ | ⟨h, -⟩ | ⟨h, -⟩ <;> cases h

/-! ## The analysis is sound -/

/-- A memory with numbers as they are said to be in the cells known, each in the format of its type. -/
def Holds (W : Val → Bits → Prop) (cell : Nat → Option Val) (m : Nat → Nat) : Prop :=
  ∀ i v, cell i = some v → ∃ y, W v y ∧ m i = word (fmtOf v.prec) y

/-- A memory with numbers within the bounds in the cells known. -/
def Inputs (I : Wrapper.Prec → Range) (cell : Nat → Option Val) (m : Nat → Nat) : Prop := Holds (Within I) cell m

/-- If an analysis is right of each operation, and follows the exact execution, then it is right of programs. -/
theorem sound_program (fl : Flags) {Ct : Contract} {W : Val → Bits → Prop} {D : Dom Val} (hD : Sound { fl with fcmp := false } Ct W D)
    (hF : Follows Val.val D exactDom) (op1 : Wrapper.OpId → List (BitVec 64) → BitVec 64) (hM : Machine op1)
    (rest : Instr → Nat → List Nat → Nat) (bs : List (Wrapper.Backend σ κ)) (ctx : Nat → κ) (hm : Meets { fl with fcmp := false } Ct bs ctx)
    (hcm : Compare fl (· = olt) op1 bs ctx) (fresh : Nat) (prog : List (Part K)) (hw : WellFormed fresh prog) (order : List Nat) (hp : order.Perm (workList fl (compile (σ := σ) fresh prog)))
    (cell : Nat → Option Val) (ctl : K) (n : Nat) (s : Abs Val K) (cur : Option Nat)
    (he : evalRun D prog n (start cell ctl, some 0) = some (s, cur))
    (m : Nat → Nat) (hin : Holds W cell m) (t : σ) :
    ∃ F', replaceAll wrapperSig fl (compile fresh prog) order = .ok F' ∧
      let r := run (exec (linked op1 rest bs ctx)) F' n (enter 0 (fun _ => 0) ((m, ctl), t), some 0)
      (∃ x, evalRun exactDom prog n (start (fun i => (cell i).map Val.val) ctl, some 0) = some (x, r.2) ∧ r.1.mem.1.2 = x.ctl ∧
        ∀ i v, s.cell i = some v → x.cell i = some v.val) ∧
      r.2 = cur ∧ r.1.mem.1.2 = s.ctl ∧ Holds W s.cell r.1.mem.1.1 := by
  obtain ⟨F', hF'⟩ := compile_ok (σ := σ) fl fresh prog order
  refine ⟨F', hF', ?_⟩
  intro r
  obtain ⟨st, hrun, hmem⟩ := C94_compare_partial wrapperSig fl Ct (· = olt) op1 rest bs ctx hm hcm (compile fresh prog) F' order
    (compile_source fl fresh prog hw) (compile_blind fresh prog) (fun _ => compile_typed fresh prog) hp hF' 0 (fun _ _ => Nat.zero_le _) (Nat.zero_le _) (fun _ => 0)
    ((m, ctl), t) n (some 0)
  obtain ⟨e1, e2⟩ := run_sound (fl := { fl with fcmp := false }) rfl hD op1 hM rest bs ctx fresh prog n (start cell ctl) s _ st (some 0) cur _ hrun
    ⟨fun _ _ h => (by simp [start] at h), fun _ _ h => (by simp [start] at h), hin, rfl⟩ he
  have hmem : st.mem = r.1.mem := hmem
  rw [hmem] at e2
  refine ⟨⟨s.map Val.val, ?_, e2.ctl, fun i v hv => ?_⟩, e1, e2.ctl, e2.cell⟩
  · rw [show r.2 = cur from e1]
    exact run_follows hF prog n _ s (some 0) cur he
  · show (s.cell i).map Val.val = _
    rw [hv]
    rfl

/-- The analysis of errors is right of each operation. -/
theorem err_sound (fl : Flags) (B : Bounds) (hB : B.Ok) : Sound fl B.contract (Within B.I) (errDom fl B) where
  wf v y h := ⟨h.1, h.2.1⟩
  const p x v h := by
    simp only [errDom] at h
    split_ifs at h with h2
    obtain rfl := Option.some.inj h
    exact ⟨rfl, h2.1, h2.2.1, h2.2.2, by simp⟩
  op p a u v w h := by
    have hp : u.prec = p ∧ v.prec = p ∧ w.prec = p := by
      simp only [errDom] at h
      split_ifs at h with h2
      simp only [not_or, not_not] at h2
      exact ⟨h2.1, h2.2.1, (rounded_val h).1⟩
    exact ⟨hp.1, hp.2.1, hp.2.2, fun x y wA wB hy hc => op_sound fl B hB p a x y u v w wA wB hy hc h⟩
  fma p u v t w h := by
    have hp : u.prec = p ∧ v.prec = p ∧ t.prec = p ∧ w.prec = p := by
      simp only [errDom] at h
      split_ifs at h with h2 h3
      all_goals
        simp only [not_or, not_not] at h2
        exact ⟨h2.1, h2.2.1, h2.2.2, (rounded_val h).1⟩
    refine ⟨hp.1, hp.2.1, hp.2.2.1, hp.2.2.2, fun hf x y wA wB wC hy hc => fma_sound fl hf B hB p x y u v t w wA wB wC hy hc h,
      fun hf A C E wA wC wE => ?_⟩
    obtain ⟨p1, p2, p3, p4⟩ := hp
    unfold Within at wA wC wE
    rw [p1] at wA
    rw [p2] at wC
    rw [p3] at wE
    simp only [errDom, hf, Bool.false_eq_true, if_false] at h
    split_ifs at h with h2
    have hwf : (ffma (fmtOf p) A C E).WF (fmtOf p) := ffma_wf _ (by cases p <;> decide) _ _ _ wE.1
    exact rounded_sound (zpow_pos (by norm_num) _).le ⟨le_max_left _ _, min_le_left _ _⟩ (spread_fma wA.2.2.2 wC.2.2.2 wE.2.2.2) hwf
      (host_unit p _ _ (host_ffma (fmtOf p) (by cases p <;> decide) (by cases p <;> decide) A C E wA.2.1 wC.2.1 wE.2.1) (B.I p)) h
  less p u v b h := by
    have hp : u.prec = p ∧ v.prec = p := by
      simp only [errDom] at h
      split_ifs at h with h0 h1
      simp only [not_or, not_not] at h0
      exact h0
    exact ⟨hp.1, hp.2, fun A C wA wC => (less_sound fl B p u v A C wA wC b h).2.2⟩
  extend u w h := by
    simp only [errDom] at h
    split_ifs at h with h2
    simp only [not_not] at h2
    refine ⟨h2, (rounded_val h).1, fun A wA => ?_⟩
    unfold Within at wA
    rw [h2] at wA
    obtain ⟨x1, x2, x3⟩ := extend_exact A wA.1 wA.2.1
    refine rounded_sound (z' := A.val b32) (p := .double) le_rfl ⟨le_rfl, le_rfl⟩ wA.2.2.2 x1 (fun _ => ⟨x2, ?_⟩) h
    show |(fconv b32 b64 A).val b64 - A.val b32| ≤ _
    rw [x3]
    simp
  trunc u w h := by
    simp only [errDom] at h
    split_ifs at h with h2
    simp only [not_not] at h2
    refine ⟨h2, (rounded_val h).1, fun hca x y wA wq cq => ?_, fun hca A wA => ?_⟩
    · simp only [castUnit, castRange, hca, if_true] at h
      unfold Within at wA
      rw [h2] at wA
      exact rounded_sound (p := .float) hB.cast ⟨le_max_left _ _, min_le_left _ _⟩ wA.2.2.2 wq
        (fun ok => cq.2 wA.2.1 (ok_mono ⟨le_max_right _ _, min_le_right _ _⟩ ok)) h
    · simp only [castUnit, castRange, hca, Bool.false_eq_true, if_false] at h
      unfold Within at wA
      rw [h2] at wA
      exact rounded_sound (p := .float) (zpow_pos (by norm_num) _).le ⟨le_max_left _ _, min_le_left _ _⟩ wA.2.2.2 (fconv_wf _ _ (by decide) _)
          (host_unit .float _ _ (host_trunc A wA.1 wA.2.1) (B.I .float)) h
  neg p u w h := by
    simp only [errDom] at h
    split_ifs at h with h2
    simp only [not_not] at h2
    obtain rfl := Option.some.inj h
    refine ⟨h2, rfl, fun A wA => ?_⟩
    unfold Within at wA
    rw [h2] at wA
    refine ⟨wA.1, wA.2.1, ?_, ?_⟩
    · show (B.I p).Ok ((fneg A).val (fmtOf p))
      rw [val_fneg]
      rcases wA.2.2.1 with h | h
      · exact Or.inl (by rw [h, neg_zero])
      · exact Or.inr (by rw [abs_neg]; exact h)
    · show |(fneg A).val (fmtOf p) - -u.val| ≤ u.err
      rw [val_fneg, show -A.val (fmtOf p) - -u.val = -(A.val (fmtOf p) - u.val) by ring, abs_neg]
      exact wA.2.2.2

/-- **C102** If the analysis of `n` blocks of a program does not stop, then the program can be compiled with Verificarlo, with any options,
in any order of replacement; run on inputs within their bounds, with any backends that keep the contracts of both types and with `--inst-fcmp` compare as the machine does, whatever their state, it is after
`n` blocks where exact arithmetic is, with the same addresses and counters, and in every cell the analysis knows is a finite number of its
type within the bound of the value of exact arithmetic. -/
theorem C102_mixed_partial (fl : Flags) (B : Bounds) (hB : B.Ok) (op1 : Wrapper.OpId → List (BitVec 64) → BitVec 64) (hM : Machine op1)
    (rest : Instr → Nat → List Nat → Nat) (bs : List (Wrapper.Backend σ κ)) (ctx : Nat → κ) (hm : Meets { fl with fcmp := false } B.contract bs ctx)
    (hcm : Compare fl (· = olt) op1 bs ctx) (fresh : Nat) (prog : List (Part K)) (hw : WellFormed fresh prog) (order : List Nat) (hp : order.Perm (workList fl (compile (σ := σ) fresh prog)))
    (cell : Nat → Option Val) (ctl : K) (n : Nat) (s : Abs Val K) (cur : Option Nat)
    (he : evalRun (errDom fl B) prog n (start cell ctl, some 0) = some (s, cur))
    (m : Nat → Nat) (hin : Inputs B.I cell m) (t : σ) :
    ∃ F', replaceAll wrapperSig fl (compile fresh prog) order = .ok F' ∧
      let r := run (exec (linked op1 rest bs ctx)) F' n (enter 0 (fun _ => 0) ((m, ctl), t), some 0)
      (∃ x, evalRun exactDom prog n (start (fun i => (cell i).map Val.val) ctl, some 0) = some (x, r.2) ∧ r.1.mem.1.2 = x.ctl ∧
        ∀ i v, s.cell i = some v → x.cell i = some v.val) ∧
      r.2 = cur ∧ r.1.mem.1.2 = s.ctl ∧ Inputs B.I s.cell r.1.mem.1.1 :=
  sound_program fl (err_sound _ B hB) (err_follows _ B) op1 hM rest bs ctx hm hcm fresh prog hw order hp cell ctl n s cur he m hin t

/-- Backends that keep the contract of each type, and that of conversions if they are to make them, keep all. -/
theorem C102_meets (B : Bounds) (fl : Flags) (bs : List (Wrapper.Backend σ κ)) (ctx : Nat → κ)
    (h : ∀ p, Meets { fl with cast := false } (SignedContract p (B.inn p) (B.η p) (B.I p) (B.R p)) bs ctx)
    (hc : fl.cast = true → MeetsCast (CastContract B.cast B.C) bs ctx) : Meets fl B.contract bs ctx := by
  refine meets_cast fl (fun o x y => ∀ p, SignedContract p (B.inn p) (B.η p) (B.I p) (B.R p) o x y) (fun _ _ _ => trivial) B.cast B.C bs ctx ?_ hc
  intro o ho x s
  obtain ⟨y, wy, ey, -⟩ := h .float o ho x s
  refine ⟨y, wy, ey, fun p => ?_⟩
  obtain ⟨z, wz, ez, cz⟩ := h p o ho x s
  have he : image (resultFmt o) y = image (resultFmt o) z := Option.some.inj (ey.symm.trans ez)
  have h1 := image_lt _ (width_le o) y wy
  have hw : ∀ z : Bits, z.WF (resultFmt o) → (image (resultFmt o) z).toNat = word (resultFmt o) z := by
    intro z hz
    have h1 := word_lt (resultFmt o) z hz
    have h2 : 2 ^ (resultFmt o).width ≤ 2 ^ 64 := Nat.pow_le_pow_right (by norm_num) (width_le o)
    unfold image
    rw [BitVec.toNat_ofNat, Nat.mod_eq_of_lt (show word (resultFmt o) z < 2 ^ 64 by omega)]
  have : y = z := by
    rw [← ofWord_word _ y wy, ← ofWord_word _ z wz, ← hw y wy, ← hw z wz, he]
  rw [this]
  exact cz

end Verif.Pass.Mix
