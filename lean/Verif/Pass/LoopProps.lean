import Verif.Pass.ErrProps

/-!
# Property C100: the errors of programs with loops, branches and arrays

Programs of additions, subtractions, multiplications, divisions and comparisons on the registers and on a memory of floating
point numbers, with any blocks and any jumps.  A running error analysis executes the program in exact arithmetic and computes, next
to every value, a bound on its error; it stops where it cannot tell the outcome of a comparison.  If it does not stop, every
execution of the program compiled with Verificarlo goes through the same blocks, and all its values are within the bounds.
-/

namespace Verif.Pass
open Verif Verif.Fp

variable {K σ κ α β : Type}

/-! ## Programs -/

/-- A statement and the name it defines; `K` is the part of the memory without floating point numbers, on which addresses depend. -/
inductive Stmt (K : Type) where
  | const (id : Nat) (x : Bits)
  | arith (id : Nat) (op : Wrapper.Arith) (a b : Nat)
  | less (id : Nat) (a b : Nat)
  | load (id : Nat) (addr : K → Nat)
  | store (id : Nat) (a : Nat) (addr : K → Nat)

/-- A block, the comparison it ends with, if any, and what it does then: the next block, none to return. -/
structure Part (K : Type) where
  body : List (Stmt K)
  test : Option Nat
  next : K → Bool → K × Option Nat

/-- The memory of the program. -/
abbrev Mem (K : Type) := (Nat → Nat) × K

/-- The predicate of `fcmp olt` (`llvm::CmpInst::FCMP_OLT`). -/
def olt : Nat := 4

def Stmt.ins (p : Wrapper.Prec) : Stmt K → Ins (Mem K × σ)
  | .const id x => .other id [] fun _ m => (word (fmtOf p) x, m)
  | .arith id op a b => .fp id ⟨opcode op, .scalar (scalarOf p), .scalar (scalarOf p)⟩ 0 [a, b]
  | .less id a b => .fp id ⟨.fcmp, .scalar (scalarOf p), .scalar (.int 1)⟩ olt [a, b]
  | .load id addr => .other id [] fun _ m => (m.1.1 (addr m.1.2), m)
  | .store id a addr => .other id [a] fun v m => (0, ((fun i => if i = addr m.1.2 then v.headD 0 else m.1.1 i, m.1.2), m.2))

/-- The function the program is compiled to, before the pass. -/
def compile (p : Wrapper.Prec) (fresh : Nat) (prog : List (Part K)) : Func (Mem K × σ) :=
  { blocks := prog.map fun b =>
      { body := b.body.map (Stmt.ins p)
        uses := b.test.toList
        next := fun v m => (((m.1.1, (b.next m.1.2 (v.headD 0 == 1)).1), m.2), (b.next m.1.2 (v.headD 0 == 1)).2) }
    fresh := fresh }

def Stmt.id : Stmt K → Nat
  | .const id _ | .arith id _ _ _ | .less id _ _ | .load id _ | .store id _ _ => id

def Stmt.args : Stmt K → List Nat
  | .const _ _ | .load _ _ => []
  | .arith _ _ a b | .less _ a b => [a, b]
  | .store _ a _ => [a]

/-- Names are defined once, and below `fresh`. -/
structure WellFormed (fresh : Nat) (prog : List (Part K)) : Prop where
  ssa : ((prog.flatMap Part.body).map Stmt.id).Nodup
  id : ∀ s ∈ prog.flatMap Part.body, s.id < fresh ∧ s.id ∉ s.args ∧ ∀ a ∈ s.args, a < fresh
  test : ∀ b ∈ prog, ∀ a ∈ b.test, a < fresh

/-! ## Executions on abstract numbers -/

/-- What is known of an execution. -/
structure Abs (α K : Type) where
  reg : Nat → Option α
  flag : Nat → Option Bool
  cell : Nat → Option α
  ctl : K

/-- Arithmetic that may fail. -/
structure Dom (α : Type) where
  const : Bits → Option α
  op : Wrapper.Arith → α → α → Option α
  less : α → α → Option Bool

def Abs.set (s : Abs α K) (id : Nat) (x : α) : Abs α K :=
  { s with reg := fun i => if i = id then some x else s.reg i, flag := fun i => if i = id then none else s.flag i }

def Abs.setFlag (s : Abs α K) (id : Nat) (b : Bool) : Abs α K :=
  { s with reg := fun i => if i = id then none else s.reg i, flag := fun i => if i = id then some b else s.flag i }

def Stmt.eval (D : Dom α) (s : Abs α K) : Stmt K → Option (Abs α K)
  | .const id x => (D.const x).map (s.set id)
  | .arith id op a b => (s.reg a).bind fun x => (s.reg b).bind fun y => (D.op op x y).map (s.set id)
  | .less id a b => (s.reg a).bind fun x => (s.reg b).bind fun y => (D.less x y).map (s.setFlag id)
  | .load id addr => (s.cell (addr s.ctl)).map (s.set id)
  | .store id a addr => (s.reg a).map fun x =>
      { s with
        reg := fun i => if i = id then none else s.reg i
        flag := fun i => if i = id then none else s.flag i
        cell := fun i => if i = addr s.ctl then some x else s.cell i }

def evalBody (D : Dom α) : List (Stmt K) → Abs α K → Option (Abs α K)
  | [], s => some s
  | a :: l, s => (a.eval D s).bind (evalBody D l)

/-- The outcome of the comparison a block ends with. -/
def Part.outcome (b : Part K) (s : Abs α K) : Option Bool :=
  match b.test with
  | none => some false
  | some t => s.flag t

def Part.eval (D : Dom α) (b : Part K) (s : Abs α K) : Option (Abs α K × Option Nat) :=
  (evalBody D b.body s).bind fun s => (b.outcome s).map fun t => ({ s with ctl := (b.next s.ctl t).1 }, (b.next s.ctl t).2)

/-- At most `n` blocks. -/
def evalRun (D : Dom α) (prog : List (Part K)) : Nat → Abs α K × Option Nat → Option (Abs α K × Option Nat)
  | 0, c => some c
  | n + 1, (s, cur) =>
    match cur.bind fun b => prog[b]? with
    | none => some (s, none)
    | some b => (b.eval D s).bind (evalRun D prog n)

/-- Exact arithmetic. -/
def exactDom (F : Fmt) : Dom ℚ where
  const x := some (x.val F)
  op a x y := if a = .div ∧ y = 0 then none else some (realOp a x y)
  less x y := some (decide (x < y))

/-- How far the result of an operation is from that on `x` and `y`, on operands at most `e` and `e'` from them. -/
def spreadOp (a : Wrapper.Arith) (x e y e' : ℚ) : ℚ :=
  match a with
  | .add | .sub => e + e'
  | .mul => |x| * e' + |y| * e + e * e'
  | .div => (e * |y| + |x| * e') / (|y| * (|y| - e'))

instance (R : Range) (x : ℚ) : Decidable (R.Has x) := by unfold Range.Has; infer_instance

instance (R : Range) (x : ℚ) : Decidable (R.Ok x) := by unfold Range.Ok; infer_instance

/-- The analysis: a value and a bound on its error. -/
def errDom (p : Wrapper.Prec) (inn : Nat) (η : ℚ) (I R : Range) : Dom (ℚ × ℚ) where
  const x := if x.WF (fmtOf p) ∧ x.Fin (fmtOf p) ∧ I.Ok (x.val (fmtOf p)) then some (x.val (fmtOf p), 0) else none
  op a x y :=
    let e1 := x.2 + inn * η * (|x.1| + x.2)
    let e2 := y.2 + inn * η * (|y.1| + y.2)
    let z := realOp a x.1 y.1
    let ez := spreadOp a x.1 e1 y.1 e2
    let e := ez + η * (|z| + ez)
    if a = .div ∧ (y.1 = 0 ∨ |y.1| ≤ e2) then none
    else if z = 0 ∧ ez = 0 then some (0, 0)
    else if 2 ^ R.low ≤ |z| - e ∧ |z| + e < 2 ^ R.high then some (z, e)
    else none
  less x y :=
    if x.2 + y.2 < |x.1 - y.1| ∨ (x.2 = 0 ∧ y.2 = 0) then some (decide (x.1 < y.1)) else none

/-! ## The analysis follows the exact execution -/

def Abs.map (f : α → β) (s : Abs α K) : Abs β K :=
  { reg := fun i => (s.reg i).map f, flag := s.flag, cell := fun i => (s.cell i).map f, ctl := s.ctl }

/-- What `D` knows of numbers is right of the numbers `f` takes from them. -/
structure Follows (f : α → β) (D : Dom α) (D' : Dom β) : Prop where
  const : ∀ x v, D.const x = some v → D'.const x = some (f v)
  op : ∀ a x y v, D.op a x y = some v → D'.op a (f x) (f y) = some (f v)
  less : ∀ x y b, D.less x y = some b → D'.less (f x) (f y) = some b

theorem map_set (f : α → β) (s : Abs α K) (id : Nat) (x : α) : (s.set id x).map f = (s.map f).set id (f x) := by
  unfold Abs.set Abs.map
  congr 1
  funext i
  dsimp only
  split_ifs <;> rfl

theorem map_setFlag (f : α → β) (s : Abs α K) (id : Nat) (x : Bool) : (s.setFlag id x).map f = (s.map f).setFlag id x := by
  unfold Abs.setFlag Abs.map
  congr 1
  funext i
  dsimp only
  split_ifs <;> rfl

theorem eval_follows {f : α → β} {D : Dom α} {D' : Dom β} (h : Follows f D D') (s s' : Abs α K) (a : Stmt K)
    (he : a.eval D s = some s') : a.eval D' (s.map f) = some (s'.map f) := by
  cases a with
  | const id x =>
    obtain ⟨v, h1, rfl⟩ := Option.map_eq_some_iff.1 he
    simp only [Stmt.eval, h.const x v h1, Option.map_some, map_set]
  | arith id op a b =>
    obtain ⟨x, hx, he⟩ := Option.bind_eq_some_iff.1 he
    obtain ⟨y, hy, he⟩ := Option.bind_eq_some_iff.1 he
    obtain ⟨v, h1, rfl⟩ := Option.map_eq_some_iff.1 he
    simp only [Stmt.eval, show (s.map f).reg a = some (f x) by simp [Abs.map, hx], show (s.map f).reg b = some (f y) by simp [Abs.map, hy],
      Option.bind_some, h.op op x y v h1, Option.map_some, map_set]
  | less id a b =>
    obtain ⟨x, hx, he⟩ := Option.bind_eq_some_iff.1 he
    obtain ⟨y, hy, he⟩ := Option.bind_eq_some_iff.1 he
    obtain ⟨v, h1, rfl⟩ := Option.map_eq_some_iff.1 he
    simp only [Stmt.eval, show (s.map f).reg a = some (f x) by simp [Abs.map, hx], show (s.map f).reg b = some (f y) by simp [Abs.map, hy],
      Option.bind_some, h.less x y v h1, Option.map_some, map_setFlag]
  | load id addr =>
    obtain ⟨v, h1, rfl⟩ := Option.map_eq_some_iff.1 he
    simp only [Stmt.eval, show (s.map f).cell (addr (s.map f).ctl) = some (f v) by simp [Abs.map, h1], Option.map_some, map_set]
  | store id a addr =>
    obtain ⟨v, h1, rfl⟩ := Option.map_eq_some_iff.1 he
    simp only [Stmt.eval, show (s.map f).reg a = some (f v) by simp [Abs.map, h1], Option.map_some]
    congr 1
    unfold Abs.map
    congr 1 <;> (funext i; dsimp only; split_ifs <;> rfl)

theorem body_follows {f : α → β} {D : Dom α} {D' : Dom β} (h : Follows f D D') (l : List (Stmt K)) (s s' : Abs α K)
    (he : evalBody D l s = some s') : evalBody D' l (s.map f) = some (s'.map f) := by
  induction l generalizing s with
  | nil => rw [evalBody] at he ⊢; rw [Option.some.inj he]
  | cons a l ih =>
    obtain ⟨s1, h1, h2⟩ := Option.bind_eq_some_iff.1 he
    rw [evalBody, eval_follows h s s1 a h1]
    exact ih s1 h2

theorem run_follows {f : α → β} {D : Dom α} {D' : Dom β} (h : Follows f D D') (prog : List (Part K)) (n : Nat) (s s' : Abs α K)
    (cur cur' : Option Nat) (he : evalRun D prog n (s, cur) = some (s', cur')) :
    evalRun D' prog n (s.map f, cur) = some (s'.map f, cur') := by
  induction n generalizing s cur with
  | zero =>
    obtain ⟨rfl, rfl⟩ := Prod.mk.inj (Option.some.inj he)
    rfl
  | succ n ih =>
    rw [evalRun] at he ⊢
    cases hb : cur.bind fun b => prog[b]? with
    | none =>
      rw [hb] at he
      obtain ⟨rfl, rfl⟩ := Prod.mk.inj (Option.some.inj he)
      rfl
    | some b =>
      rw [hb] at he
      obtain ⟨⟨s1, c1⟩, h1, h2⟩ := Option.bind_eq_some_iff.1 he
      obtain ⟨s2, h3, h4⟩ := Option.bind_eq_some_iff.1 h1
      obtain ⟨t, h5, h6⟩ := Option.map_eq_some_iff.1 h4
      obtain ⟨rfl, rfl⟩ := Prod.mk.inj h6
      have e : b.eval D' (s.map f) = some (({ s2 with ctl := (b.next s2.ctl t).1 } : Abs α K).map f, (b.next s2.ctl t).2) := by
        unfold Part.eval
        rw [body_follows h _ _ _ h3, Option.bind_some, show b.outcome (s2.map f) = b.outcome s2 from rfl, h5]
        rfl
      dsimp only
      rw [e]
      exact ih _ _ h2

/-- The values of the analysis are those of exact arithmetic, and its comparisons are those of the exact values. -/
theorem err_follows (p : Wrapper.Prec) (inn : Nat) (η : ℚ) (I R : Range) : Follows Prod.fst (errDom p inn η I R) (exactDom (fmtOf p)) where
  const x v h := by
    simp only [errDom] at h
    split_ifs at h
    rw [← Option.some.inj h]
    rfl
  op a x y v h := by
    simp only [errDom] at h
    have hd : ¬ (a = .div ∧ (y.1 = 0 ∨ |y.1| ≤ y.2 + inn * η * (|y.1| + y.2))) → ¬ (a = .div ∧ y.1 = 0) :=
      fun h1 h2 => h1 ⟨h2.1, Or.inl h2.2⟩
    split_ifs at h with h1 h2 h3
    · rw [← Option.some.inj h]
      simp only [exactDom, if_neg (hd h1), h2.1]
    · rw [← Option.some.inj h]
      simp only [exactDom, if_neg (hd h1)]
  less x y b h := by
    simp only [errDom] at h
    split_ifs at h
    rw [← Option.some.inj h]
    rfl

/-! ## One operation -/

theorem spread_sound (a : Wrapper.Arith) {x e y e' x' y' : ℚ} (hx : |x' - x| ≤ e) (hy : |y' - y| ≤ e') (hd : a = .div → e' < |y|) :
    |realOp a x' y' - realOp a x y| ≤ spreadOp a x e y e' := by
  have he := le_trans (abs_nonneg _) hx
  cases a with
  | add =>
    show |x' + y' - (x + y)| ≤ e + e'
    rw [show x' + y' - (x + y) = (x' - x) + (y' - y) by ring]
    exact le_trans (abs_add_le _ _) (add_le_add hx hy)
  | sub =>
    show |x' - y' - (x - y)| ≤ e + e'
    rw [show x' - y' - (x - y) = (x' - x) - (y' - y) by ring]
    exact le_trans (abs_sub _ _) (add_le_add hx hy)
  | mul =>
    show |x' * y' - x * y| ≤ |x| * e' + |y| * e + e * e'
    rw [show x' * y' - x * y = x * (y' - y) + y * (x' - x) + (x' - x) * (y' - y) by ring]
    refine le_trans (abs_add_three _ _ _) ?_
    rw [abs_mul, abs_mul, abs_mul]
    exact add_le_add (add_le_add (mul_le_mul_of_nonneg_left hy (abs_nonneg _)) (mul_le_mul_of_nonneg_left hx (abs_nonneg _)))
      (mul_le_mul hx hy (abs_nonneg _) he)
  | div =>
    have h := hd rfl
    have he' := le_trans (abs_nonneg _) hy
    have h1 : |y| - e' ≤ |y'| := by
      have := abs_sub_abs_le_abs_sub y y'
      rw [abs_sub_comm] at this
      linarith
    have hy0 : y ≠ 0 := abs_pos.1 (by linarith)
    have hy0' : y' ≠ 0 := abs_pos.1 (by linarith)
    have hp : 0 < |y| * (|y| - e') := mul_pos (by linarith) (by linarith)
    show |x' / y' - x / y| ≤ (e * |y| + |x| * e') / (|y| * (|y| - e'))
    rw [show x' / y' - x / y = ((x' - x) * y - x * (y' - y)) / (y * y') by field_simp; ring, abs_div, abs_mul y y']
    refine div_le_div₀ (by positivity) ?_ hp (mul_le_mul_of_nonneg_left h1 (abs_nonneg _))
    refine le_trans (abs_sub _ _) ?_
    rw [abs_mul, abs_mul]
    exact add_le_add (mul_le_mul_of_nonneg_right hx (abs_nonneg _)) (mul_le_mul_of_nonneg_left hy (abs_nonneg _))

/-- A number of the program within the bound of the analysis. -/
def Within (p : Wrapper.Prec) (I : Range) (v : ℚ × ℚ) (y : Bits) : Prop :=
  y.WF (fmtOf p) ∧ y.Fin (fmtOf p) ∧ I.Ok (y.val (fmtOf p)) ∧ |y.val (fmtOf p) - v.1| ≤ v.2

theorem op_sound (p : Wrapper.Prec) (inn : Nat) (η : ℚ) (h0 : 0 ≤ η) (I R : Range) (hIR : I.low ≤ R.low ∧ R.high ≤ I.high)
    (a : Wrapper.Arith) (x : List (BitVec 64)) (y : Bits) (u v w : ℚ × ℚ) (hA : Within p I u (operand (fmtOf p) x 0))
    (hB : Within p I v (operand (fmtOf p) x 1)) (hy : y.WF (fmtOf p)) (hc : SignedContract p inn η I R (.arith a p) x y)
    (h : (errDom p inn η I R).op a u v = some w) : Within p I w y := by
  obtain ⟨-, fA, iA, eA⟩ := hA
  obtain ⟨-, fB, iB, eB⟩ := hB
  obtain ⟨A', B', dA, dB, c⟩ := hc rfl fA fB iA iB
  have moved : ∀ (A A' : ℚ) (u : ℚ × ℚ), |A - u.1| ≤ u.2 → |A' - A| ≤ inn * η * |A| → |A' - u.1| ≤ u.2 + inn * η * (|u.1| + u.2) := by
    intro A A' u h1 h2
    have h3 : |A| ≤ |u.1| + u.2 := by
      have := abs_sub_abs_le_abs_sub A u.1
      linarith
    have h4 := mul_le_mul_of_nonneg_left h3 (mul_nonneg (Nat.cast_nonneg (α := ℚ) inn) h0)
    have h5 := abs_sub_le A' A u.1
    linarith
  have mA := moved _ _ u eA dA
  have mB := moved _ _ v eB dB
  simp only [errDom] at h
  generalize u.2 + inn * η * (|u.1| + u.2) = e1 at *
  generalize v.2 + inn * η * (|v.1| + v.2) = e2 at *
  split_ifs at h with h1 h2 h3
  all_goals
    have hd : a = .div → e2 < |v.1| := fun ha => by
      by_contra hn
      exact h1 ⟨ha, Or.inr (not_lt.1 hn)⟩
    have hB' : a = .div → B' ≠ 0 := by
      rintro ha rfl
      have := hd ha
      rw [zero_sub, abs_neg] at mB
      linarith
    have hz := spread_sound a mA mB hd
  · obtain rfl := Option.some.inj h
    rw [h2.1, h2.2, sub_zero] at hz
    have hz0 : realOp a A' B' = 0 := abs_eq_zero.1 (le_antisymm hz (abs_nonneg _))
    obtain ⟨fy, ey⟩ := c hB' (Or.inl hz0)
    rw [hz0, abs_zero, mul_zero, sub_zero] at ey
    have := abs_eq_zero.1 (le_antisymm ey (abs_nonneg _))
    exact ⟨hy, fy, Or.inl this, by rw [this]; simp⟩
  · obtain rfl := Option.some.inj h
    generalize spreadOp a u.1 e1 v.1 e2 = ez at *
    generalize realOp a u.1 v.1 = z at *
    generalize realOp a A' B' = z' at *
    have hez := le_trans (abs_nonneg _) hz
    have a1 := abs_sub_abs_le_abs_sub z' z
    have a2 := abs_sub_abs_le_abs_sub z z'
    rw [abs_sub_comm] at a2
    have hη : 0 ≤ η * (|z| + ez) := by positivity
    obtain ⟨fy, ey⟩ := c hB' (Or.inr ⟨by linarith [h3.1], by linarith [h3.2]⟩)
    have e3 : |y.val (fmtOf p) - z| ≤ ez + η * (|z| + ez) := by
      have := abs_sub_le (y.val (fmtOf p)) z' z
      have := mul_le_mul_of_nonneg_left (show |z'| ≤ |z| + ez by linarith) h0
      linarith
    refine ⟨hy, fy, Or.inr ⟨?_, ?_⟩, e3⟩
    · have := abs_sub_abs_le_abs_sub z (y.val (fmtOf p))
      rw [abs_sub_comm] at this
      exact le_trans (zpow_le_zpow_right₀ (by norm_num) hIR.1) (by linarith [h3.1])
    · have := abs_sub_abs_le_abs_sub (y.val (fmtOf p)) z
      exact lt_of_lt_of_le (show _ < (2 : ℚ) ^ R.high by linarith [h3.2]) (zpow_le_zpow_right₀ (by norm_num) hIR.2)

theorem less_sound (p : Wrapper.Prec) (inn : Nat) (η : ℚ) (I R : Range) (u v : ℚ × ℚ) (A B : Bits) (hA : Within p I u A) (hB : Within p I v B)
    (b : Bool) (h : (errDom p inn η I R).less u v = some b) : decide (A.val (fmtOf p) < B.val (fmtOf p)) = b := by
  obtain ⟨-, -, -, eA⟩ := hA
  obtain ⟨-, -, -, eB⟩ := hB
  simp only [errDom] at h
  split_ifs at h with h1
  rw [← Option.some.inj h, decide_eq_decide]
  have a1 := abs_le.1 eA
  have a2 := abs_le.1 eB
  rcases h1 with h1 | ⟨h1, h2⟩
  · rcases lt_abs.1 h1 with h1 | h1 <;> constructor <;> intro h2 <;> linarith
  · rw [h1] at a1
    rw [h2] at a2
    constructor <;> intro h3 <;> linarith

/-! ## The compiled program -/

/-- The comparison of the machine that `fcmp olt`, predicate 4 of LLVM, stands for, on finite numbers. -/
def Compares (p : Wrapper.Prec) (op1 : Wrapper.OpId → List (BitVec 64) → BitVec 64) : Prop :=
  ∀ A B : Bits, A.WF (fmtOf p) → B.WF (fmtOf p) → A.Fin (fmtOf p) → B.Fin (fmtOf p) →
    op1 (.cmp p) [BitVec.ofNat 64 4, image (fmtOf p) A, image (fmtOf p) B] =
      if A.val (fmtOf p) < B.val (fmtOf p) then 1 else 0

/-- A state of the program that is as the analysis says. -/
structure Agrees (p : Wrapper.Prec) (I : Range) (s : Abs (ℚ × ℚ) K) (env : Nat → Nat) (m : Mem K) : Prop where
  reg : ∀ i v, s.reg i = some v → ∃ y, Within p I v y ∧ env i = word (fmtOf p) y
  flag : ∀ i b, s.flag i = some b → env i = b.toNat
  cell : ∀ i v, s.cell i = some v → ∃ y, Within p I v y ∧ m.1 i = word (fmtOf p) y
  ctl : m.2 = s.ctl

theorem lane_image (p : Wrapper.Prec) (y : Bits) (hy : y.WF (fmtOf p)) : lane (scalarOf p).bits (word (fmtOf p) y) 0 = image (fmtOf p) y := by
  have hw := word_lt (fmtOf p) y hy
  unfold lane image
  rw [bits_scalarOf, Nat.mul_zero, Nat.pow_zero, Nat.div_one, Nat.mod_eq_of_lt hw]

theorem Agrees.set {p : Wrapper.Prec} {I : Range} {s : Abs (ℚ × ℚ) K} {env : Nat → Nat} {m : Mem K} (h : Agrees p I s env m) (id : Nat)
    (v : ℚ × ℚ) (y : Bits) (hy : Within p I v y) : Agrees p I (s.set id v) (fun i => if i = id then word (fmtOf p) y else env i) m where
  reg i w hw := by
    simp only [Abs.set] at hw
    split_ifs at hw with hi
    · obtain rfl := Option.some.inj hw
      exact ⟨y, hy, by rw [if_pos hi]⟩
    · rw [if_neg hi]
      exact h.reg i w hw
  flag i b hb := by
    simp only [Abs.set] at hb
    split_ifs at hb with hi
    rw [if_neg hi]
    exact h.flag i b hb
  cell := h.cell
  ctl := h.ctl

theorem stmt_sound (p : Wrapper.Prec) (inn : Nat) (η : ℚ) (h0 : 0 ≤ η) (I R : Range) (hIR : I.low ≤ R.low ∧ R.high ≤ I.high)
    (fl : Flags) (hfc : fl.fcmp = false) (op1 : Wrapper.OpId → List (BitVec 64) → BitVec 64) (hcmp : Compares p op1)
    (rest : Instr → Nat → List Nat → Nat) (bs : List (Wrapper.Backend σ κ)) (ctx : Nat → κ) (a : Stmt K) (s s' : Abs (ℚ × ℚ) K)
    (t t' : State (Mem K × σ)) (hs : MStep (SignedContract p inn η I R) fl (linked op1 rest bs ctx) t (a.ins p) t')
    (hR : Agrees p I s t.env t.mem.1) (he : a.eval (errDom p inn η I R) s = some s') : Agrees p I s' t'.env t'.mem.1 := by
  cases a with
  | const id x =>
    obtain ⟨v, h1, rfl⟩ := Option.map_eq_some_iff.1 he
    cases hs
    simp only [errDom] at h1
    split_ifs at h1 with h2
    obtain rfl := Option.some.inj h1
    exact hR.set id _ x ⟨h2.1, h2.2.1, h2.2.2, by simp⟩
  | arith id op a b =>
    obtain ⟨x, hx, he⟩ := Option.bind_eq_some_iff.1 he
    obtain ⟨y, hy, he⟩ := Option.bind_eq_some_iff.1 he
    obtain ⟨v, h1, rfl⟩ := Option.map_eq_some_iff.1 he
    obtain ⟨A, wA, eA⟩ := hR.reg a x hx
    obtain ⟨B, wB, eB⟩ := hR.reg b y hy
    cases hs with
    | native id i pred args u hn =>
      exact absurd ⟨by cases op <;> trivial, by cases p; exacts [Or.inl rfl, Or.inr rfl]⟩ hn
    | op id i pred args r t2 b1 b2 b3 =>
      obtain ⟨op', ty, w, o, k1, k2, k3, k4, k5⟩ := b3
      obtain ⟨rfl, rfl⟩ := Prod.mk.inj (Option.some.inj k2)
      rw [meaning_opcode p _ _ k1] at k3
      obtain rfl := Option.some.inj k3
      obtain ⟨z, wz, lz, cz⟩ := k5 0 (by decide)
      have hvw : r = word (fmtOf p) z := word_of_lane p r (by simpa [resultFmt] using k4) z wz lz
      subst hvw
      refine hR.set id v z (op_sound p inn η h0 I R hIR op _ z x y v ?_ ?_ wz cz h1)
      · rw [operand_word p A wA.1 _ 0]
        · exact wA
        · show lane (scalarOf p).bits (t.env a) 0 = _
          rw [eA, bits_scalarOf]
      · rw [operand_word p B wB.1 _ 1]
        · exact wB
        · show lane (scalarOf p).bits (t.env b) 0 = _
          rw [eB, bits_scalarOf]
  | less id a b =>
    obtain ⟨x, hx, he⟩ := Option.bind_eq_some_iff.1 he
    obtain ⟨y, hy, he⟩ := Option.bind_eq_some_iff.1 he
    obtain ⟨v, h1, rfl⟩ := Option.map_eq_some_iff.1 he
    obtain ⟨A, wA, eA⟩ := hR.reg a x hx
    obtain ⟨B, wB, eB⟩ := hR.reg b y hy
    cases hs with
    | op id i pred args r t b1 b2 b3 => exact absurd (show fl.fcmp = true from b1) (by rw [hfc]; decide)
    | native id i pred args u hn =>
      have hv : (linked (P := Mem K) op1 rest bs ctx).native ⟨.fcmp, .scalar (scalarOf p), .scalar (.int 1)⟩ olt [t.env a, t.env b] = v.toNat := by
        rw [eA, eB]
        have hm : meaning .cmp (scalarOf p) = some (.cmp p) := by cases p <;> rfl
        show nativeOf op1 rest ⟨.fcmp, .scalar (scalarOf p), .scalar (.int 1)⟩ olt [word (fmtOf p) A, word (fmtOf p) B] = v.toNat
        simp only [nativeOf, kind, Ty.shape, hm, if_true]
        show (op1 (.cmp p) [BitVec.ofNat 64 4, lane (scalarOf p).bits (word (fmtOf p) A) 0, lane (scalarOf p).bits (word (fmtOf p) B) 0]).toNat % 2 ^ 1 + 2 ^ 1 * 0 = _
        rw [lane_image p A wA.1, lane_image p B wB.1, hcmp A B wA.1 wB.1 wA.2.1 wB.2.1, ← less_sound p inn η I R x y A B wA wB v h1]
        split_ifs with h <;> simp [h]
      constructor
      · intro i w hw
        simp only [Abs.setFlag] at hw
        split_ifs at hw with hi
        obtain ⟨y, y1, y2⟩ := hR.reg i w hw
        refine ⟨y, y1, ?_⟩
        show (if i = id then _ else t.env i) = _
        rw [if_neg hi, y2]
      · intro i c hc
        simp only [Abs.setFlag] at hc
        show (if i = id then _ else t.env i) = _
        split_ifs at hc with hi
        · obtain rfl := Option.some.inj hc
          rw [if_pos hi]
          exact hv
        · rw [if_neg hi]
          exact hR.flag i c hc
      · exact hR.cell
      · exact hR.ctl
  | load id addr =>
    obtain ⟨v, h1, rfl⟩ := Option.map_eq_some_iff.1 he
    cases hs
    obtain ⟨y, y1, y2⟩ := hR.cell _ v h1
    have := hR.set id v y y1
    rw [← y2, ← hR.ctl] at this
    exact this
  | store id a addr =>
    obtain ⟨v, h1, rfl⟩ := Option.map_eq_some_iff.1 he
    cases hs
    obtain ⟨y, y1, y2⟩ := hR.reg a v h1
    constructor
    · intro i w hw
      dsimp only at hw
      split_ifs at hw with hi
      obtain ⟨z, z1, z2⟩ := hR.reg i w hw
      refine ⟨z, z1, ?_⟩
      show (if i = id then _ else t.env i) = _
      rw [if_neg hi, z2]
    · intro i c hc
      dsimp only at hc
      split_ifs at hc with hi
      show (if i = id then _ else t.env i) = _
      rw [if_neg hi]
      exact hR.flag i c hc
    · intro i w hw
      dsimp only at hw
      show ∃ z, Within p I w z ∧ (if i = addr t.mem.1.2 then t.env a else t.mem.1.1 i) = _
      rw [hR.ctl]
      split_ifs at hw with hi
      · obtain rfl := Option.some.inj hw
        exact ⟨y, y1, by rw [if_pos hi, y2]⟩
      · rw [if_neg hi]
        exact hR.cell i w hw
    · exact hR.ctl

theorem body_sound (p : Wrapper.Prec) (inn : Nat) (η : ℚ) (h0 : 0 ≤ η) (I R : Range) (hIR : I.low ≤ R.low ∧ R.high ≤ I.high)
    (fl : Flags) (hfc : fl.fcmp = false) (op1 : Wrapper.OpId → List (BitVec 64) → BitVec 64) (hcmp : Compares p op1)
    (rest : Instr → Nat → List Nat → Nat) (bs : List (Wrapper.Backend σ κ)) (ctx : Nat → κ) (l : List (Stmt K)) (s s' : Abs (ℚ × ℚ) K)
    (t t' : State (Mem K × σ)) (hs : MSteps (SignedContract p inn η I R) fl (linked op1 rest bs ctx) t (l.map (Stmt.ins p)) t')
    (hR : Agrees p I s t.env t.mem.1) (he : evalBody (errDom p inn η I R) l s = some s') : Agrees p I s' t'.env t'.mem.1 := by
  induction l generalizing s t with
  | nil =>
    cases hs
    rw [← Option.some.inj he]
    exact hR
  | cons a l ih =>
    obtain ⟨s1, h1, h2⟩ := Option.bind_eq_some_iff.1 he
    cases hs with
    | cons g1 g2 => exact ih s1 _ g2 (stmt_sound p inn η h0 I R hIR fl hfc op1 hcmp rest bs ctx a s s1 t _ g1 hR h1) h2

theorem run_sound (p : Wrapper.Prec) (inn : Nat) (η : ℚ) (h0 : 0 ≤ η) (I R : Range) (hIR : I.low ≤ R.low ∧ R.high ≤ I.high)
    (fl : Flags) (hfc : fl.fcmp = false) (op1 : Wrapper.OpId → List (BitVec 64) → BitVec 64) (hcmp : Compares p op1)
    (rest : Instr → Nat → List Nat → Nat) (bs : List (Wrapper.Backend σ κ)) (ctx : Nat → κ) (fresh : Nat) (prog : List (Part K)) (n : Nat)
    (s s' : Abs (ℚ × ℚ) K) (t t' : State (Mem K × σ)) (cur cur' fin : Option Nat)
    (hs : MRuns (SignedContract p inn η I R) fl (linked op1 rest bs ctx) (compile p fresh prog) n t cur t' fin)
    (hR : Agrees p I s t.env t.mem.1) (he : evalRun (errDom p inn η I R) prog n (s, cur) = some (s', cur')) :
    fin = cur' ∧ Agrees p I s' t'.env t'.mem.1 := by
  induction n generalizing s t cur with
  | zero =>
    cases hs
    obtain ⟨rfl, rfl⟩ := Prod.mk.inj (Option.some.inj he)
    exact ⟨rfl, hR⟩
  | succ n ih =>
    have hget : ∀ k : Nat, (compile (σ := σ) p fresh prog).blocks[k]? = prog[k]?.map _ := fun k => List.getElem?_map
    rw [evalRun] at he
    cases hs with
    | stop n t cur h =>
      have hn : (cur.bind fun b => prog[b]?) = none := by
        cases cur with
        | none => rfl
        | some k =>
          rw [Option.bind_some, hget] at h
          exact Option.map_eq_none_iff.1 h
      rw [hn] at he
      obtain ⟨rfl, rfl⟩ := Prod.mk.inj (Option.some.inj he)
      exact ⟨rfl, hR⟩
    | block hb g1 g2 =>
      rename_i s1 k b
      rw [hget] at hb
      obtain ⟨q, hq, rfl⟩ := Option.map_eq_some_iff.1 hb
      rw [Option.bind_some, hq] at he
      obtain ⟨⟨a1, c1⟩, e1, e2⟩ := Option.bind_eq_some_iff.1 he
      obtain ⟨a2, e3, e4⟩ := Option.bind_eq_some_iff.1 e1
      obtain ⟨o, e5, e6⟩ := Option.map_eq_some_iff.1 e4
      obtain ⟨rfl, rfl⟩ := Prod.mk.inj e6
      have hA := body_sound p inn η h0 I R hIR fl hfc op1 hcmp rest bs ctx q.body s a2 t s1 g1 hR e3
      have ho : ((q.test.toList.map s1.env).headD 0 == 1) = o := by
        unfold Part.outcome at e5
        cases ht : q.test with
        | none =>
          rw [ht] at e5
          rw [← Option.some.inj e5]
          rfl
        | some x =>
          rw [ht] at e5
          show (s1.env x == 1) = o
          rw [hA.flag x o e5]
          cases o <;> rfl
      have hc := hA.ctl
      dsimp only at g2
      rw [ho, hc] at g2
      exact ih { a2 with ctl := (q.next a2.ctl o).1 } _ _ g2 ⟨hA.reg, hA.flag, hA.cell, rfl⟩ e2

theorem compile_all (p : Wrapper.Prec) (fresh : Nat) (prog : List (Part K)) :
    (compile (σ := σ) p fresh prog).all = (prog.flatMap Part.body).map (Stmt.ins p) := by
  simp only [compile, Func.all, List.flatMap_map, List.map_flatMap]

theorem ins_name (p : Wrapper.Prec) (a : Stmt K) : (a.ins (σ := σ) p).name = a.id := by cases a <;> rfl

theorem ins_args (p : Wrapper.Prec) (a : Stmt K) : (a.ins (σ := σ) p).args = a.args := by cases a <;> rfl

theorem ins_fp (p : Wrapper.Prec) (a : Stmt K) (id : Nat) (i : Instr) (pred : Nat) (args : List Nat)
    (h : (.fp id i pred args : Ins (Mem K × σ)) = a.ins p) :
    (∃ op x y, i = ⟨opcode op, .scalar (scalarOf p), .scalar (scalarOf p)⟩ ∧ args = [x, y]) ∨
      ∃ x y, i = ⟨.fcmp, .scalar (scalarOf p), .scalar (.int 1)⟩ ∧ args = [x, y] := by
  cases a <;> cases h
  · exact Or.inl ⟨_, _, _, rfl, rfl⟩
  · exact Or.inr ⟨_, _, rfl, rfl⟩

theorem instrument_fcmp (p : Wrapper.Prec) (fl : Flags) (h : fl.fcmp = false) :
    instrument (pair p) fl ⟨.fcmp, .scalar (scalarOf p), .scalar (.int 1)⟩ = .ok .kept := by
  have : ∀ b c, instrument (pair p) ⟨false, b, c⟩ ⟨.fcmp, .scalar (scalarOf p), .scalar (.int 1)⟩ = .ok .kept := by
    cases p <;> decide +kernel
  rw [show fl = ⟨false, fl.fma, fl.cast⟩ by rw [← h]]
  exact this _ _

theorem compile_source (p : Wrapper.Prec) (fl : Flags) (hfc : fl.fcmp = false) (fresh : Nat) (prog : List (Part K)) (hw : WellFormed fresh prog) :
    Source (pair p) fl (compile (σ := σ) p fresh prog) where
  named := by
    constructor
    · intro ins h
      rw [compile_all] at h
      obtain ⟨a, ha, rfl⟩ := List.mem_map.1 h
      rw [ins_name]
      exact (hw.id a ha).1
    · intro ins h
      rw [compile_all] at h
      obtain ⟨a, ha, rfl⟩ := List.mem_map.1 h
      rw [ins_args]
      exact (hw.id a ha).2.2
    · intro b hb a ha
      obtain ⟨q, hq, rfl⟩ := List.mem_map.1 hb
      exact hw.test q hq a (Option.mem_toList.1 ha)
    · intro ins h _
      rw [compile_all] at h
      obtain ⟨a, ha, rfl⟩ := List.mem_map.1 h
      rw [ins_args, ins_name]
      exact (hw.id a ha).2.1
  ssa := by
    rw [compile_all, List.map_map]
    have : (Ins.name ∘ Stmt.ins (σ := σ) p : Stmt K → Nat) = Stmt.id := by
      funext a
      exact ins_name (σ := σ) p a
    rw [this]
    exact hw.ssa
  arity := by
    intro id i pred args h
    rw [compile_all] at h
    obtain ⟨a, -, h⟩ := List.mem_map.1 h
    rcases ins_fp p a id i pred args h.symm with ⟨op, x, y, rfl, rfl⟩ | ⟨x, y, rfl, rfl⟩
    · refine ⟨by simp, fun r hr _ => ?_⟩
      obtain ⟨name, e⟩ := instrument_arith p op fl
      rw [e] at hr
      obtain rfl := Outcome.ok.inj hr
      rfl
    · refine ⟨by simp, fun r hr hk => ?_⟩
      rw [instrument_fcmp p fl hfc] at hr
      exact absurd (Outcome.ok.inj hr).symm hk
  typed := by
    intro id i pred args h h1 _
    rw [compile_all] at h
    obtain ⟨a, -, h⟩ := List.mem_map.1 h
    rcases ins_fp p a id i pred args h.symm with ⟨op, x, y, rfl, rfl⟩ | ⟨x, y, rfl, rfl⟩
    · cases p <;> cases op <;> exact ⟨rfl, by simp [ReturnsNaturally, pair, opcode, scalarOf]⟩
    · exact absurd (show fl.fcmp = true from h1) (by rw [hfc]; decide)

theorem compile_blind (p : Wrapper.Prec) (fresh : Nat) (prog : List (Part K)) : Blind (compile (σ := σ) p fresh prog) where
  other := by
    intro id args f h
    rw [compile_all] at h
    obtain ⟨a, -, h⟩ := List.mem_map.1 h
    cases a <;> cases h <;> exact fun _ _ _ _ => ⟨rfl, rfl⟩
  next := by
    intro b hb
    obtain ⟨q, hq, rfl⟩ := List.mem_map.1 hb
    exact fun _ _ _ _ => ⟨rfl, rfl⟩
  fresh := by
    intro ins h
    rw [compile_all] at h
    obtain ⟨a, -, rfl⟩ := List.mem_map.1 h
    cases a
    · exact Or.inr ⟨_, _, _, rfl⟩
    · exact Or.inl ⟨_, _, _, _, rfl⟩
    · exact Or.inl ⟨_, _, _, _, rfl⟩
    · exact Or.inr ⟨_, _, _, rfl⟩
    · exact Or.inr ⟨_, _, _, rfl⟩

theorem compile_ok (p : Wrapper.Prec) (fl : Flags) (hfc : fl.fcmp = false) (fresh : Nat) (prog : List (Part K)) (order : List Nat) :
    ∃ F', replaceAll (pair p) fl (compile (σ := σ) p fresh prog) order = .ok F' := by
  refine replaceAll_ok (pair p) fl order _ fun id i pred args h => ?_
  rw [compile_all] at h
  obtain ⟨a, -, h⟩ := List.mem_map.1 h
  rcases ins_fp p a id i pred args h.symm with ⟨op, x, y, rfl, rfl⟩ | ⟨x, y, rfl, rfl⟩
  · obtain ⟨name, e⟩ := instrument_arith p op fl
    exact ⟨_, e⟩
  · exact ⟨_, instrument_fcmp p fl hfc⟩

/-! ## The analysis is sound -/

/-- What the analysis knows at the start: some cells, with bounds on their errors. -/
def start (cell : Nat → Option α) (ctl : K) : Abs α K := { reg := fun _ => none, flag := fun _ => none, cell := cell, ctl := ctl }

/-- A memory with numbers within the bounds in the cells known. -/
def Inputs (p : Wrapper.Prec) (I : Range) (cell : Nat → Option (ℚ × ℚ)) (m : Nat → Nat) : Prop :=
  ∀ i v, cell i = some v → ∃ y, Within p I v y ∧ m i = word (fmtOf p) y

/-- **C100** If the analysis of `n` blocks of a program does not stop, then the program can be compiled with Verificarlo, in any order of
replacement; run on inputs within their bounds, with any backends that keep the contract, whatever their state, it is after `n` blocks
where exact arithmetic is, with the same addresses and counters, and in every cell the analysis knows is a finite number within the
bound of the value of exact arithmetic. -/
theorem C100_loops_partial (p : Wrapper.Prec) (inn : Nat) (η : ℚ) (h0 : 0 ≤ η) (I R : Range) (hIR : I.low ≤ R.low ∧ R.high ≤ I.high)
    (fl : Flags) (hfc : fl.fcmp = false) (op1 : Wrapper.OpId → List (BitVec 64) → BitVec 64) (hcmp : Compares p op1)
    (rest : Instr → Nat → List Nat → Nat) (bs : List (Wrapper.Backend σ κ)) (ctx : Nat → κ) (hm : Meets fl (SignedContract p inn η I R) bs ctx)
    (fresh : Nat) (prog : List (Part K)) (hw : WellFormed fresh prog) (order : List Nat) (hp : order.Perm (workList fl (compile (σ := σ) p fresh prog)))
    (cell : Nat → Option (ℚ × ℚ)) (ctl : K) (n : Nat) (s : Abs (ℚ × ℚ) K) (cur : Option Nat)
    (he : evalRun (errDom p inn η I R) prog n (start cell ctl, some 0) = some (s, cur))
    (m : Nat → Nat) (hin : Inputs p I cell m) (t : σ) :
    ∃ F', replaceAll (pair p) fl (compile p fresh prog) order = .ok F' ∧
      let r := run (exec (linked op1 rest bs ctx)) F' n (enter 0 (fun _ => 0) ((m, ctl), t), some 0)
      (∃ x, evalRun (exactDom (fmtOf p)) prog n (start (fun i => (cell i).map Prod.fst) ctl, some 0) = some (x, r.2) ∧ r.1.mem.1.2 = x.ctl ∧
        ∀ i v, s.cell i = some v → x.cell i = some v.1) ∧
      r.2 = cur ∧ r.1.mem.1.2 = s.ctl ∧ Inputs p I s.cell r.1.mem.1.1 := by
  obtain ⟨F', hF'⟩ := compile_ok (σ := σ) p fl hfc fresh prog order
  refine ⟨F', hF', ?_⟩
  intro r
  obtain ⟨st, hrun, hmem⟩ := C94_contract_partial (pair p) fl hfc (SignedContract p inn η I R) op1 rest bs ctx hm (compile p fresh prog) F' order
    (compile_source p fl hfc fresh prog hw) (compile_blind p fresh prog) hp hF' 0 (fun _ _ => Nat.zero_le _) (Nat.zero_le _) (fun _ => 0)
    ((m, ctl), t) n (some 0)
  obtain ⟨e1, e2⟩ := run_sound p inn η h0 I R hIR fl hfc op1 hcmp rest bs ctx fresh prog n (start cell ctl) s _ st (some 0) cur _ hrun
    ⟨fun _ _ h => (by simp [start] at h), fun _ _ h => (by simp [start] at h), hin, rfl⟩ he
  have hmem : st.mem = r.1.mem := hmem
  rw [hmem] at e2
  refine ⟨⟨s.map Prod.fst, ?_, e2.ctl, fun i v hv => ?_⟩, e1, e2.ctl, e2.cell⟩
  · rw [show r.2 = cur from e1]
    exact run_follows (err_follows p inn η I R) prog n _ s (some 0) cur he
  · show (s.cell i).map Prod.fst = _
    rw [hv]
    rfl

end Verif.Pass
