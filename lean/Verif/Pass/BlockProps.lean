import Mathlib.Data.List.Basic
import Mathlib.Tactic.SplitIfs
import Mathlib.Tactic.Tauto
import Verif.Pass.Block
import Verif.Pass.ReplaceProps

/-!
# Property C89: an instrumented function computes what the source says with the wrappers

The simulation replaces one instruction at a time: the function before the step, in which the
instruction means what it is replaced by, is simulated by the function after the step.
-/

namespace Verif.Pass
open Verif

variable {M : Type}

/-! ## Functions in static single assignment form -/

/-- The name an instruction defines. -/
def Ins.name : Ins M → Nat
  | .fp id _ _ _ => id
  | .other id _ _ => id
  | .bitcast id _ => id
  | .spill id _ _ => id
  | .call id _ _ _ => id
  | .trunc id _ _ => id

/-- The names an instruction uses. -/
def Ins.args : Ins M → List Nat
  | .fp _ _ _ args => args
  | .other _ args _ => args
  | .bitcast _ a => [a]
  | .spill _ a _ => [a]
  | .call _ _ _ args => args
  | .trunc _ a _ => [a]

/-- Is it an instruction the pass may replace? -/
def Ins.cand : Ins M → Bool
  | .fp _ _ _ _ => true
  | _ => false

/-- All instructions of a function. -/
def Func.all (F : Func M) : List (Ins M) := F.blocks.flatMap Block.body

/-- Names are below `fresh`, and no candidate uses itself. -/
structure Named (F : Func M) : Prop where
  name : ∀ ins ∈ F.all, ins.name < F.fresh
  args : ∀ ins ∈ F.all, ∀ a ∈ ins.args, a < F.fresh
  uses : ∀ b ∈ F.blocks, ∀ a ∈ b.uses, a < F.fresh
  self : ∀ ins ∈ F.all, ins.cand = true → ins.name ∉ ins.args

/-- A name defined by one instruction only. -/
def Uniq (F : Func M) (x : Nat) : Prop := ∀ ins ∈ F.all, ∀ ins' ∈ F.all, ins.name = x → ins'.name = x → ins = ins'

/-- How operands are passed. -/
def Result.operands : Result → List Operand
  | .kept => []
  | .dead _ ops => ops
  | .replaced _ ops _ => ops

/-- The wrapper of an instruction has as many parameters as the instruction has operands. -/
def Arity (sig : String → Sig) (fl : Flags) (F : Func M) : Prop :=
  ∀ id i pred args, .fp id i pred args ∈ F.all → args.length ≤ 3 ∧
    ∀ r, instrument sig fl i = .ok r → r ≠ .kept → r.operands.length = args.length

/-! ## What a replaced instruction means -/

/-- The value and the memory after the code that replaces an instruction. -/
def meant (S : Sem M) (i : Instr) (pred : Nat) (vals : List Nat) (m : M) : Result → Nat × M
  | .kept => (S.native i pred vals, m)
  | .dead name _ => (S.native i pred vals, (S.wrapper name (immediate i pred) vals m).2)
  | .replaced name _ v =>
    let r := S.wrapper name (immediate i pred) vals m
    ((match v with | .trunc => S.trunc i.retTy r.1 | _ => r.1), r.2)

/-- The same from the instruction. -/
def spec (sig : String → Sig) (fl : Flags) (S : Sem M) (i : Instr) (pred : Nat) (vals : List Nat) (m : M) : Nat × M :=
  match instrument sig fl i with
  | .ok r => meant S i pred vals m r
  | _ => (S.native i pred vals, m)

/-- Execution where the instructions named in `X` mean what they are replaced by. -/
def execX (sig : String → Sig) (fl : Flags) (S : Sem M) (X : List Nat) (s : State M) (ins : Ins M) : State M :=
  match ins with
  | .fp id i pred args =>
    if id ∈ X then
      { s.set id (spec sig fl S i pred (args.map s.env) s.mem).1 with
        mem := (spec sig fl S i pred (args.map s.env) s.mem).2 }
    else exec S s (.fp id i pred args)
  | ins => exec S s ins

theorem execX_exec (sig : String → Sig) (fl : Flags) (S : Sem M) (X : List Nat) (s : State M) (ins : Ins M)
    (h : ins.cand = false) : execX sig fl S X s ins = exec S s ins := by
  cases ins <;> first | rfl | cases h

theorem execX_nil (sig : String → Sig) (fl : Flags) (S : Sem M) : execX sig fl S [] = exec S := by
  funext s ins
  cases ins <;> rfl

/-! ## The code inserted -/

theorem operand_run (sig : String → Sig) (fl : Flags) (S : Sem M) (X : List Nat) (bits base j : Nat)
    (os : List Operand) (as : List Nat) (s : State M) (hl : os.length = as.length) (hj : j + os.length ≤ 3)
    (ha : ∀ a ∈ as, a < base) :
    let s' := (operandCode bits base j os as).foldl (execX sig fl S X) s
    s'.mem = s.mem ∧ (∀ n, n < base + j ∨ base + 3 ≤ n → s'.env n = s.env n) ∧
      (operandArgs base j os as).map s'.env = as.map s.env := by
  induction os generalizing j as s with
  | nil =>
    cases as with
    | nil => exact ⟨rfl, fun _ _ => rfl, rfl⟩
    | cons a as => cases hl
  | cons o os ih =>
    cases as with
    | nil => cases hl
    | cons a as =>
      simp only [List.length_cons] at hl hj
      have haa : a < base := ha a (by simp)
      have has : ∀ a ∈ as, a < base := fun b hb => ha b (by simp [hb])
      have key : ∀ s₁ : State M, s₁.mem = s.mem → (∀ n, n ≠ base + j → s₁.env n = s.env n) →
          let s' := (operandCode bits base (j + 1) os as).foldl (execX sig fl S X) s₁
          s'.mem = s.mem ∧ (∀ n, n < base + j ∨ base + 3 ≤ n → s'.env n = s.env n) ∧
          (operandArgs base (j + 1) os as).map s'.env = as.map s.env ∧ s'.env (base + j) = s₁.env (base + j) := by
        intro s₁ h1 h2
        obtain ⟨k1, k2, k3⟩ := ih (j + 1) as s₁ (by omega) (by omega) has
        refine ⟨k1.trans h1, ?_, ?_, k2 _ (by omega)⟩
        · intro n hn
          rw [k2 n (by omega), h2 n (by omega)]
        · rw [k3]
          apply List.map_congr_left
          intro b hb
          exact h2 b (by have := has b hb; omega)
      cases o with
      | direct =>
        obtain ⟨k1, k2, k3, -⟩ := key s rfl (fun _ _ => rfl)
        refine ⟨k1, k2, ?_⟩
        simp only [operandArgs, List.map_cons, List.cons.injEq]
        exact ⟨k2 a (by omega), k3⟩
      | bitcast =>
        obtain ⟨k1, k2, k3, k4⟩ := key (s.set (base + j) (s.env a)) rfl (fun n hn => if_neg hn)
        refine ⟨k1, k2, ?_⟩
        simp only [operandArgs, List.map_cons, List.cons.injEq]
        exact ⟨k4.trans (if_pos rfl), k3⟩
      | byval =>
        obtain ⟨k1, k2, k3, k4⟩ := key { s.set (base + j) (s.env a) with stack := s.stack + bits } rfl
          (fun n hn => if_neg hn)
        refine ⟨k1, k2, ?_⟩
        simp only [operandArgs, List.map_cons, List.cons.injEq]
        exact ⟨k4.trans (if_pos rfl), k3⟩

theorem expand_run (sig : String → Sig) (fl : Flags) (S : Sem M) (X : List Nat) (base : Nat) (i : Instr)
    (pred : Nat) (args : List Nat) (r : Result) (s : State M) (hl : r ≠ .kept → r.operands.length = args.length)
    (h3 : args.length ≤ 3) (ha : ∀ a ∈ args, a < base) :
    let e := expand (M := M) base i pred args r
    let s' := e.1.foldl (execX sig fl S X) s
    s'.mem = (meant S i pred (args.map s.env) s.mem r).2 ∧ (∀ n < base, s'.env n = s.env n) ∧
    (∀ y, e.2 = some y → base ≤ y ∧ y < base + 5 ∧ s'.env y = (meant S i pred (args.map s.env) s.mem r).1) ∧
    (e.2 = none → (meant S i pred (args.map s.env) s.mem r).1 = S.native i pred (args.map s.env)) := by
  cases r with
  | kept => exact ⟨rfl, fun _ _ => rfl, (fun y h => nomatch h), fun _ => rfl⟩
  | dead name ops =>
    have hlen : ops.length = args.length := hl (by simp)
    obtain ⟨k1, k2, k3⟩ := operand_run sig fl S X (i.opTy.bits.getD 0) base 0 ops args s hlen (by omega) ha
    simp only [expand, List.foldl_append]
    generalize (operandCode (i.opTy.bits.getD 0) base 0 ops args).foldl (execX sig fl S X) s = s₁ at *
    refine ⟨?_, ?_, (fun y h => nomatch h), fun _ => rfl⟩
    · simp only [List.foldl_cons, List.foldl_nil, execX, exec, State.set, meant, k3, k1]
    · intro n hn
      simp only [List.foldl_cons, List.foldl_nil, execX, exec, State.set]
      rw [if_neg (by omega), if_neg (by omega)]
      exact k2 n (by omega)
  | replaced name ops v =>
    have hlen : ops.length = args.length := hl (by simp)
    obtain ⟨k1, k2, k3⟩ := operand_run sig fl S X (i.opTy.bits.getD 0) base 0 ops args s hlen (by omega) ha
    have main : ∀ v', v = v' → v' ≠ .trunc → let e := expand (M := M) base i pred args (.replaced name ops v')
        let s' := e.1.foldl (execX sig fl S X) s
        s'.mem = (meant S i pred (args.map s.env) s.mem (.replaced name ops v')).2 ∧ (∀ n < base, s'.env n = s.env n) ∧
        (∀ y, e.2 = some y → base ≤ y ∧ y < base + 5 ∧
          s'.env y = (meant S i pred (args.map s.env) s.mem (.replaced name ops v')).1) ∧
        (e.2 = none → (meant S i pred (args.map s.env) s.mem (.replaced name ops v')).1 = S.native i pred (args.map s.env)) := by
      intro v' _ hv
      have e1 : expand (M := M) base i pred args (.replaced name ops v') =
          (operandCode (i.opTy.bits.getD 0) base 0 ops args ++
            [.call (base + 3) name (immediate i pred) (operandArgs base 0 ops args)], some (base + 3)) := by
        cases v' <;> first | rfl | exact absurd rfl hv
      have e2 : meant S i pred (args.map s.env) s.mem (.replaced name ops v') =
          S.wrapper name (immediate i pred) (args.map s.env) s.mem := by
        cases v' <;> first | rfl | exact absurd rfl hv
      rw [e1, e2]
      simp only [List.foldl_append]
      generalize (operandCode (i.opTy.bits.getD 0) base 0 ops args).foldl (execX sig fl S X) s = s₁ at *
      refine ⟨?_, ?_, ?_, (fun h => nomatch h)⟩
      · simp only [List.foldl_cons, List.foldl_nil, execX, exec, k3, k1]
      · intro n hn
        simp only [List.foldl_cons, List.foldl_nil, execX, exec, State.set]
        rw [if_neg (by omega)]
        exact k2 n (by omega)
      · intro y hy
        obtain rfl := Option.some.inj hy
        refine ⟨by omega, by omega, ?_⟩
        simp only [List.foldl_cons, List.foldl_nil, execX, exec, State.set, k3, k1, if_true]
    cases v with
    | call => exact main _ rfl (by simp)
    | bitcast => exact main _ rfl (by simp)
    | trunc =>
      simp only [expand, List.foldl_append]
      generalize (operandCode (i.opTy.bits.getD 0) base 0 ops args).foldl (execX sig fl S X) s = s₁ at *
      refine ⟨?_, ?_, ?_, (fun h => nomatch h)⟩
      · simp only [List.foldl_cons, List.foldl_nil, execX, exec, State.set, meant, k3, k1]
      · intro n hn
        simp only [List.foldl_cons, List.foldl_nil, execX, exec, State.set]
        rw [if_neg (by omega), if_neg (by omega)]
        exact k2 n (by omega)
      · intro y hy
        obtain rfl := Option.some.inj hy
        refine ⟨by omega, by omega, ?_⟩
        simp only [List.foldl_cons, List.foldl_nil, execX, exec, State.set, meant, k3, k1, if_true]

/-- The names and uses of the code inserted. -/
theorem operandCode_names (bits base j : Nat) (os : List Operand) (as : List Nat) (hj : j + os.length ≤ 3) :
    ∀ ins ∈ operandCode (M := M) bits base j os as, base ≤ ins.name ∧ ins.name < base + 3 ∧ ins.cand = false ∧
      ∀ a ∈ ins.args, a ∈ as := by
  induction os generalizing j as with
  | nil => cases as <;> simp [operandCode]
  | cons o os ih =>
    cases as with
    | nil => cases o <;> simp [operandCode]
    | cons a as =>
      simp only [List.length_cons] at hj
      have key := ih (j + 1) as (by omega)
      have key' : ∀ ins ∈ operandCode (M := M) bits base (j + 1) os as, base ≤ ins.name ∧ ins.name < base + 3 ∧
          ins.cand = false ∧ ∀ b ∈ ins.args, b ∈ a :: as := fun ins h => by
        obtain ⟨a1, a2, a3, a4⟩ := key ins h
        exact ⟨a1, a2, a3, fun b hb => List.mem_cons_of_mem _ (a4 b hb)⟩
      cases o with
      | direct => exact key'
      | bitcast =>
        intro ins h
        rcases List.mem_cons.1 h with rfl | h
        · refine ⟨?_, ?_, rfl, ?_⟩
          · show base ≤ base + j; omega
          · show base + j < base + 3; omega
          · intro b hb; simp only [Ins.args, List.mem_singleton] at hb; simp [hb]
        · exact key' ins h
      | byval =>
        intro ins h
        rcases List.mem_cons.1 h with rfl | h
        · refine ⟨?_, ?_, rfl, ?_⟩
          · show base ≤ base + j; omega
          · show base + j < base + 3; omega
          · intro b hb; simp only [Ins.args, List.mem_singleton] at hb; simp [hb]
        · exact key' ins h

theorem operandArgs_names (base j : Nat) (os : List Operand) (as : List Nat) (hj : j + os.length ≤ 3) :
    ∀ a ∈ operandArgs base j os as, a ∈ as ∨ base ≤ a ∧ a < base + 3 := by
  induction os generalizing j as with
  | nil => cases as <;> simp [operandArgs]
  | cons o os ih =>
    cases as with
    | nil => cases o <;> simp [operandArgs]
    | cons a as =>
      simp only [List.length_cons] at hj
      have key := ih (j + 1) as (by omega)
      intro b hb
      have tail : b ∈ operandArgs base (j + 1) os as → b ∈ a :: as ∨ base ≤ b ∧ b < base + 3 := fun hb =>
        (key b hb).imp (List.mem_cons_of_mem _) id
      cases o <;> simp only [operandArgs, List.mem_cons] at hb
      · rcases hb with rfl | hb
        · exact Or.inl List.mem_cons_self
        · exact tail hb
      · rcases hb with rfl | hb
        · right; omega
        · exact tail hb
      · rcases hb with rfl | hb
        · right; omega
        · exact tail hb

theorem expand_names (base : Nat) (i : Instr) (pred : Nat) (args : List Nat) (r : Result)
    (hl : r ≠ .kept → r.operands.length = args.length) (h3 : args.length ≤ 3) :
    ∀ ins ∈ (expand (M := M) base i pred args r).1, base ≤ ins.name ∧ ins.name < base + 5 ∧ ins.cand = false ∧
      ∀ a ∈ ins.args, a ∈ args ∨ base ≤ a ∧ a < base + 5 := by
  have code : ∀ ops : List Operand, ops.length = args.length →
      ∀ ins ∈ operandCode (M := M) (i.opTy.bits.getD 0) base 0 ops args, base ≤ ins.name ∧ ins.name < base + 5 ∧
        ins.cand = false ∧ ∀ a ∈ ins.args, a ∈ args ∨ base ≤ a ∧ a < base + 5 := by
    intro ops ho ins h
    obtain ⟨a1, a2, a3, a4⟩ := operandCode_names _ base 0 ops args (by omega) ins h
    exact ⟨a1, by omega, a3, fun a ha => Or.inl (a4 a ha)⟩
  have call : ∀ ops : List Operand, ops.length = args.length → ∀ name p,
      let ins : Ins M := .call (base + 3) name p (operandArgs base 0 ops args)
      base ≤ ins.name ∧ ins.name < base + 5 ∧ ins.cand = false ∧
        ∀ a ∈ ins.args, a ∈ args ∨ base ≤ a ∧ a < base + 5 := by
    intro ops ho name p
    refine ⟨Nat.le_add_right _ _, (Nat.add_lt_add_left (by omega) _ : base + 3 < base + 5), rfl, ?_⟩
    intro a ha
    rcases operandArgs_names base 0 ops args (by omega) a ha with h | h
    · exact Or.inl h
    · exact Or.inr ⟨h.1, by omega⟩
  have last : ∀ ins : Ins M, ins.name = base + 4 → ins.args = [base + 3] → ins.cand = false →
      base ≤ ins.name ∧ ins.name < base + 5 ∧ ins.cand = false ∧
        ∀ a ∈ ins.args, a ∈ args ∨ base ≤ a ∧ a < base + 5 := by
    intro ins h1 h2 h4
    rw [h1, h2]
    refine ⟨by omega, by omega, h4, ?_⟩
    intro a ha
    rw [List.mem_singleton] at ha
    right; omega
  intro ins h
  cases r with
  | kept => cases h
  | dead name ops =>
    have ho := hl (by simp)
    simp only [expand, List.mem_append, List.mem_cons, List.not_mem_nil, or_false] at h
    rcases h with h | rfl | rfl
    · exact code ops ho ins h
    · exact call ops ho _ _
    · exact last _ rfl rfl rfl
  | replaced name ops v =>
    have ho := hl (by simp)
    have h' : ins ∈ operandCode (M := M) (i.opTy.bits.getD 0) base 0 ops args ∨
        ins = .call (base + 3) name (immediate i pred) (operandArgs base 0 ops args) ∨
        ins = .trunc (base + 4) (base + 3) i.retTy := by
      cases v <;> simp only [expand, List.mem_append, List.mem_cons, List.not_mem_nil, or_false] at h <;> tauto
    rcases h' with h | rfl | rfl
    · exact code ops ho ins h
    · exact call ops ho _ _
    · exact last _ rfl rfl rfl

theorem expand_y (base : Nat) (i : Instr) (pred : Nat) (args : List Nat) (r : Result) (y : Nat)
    (h : (expand (M := M) base i pred args r).2 = some y) : base ≤ y ∧ y < base + 5 := by
  cases r with
  | kept => cases h
  | dead name ops => cases h
  | replaced name ops v => cases v <;> (cases h; omega)

/-! ## One step -/

/-- The state of the instrumented function: names are changed by `ρ`. -/
def Rel (N : Nat) (ρ : Nat → Nat) (s s' : State M) : Prop :=
  s'.mem = s.mem ∧ ∀ n < N, s'.env (ρ n) = s.env n

theorem rename_id (x y : Nat) (l : List Nat) (h : x ∉ l) : (l.map fun a => if a = x then y else a) = l := by
  induction l with
  | nil => rfl
  | cons a l ih =>
    rw [List.map_cons, ih (fun hx => h (by simp [hx])), if_neg (fun e => h (by simp [e]))]

theorem Ins.rename_id' (x y : Nat) (ins : Ins M) (h : x ∉ ins.args) : ins.rename x y = ins := by
  cases ins <;> simp only [Ins.rename, Ins.args, List.mem_singleton] at h ⊢
  case fp => rw [rename_id _ _ _ h]
  case other => rw [rename_id _ _ _ h]
  case call => rw [rename_id _ _ _ h]
  all_goals rw [if_neg (fun e => h e.symm)]

/-- An instruction other than the one replaced. -/
theorem ins_sim (sig : String → Sig) (fl : Flags) (S : Sem M) (N x y : Nat) (xs : List Nat) (hy : N ≤ y)
    (ins : Ins M) (hn : ins.name < N) (ha : ∀ a ∈ ins.args, a < N) (hx : ins.name ≠ x) (s s' : State M)
    (h : Rel N (fun n => if n = x then y else n) s s') :
    Rel N (fun n => if n = x then y else n) (execX sig fl S (x :: xs) s ins)
      (execX sig fl S xs s' (ins.rename x y)) := by
  obtain ⟨h1, h2⟩ := h
  have hmap : ∀ l : List Nat, (∀ a ∈ l, a < N) → (l.map fun a => if a = x then y else a).map s'.env = l.map s.env := by
    intro l hl
    rw [List.map_map]
    apply List.map_congr_left
    intro a ha
    exact h2 a (hl a ha)
  have hset : ∀ (id v : Nat) (n : Nat), n < N → id < N → id ≠ x →
      (if (if n = x then y else n) = id then v else s'.env (if n = x then y else n)) = if n = id then v else s.env n := by
    intro id v n hnN hid hidx
    by_cases hnx : n = x
    · have e1 : (if n = x then y else n) ≠ id := by rw [if_pos hnx]; omega
      have e2 : n ≠ id := fun e => hidx (e.symm.trans hnx)
      rw [if_neg e1, if_neg e2]
      exact h2 n hnN
    · have e1 : (if n = x then y else n) = n := if_neg hnx
      rw [e1]
      by_cases e : n = id
      · rw [if_pos e, if_pos e]
      · rw [if_neg e, if_neg e]
        have := h2 n hnN
        simp only [e1] at this
        exact this
  cases ins with
  | fp id i pred args =>
    have hm := hmap args ha
    have hid : id ≠ x := hx
    by_cases hX : id ∈ xs
    · have hX' : id ∈ x :: xs := List.mem_cons_of_mem _ hX
      simp only [execX, Ins.rename, if_pos hX, if_pos hX', hm, h1]
      exact ⟨rfl, fun n hnN => hset id _ n hnN hn hx⟩
    · have hX' : id ∉ x :: xs := by simp [hid, hX]
      simp only [execX, Ins.rename, if_neg hX, if_neg hX', exec, hm]
      exact ⟨h1, fun n hnN => hset id _ n hnN hn hx⟩
  | other id args f =>
    have hm := hmap args ha
    simp only [execX, Ins.rename, exec, hm, h1]
    exact ⟨rfl, fun n hnN => hset id _ n hnN hn hx⟩
  | bitcast id a =>
    have hm := h2 a (ha a (by simp [Ins.args]))
    simp only [execX, Ins.rename, exec, hm]
    exact ⟨h1, fun n hnN => hset id _ n hnN hn hx⟩
  | spill id a bits =>
    have hm := h2 a (ha a (by simp [Ins.args]))
    simp only [execX, Ins.rename, exec, hm]
    exact ⟨h1, fun n hnN => hset id _ n hnN hn hx⟩
  | call id callee pred args =>
    have hm := hmap args ha
    simp only [execX, Ins.rename, exec, hm, h1]
    exact ⟨rfl, fun n hnN => hset id _ n hnN hn hx⟩
  | trunc id a ty =>
    have hm := h2 a (ha a (by simp [Ins.args]))
    simp only [execX, Ins.rename, exec, hm]
    exact ⟨h1, fun n hnN => hset id _ n hnN hn hx⟩

/-- An instruction that is not renamed. -/
theorem ins_same (sig : String → Sig) (fl : Flags) (S : Sem M) (N : Nat) (X X' : List Nat) (ins : Ins M)
    (hX : ins.cand = true → (ins.name ∈ X ↔ ins.name ∈ X')) (ha : ∀ a ∈ ins.args, a < N) (hn : ins.name < N)
    (s s' : State M) (h : Rel N id s s') : Rel N id (execX sig fl S X s ins) (execX sig fl S X' s' ins) := by
  have h2 := ins_sim sig fl S N N N X' (Nat.le_refl _) ins hn ha (by omega) s s'
    ⟨h.1, fun n hn => by simp only [if_neg (by omega : n ≠ N)]; exact h.2 n hn⟩
  rw [Ins.rename_id' _ _ _ (fun hc => by have := ha _ hc; omega)] at h2
  have e : execX sig fl S (N :: X') s ins = execX sig fl S X s ins := by
    cases ins with
    | fp id i pred args =>
      have h3 : id ≠ N := Nat.ne_of_lt hn
      have h4 : id ∈ X ↔ id ∈ X' := hX rfl
      simp only [execX, List.mem_cons, h3, h4, false_or]
    | _ => rfl
  rw [← e]
  exact ⟨h2.1, fun n hn => by
    have := h2.2 n hn; simp only [if_neg (by omega : n ≠ N)] at this; exact this⟩

/-- Executions of related functions from related states. -/
def Sim (st st' : State M → Ins M → State M) (F F' : Func M) (ρ : Nat → Nat) : Prop :=
  ∀ n s s' cur, Rel F.fresh ρ s s' →
    Rel F.fresh ρ (run st F n (s, cur)).1 (run st' F' n (s', cur)).1 ∧
      (run st F n (s, cur)).2 = (run st' F' n (s', cur)).2

/-- Simulation from the bodies of the blocks. -/
theorem sim_of_blocks (st st' : State M → Ins M → State M) (F F' : Func M) (ρ : Nat → Nat) (g : Block M → Block M)
    (hb : F'.blocks = F.blocks.map g) (hn : ∀ b, (g b).next = b.next)
    (hu : ∀ b ∈ F.blocks, ∀ s s' : State M, Rel F.fresh ρ s s' → (g b).uses.map s'.env = b.uses.map s.env)
    (hs : ∀ b ∈ F.blocks, ∀ s s' : State M, Rel F.fresh ρ s s' → Rel F.fresh ρ (b.body.foldl st s) ((g b).body.foldl st' s')) :
    Sim st st' F F' ρ := by
  intro n
  induction n with
  | zero => intro s s' cur h; exact ⟨h, rfl⟩
  | succ n ih =>
    intro s s' cur h
    simp only [run]
    rw [hb]
    cases cur with
    | none => exact ⟨h, rfl⟩
    | some k =>
      simp only [Option.bind_some, List.getElem?_map]
      cases hk : F.blocks[k]? with
      | none => exact ⟨h, rfl⟩
      | some b =>
        simp only [Option.map_some]
        have hbm := List.mem_of_getElem? hk
        have hr := hs b hbm s s' h
        have e := hu b hbm _ _ hr
        simp only [runBlock]
        rw [hn b, e, hr.1]
        exact ih _ _ _ ⟨rfl, hr.2⟩

theorem foldl_flatMap_rel (N : Nat) (ρ : Nat → Nat) (st st' : State M → Ins M → State M) (g : Ins M → List (Ins M))
    (l : List (Ins M)) (h : ∀ ins ∈ l, ∀ s s', Rel N ρ s s' → Rel N ρ (st s ins) ((g ins).foldl st' s')) :
    ∀ s s', Rel N ρ s s' → Rel N ρ (l.foldl st s) ((l.flatMap g).foldl st' s') := by
  induction l with
  | nil => intro s s' hr; exact hr
  | cons a l ih =>
    intro s s' hr
    rw [List.foldl_cons, List.flatMap_cons, List.foldl_append]
    exact ih (fun ins hi => h ins (by simp [hi])) _ _ (h a (by simp) s s' hr)

theorem mem_all {F : Func M} {b : Block M} {ins : Ins M} (hb : b ∈ F.blocks) (hi : ins ∈ b.body) : ins ∈ F.all :=
  List.mem_flatMap.2 ⟨b, hb, hi⟩

theorem isFp_iff (x : Nat) (ins : Ins M) : ins.isFp x = true ↔ ∃ i pred args, ins = .fp x i pred args := by
  cases ins <;> simp [Ins.isFp]

theorem findFp_some {F : Func M} {x : Nat} {i : Instr} {pred : Nat} {args : List Nat}
    (h : findFp x F = some (i, pred, args)) : .fp x i pred args ∈ F.all := by
  unfold findFp at h
  obtain ⟨ins, hm, e⟩ := List.exists_of_findSome?_eq_some h
  cases ins <;> dsimp only at e
  case fp id i' pred' args' =>
    split_ifs at e with hx
    obtain ⟨rfl, e2⟩ := Prod.mk.inj (Option.some.inj e)
    obtain ⟨rfl, rfl⟩ := Prod.mk.inj e2
    exact hx ▸ hm
  all_goals cases e

theorem findFp_none {F : Func M} {x : Nat} (h : findFp x F = none) (i : Instr) (pred : Nat) (args : List Nat) :
    .fp x i pred args ∉ F.all := by
  intro hm
  unfold findFp at h
  have := List.findSome?_eq_none_iff.mp h _ hm
  simp at this

/-- What is known of a function after a step. -/
structure Step (sig : String → Sig) (fl : Flags) (F F' : Func M) (x : Nat) (ρ : Nat → Nat) : Prop where
  named : Named F'
  arity : Arity sig fl F'
  uniq : ∀ x', x' ≠ x → x' < F.fresh → Uniq F x' → Uniq F' x'
  fresh : F.fresh ≤ F'.fresh
  range : ∀ n < F.fresh, ρ n < F'.fresh
  inj : ∀ m n, m < F.fresh → n < F.fresh → ρ m = ρ n → m = n
  same : ∀ n, n ≠ x → ρ n = n

theorem Ins.rename_name (x y : Nat) (ins : Ins M) : (ins.rename x y).name = ins.name := by cases ins <;> rfl

theorem Ins.rename_cand (x y : Nat) (ins : Ins M) : (ins.rename x y).cand = ins.cand := by cases ins <;> rfl

theorem Ins.rename_args (x y : Nat) (ins : Ins M) :
    (ins.rename x y).args = ins.args.map fun a => if a = x then y else a := by cases ins <;> rfl

theorem flatMap_if_mem (p : Ins M → Bool) (e : Ins M → List (Ins M)) (l : List (Ins M)) (ins : Ins M)
    (h : ins ∈ l.flatMap fun a => if p a then e a else [a]) :
    (∃ a ∈ l, p a = true ∧ ins ∈ e a) ∨ (ins ∈ l ∧ p ins = false) := by
  obtain ⟨a, ha, hi⟩ := List.mem_flatMap.1 h
  by_cases hp : p a = true
  · rw [if_pos hp] at hi; exact Or.inl ⟨a, ha, hp, hi⟩
  · rw [if_neg hp] at hi
    rw [List.mem_singleton] at hi
    subst hi
    exact Or.inr ⟨ha, by simpa using hp⟩

/-- The step that replaces or prepends code. -/
theorem replaceOne_sim (sig : String → Sig) (fl : Flags) (S : Sem M) (F F' : Func M) (x : Nat) (xs : List Nat)
    (hN : Named F) (hA : Arity sig fl F) (hU : Uniq F x) (hx : x ∉ xs) (hr : replaceOne sig fl F x = .ok F') :
    ∃ ρ, Step sig fl F F' x ρ ∧ Sim (execX sig fl S (x :: xs)) (execX sig fl S xs) F F' ρ := by
  unfold replaceOne at hr
  cases hf : findFp x F with
  | none =>
    rw [hf] at hr
    obtain rfl := Outcome.ok.inj hr
    refine ⟨id, ⟨hN, hA, fun _ _ _ h => h, (Nat.le_refl _), fun _ h => h, fun _ _ _ _ h => h, fun _ _ => rfl⟩, ?_⟩
    have hns := findFp_none hf
    have hsim1 : ∀ ins ∈ F.all, ∀ s s', Rel F.fresh id s s' →
        Rel F.fresh id (execX sig fl S (x :: xs) s ins) (([ins] : List (Ins M)).foldl (execX sig fl S xs) s') := by
      intro ins hi s s' h
      refine ins_same sig fl S F.fresh _ _ ins ?_ (hN.args ins hi) (hN.name ins hi) s s' h
      intro hc
      have hne : ins.name ≠ x := by
        rintro rfl
        cases ins with
        | fp id i pred args => exact hns _ _ _ hi
        | _ => cases hc
      simp [hne]
    apply sim_of_blocks _ _ F F id id (by simp) (fun _ => rfl)
    · intro b hb s s' h
      apply List.map_congr_left
      intro a ha
      exact h.2 a (hN.uses b hb a ha)
    · intro b hb s s' h
      have := foldl_flatMap_rel F.fresh id (execX sig fl S (x :: xs)) (execX sig fl S xs) (fun a => [a]) b.body
        (fun ins hi => hsim1 ins (mem_all hb hi)) s s' h
      rwa [List.flatMap_singleton'] at this
  | some q =>
    obtain ⟨i, pred, args⟩ := q
    rw [hf] at hr
    have hm := findFp_some hf
    obtain ⟨h3, hops⟩ := hA x i pred args hm
    have hxF : x < F.fresh := hN.name _ hm
    have hself : x ∉ args := hN.self _ hm rfl
    have hargs : ∀ a ∈ args, a < F.fresh := hN.args _ hm
    cases hi : instrument sig fl i with
    | exit => simp only [hi] at hr; cases hr
    | ub => simp only [hi] at hr; cases hr
    | ok r =>
      simp only [hi, Outcome.bind_ok] at hr
      have hl := hops r hi
      have hrun := fun s => expand_run sig fl S xs F.fresh i pred args r s hl h3 hargs
      have hnames := expand_names (M := M) F.fresh i pred args r hl h3
      have hspec : ∀ vals m, spec sig fl S i pred vals m = meant S i pred vals m r := by
        intro vals m; unfold spec; rw [hi]
      have hexec : ∀ s, execX sig fl S (x :: xs) s (.fp x i pred args) =
          { s.set x (meant S i pred (args.map s.env) s.mem r).1 with
            mem := (meant S i pred (args.map s.env) s.mem r).2 } := by
        intro s
        simp only [execX, List.mem_cons, true_or, if_true, hspec]
      have huq : ∀ ins ∈ F.all, ins.name = x → ins = .fp x i pred args := fun ins h e => hU ins h _ hm e rfl
      cases he : expand (M := M) F.fresh i pred args r with
      | mk code oy =>
        rw [he] at hrun hnames hr
        dsimp only at hrun hnames
        cases oy with
        | none =>
          obtain rfl := Outcome.ok.inj hr
          have hmemF' : ∀ ins, ins ∈ Func.all (M := M) ⟨F.blocks.map (Block.prepended x code), F.fresh + 5⟩ →
              ins ∈ code ∨ ins ∈ F.all := by
            intro ins h
            obtain ⟨b', hb', hi'⟩ := List.mem_flatMap.1 h
            obtain ⟨b, hb, rfl⟩ := List.mem_map.1 hb'
            rcases flatMap_if_mem _ _ _ _ hi' with ⟨a, ha, hp, hc⟩ | ⟨ha, -⟩
            · rcases List.mem_append.1 hc with hc | hc
              · exact Or.inl hc
              · rw [List.mem_singleton] at hc; subst hc; exact Or.inr (mem_all hb ha)
            · exact Or.inr (mem_all hb ha)
          refine ⟨id, ⟨⟨?_, ?_, ?_, ?_⟩, ?_, ?_, Nat.le_add_right _ _, ?_, fun _ _ _ _ h => h, fun _ _ => rfl⟩, ?_⟩
          · intro ins h
            rcases hmemF' ins h with h | h
            · exact (hnames ins h).2.1
            · exact Nat.lt_add_right 5 (hN.name ins h)
          · intro ins h a ha
            rcases hmemF' ins h with h | h
            · rcases (hnames ins h).2.2.2 a ha with h' | h'
              · exact Nat.lt_add_right 5 (hargs a h')
              · exact h'.2
            · exact Nat.lt_add_right 5 (hN.args ins h a ha)
          · intro b' hb' a ha
            obtain ⟨b, hb, rfl⟩ := List.mem_map.1 hb'
            exact Nat.lt_add_right 5 (hN.uses b hb a ha)
          · intro ins h hc
            rcases hmemF' ins h with h | h
            · rw [(hnames ins h).2.2.1] at hc; cases hc
            · exact hN.self ins h hc
          · intro id' i' pred' args' h
            rcases hmemF' _ h with h | h
            · have := (hnames _ h).2.2.1; cases this
            · exact hA id' i' pred' args' h
          · intro x' hx' hlt hu ins h ins' h' e e'
            rcases hmemF' _ h with h | h
            · have := (hnames _ h).1; omega
            · rcases hmemF' _ h' with h' | h'
              · have := (hnames _ h').1; omega
              · exact hu ins h ins' h' e e'
          · intro n hn; exact Nat.lt_add_right 5 hn
          · refine sim_of_blocks _ _ F _ id _ rfl (fun _ => rfl) ?_ ?_
            · intro b hb s s' h
              apply List.map_congr_left
              intro a ha
              exact h.2 a (hN.uses b hb a ha)
            · intro b hb s s' h
              refine foldl_flatMap_rel F.fresh id _ _ _ b.body ?_ s s' h
              intro ins hi' s s' h
              have hia := mem_all hb hi'
              by_cases hp : ins.isFp x = true
              · rw [if_pos hp]
                obtain ⟨i', pred', args', rfl⟩ := (isFp_iff x ins).1 hp
                obtain ⟨rfl, rfl, rfl⟩ : i' = i ∧ pred' = pred ∧ args' = args := by
                  have := huq _ hia rfl; simpa using this
                rw [hexec, List.foldl_append]
                obtain ⟨k1, k2, -, k4⟩ := hrun s'
                generalize code.foldl (execX sig fl S xs) s' = s₁ at *
                have hav : args'.map s'.env = args'.map s.env := by
                  apply List.map_congr_left; intro a ha; exact h.2 a (hargs a ha)
                have hav1 : args'.map s₁.env = args'.map s.env := by
                  rw [← hav]
                  apply List.map_congr_left; intro a ha; exact k2 a (hargs a ha)
                simp only [List.foldl_cons, List.foldl_nil, execX, if_neg hx, exec, hav1]
                rw [hav, h.1] at k1 k4
                refine ⟨k1, ?_⟩
                intro n hn
                simp only [State.set, id]
                by_cases e : n = x
                · rw [if_pos e, if_pos e, k4 rfl]
                · rw [if_neg e, if_neg e, k2 n hn]; exact h.2 n hn
              · rw [if_neg hp]
                have hnm : ins.name ≠ x := by
                  intro e
                  have := huq ins hia e
                  rw [this] at hp
                  simp [Ins.isFp] at hp
                exact ins_same sig fl S F.fresh _ _ ins (fun _ => by simp [hnm]) (hN.args ins hia) (hN.name ins hia) s s' h
        | some y =>
          obtain rfl := Outcome.ok.inj hr
          obtain ⟨hy1, hy2⟩ := expand_y (M := M) F.fresh i pred args r y (by rw [he])
          have hxy : x ≠ y := by omega
          have hren : ∀ a, (if a = x then y else a) ≠ x := by
            intro a
            by_cases e : a = x
            · rw [if_pos e]; exact hxy.symm
            · rw [if_neg e]; exact e
          have hrlt : ∀ a < F.fresh, (if a = x then y else a) < F.fresh + 5 := by
            intro a ha
            by_cases e : a = x
            · rw [if_pos e]; exact hy2
            · rw [if_neg e]; omega
          have hcode : code.map (Ins.rename x y) = code := by
            conv_rhs => rw [← List.map_id code]
            apply List.map_congr_left
            intro ins h
            apply Ins.rename_id'
            intro hc
            rcases (hnames ins h).2.2.2 x hc with h' | h'
            · exact hself h'
            · omega
          have hmemF' : ∀ ins, ins ∈ Func.all (M := M) ⟨F.blocks.map (Block.replaced x y code), F.fresh + 5⟩ →
              ins ∈ code ∨ ∃ a ∈ F.all, ins = a.rename x y ∧ a.isFp x = false := by
            intro ins h
            obtain ⟨b', hb', hi'⟩ := List.mem_flatMap.1 h
            obtain ⟨b, hb, rfl⟩ := List.mem_map.1 hb'
            obtain ⟨a, ha, rfl⟩ := List.mem_map.1 hi'
            rcases flatMap_if_mem _ (fun _ => code) _ _ ha with ⟨a', ha', hp, hc⟩ | ⟨ha, hp⟩
            · left
              rw [← hcode]
              exact List.mem_map_of_mem hc
            · exact Or.inr ⟨a, mem_all hb ha, rfl, hp⟩
          refine ⟨fun n => if n = x then y else n, ⟨⟨?_, ?_, ?_, ?_⟩, ?_, ?_, Nat.le_add_right _ _, hrlt, ?_,
            fun n hn => if_neg hn⟩, ?_⟩
          · intro ins h
            rcases hmemF' ins h with h | ⟨a, hF, rfl, -⟩
            · exact (hnames ins h).2.1
            · rw [Ins.rename_name]
              exact Nat.lt_add_right 5 (hN.name a hF)
          · intro ins h a ha
            rcases hmemF' ins h with h | ⟨a', hF, rfl, -⟩
            · rcases (hnames ins h).2.2.2 a ha with h' | h'
              · exact Nat.lt_add_right 5 (hargs a h')
              · exact h'.2
            · rw [Ins.rename_args] at ha
              obtain ⟨b, hb, rfl⟩ := List.mem_map.1 ha
              exact hrlt b (hN.args a' hF b hb)
          · intro b' hb' a ha
            obtain ⟨b, hb, rfl⟩ := List.mem_map.1 hb'
            obtain ⟨c, hc, rfl⟩ := List.mem_map.1 ha
            exact hrlt c (hN.uses b hb c hc)
          · intro ins h hc
            rcases hmemF' ins h with h | ⟨a, hF, rfl, -⟩
            · rw [(hnames ins h).2.2.1] at hc; cases hc
            · rw [Ins.rename_cand] at hc
              rw [Ins.rename_name, Ins.rename_args]
              intro hm
              obtain ⟨c, hcm, e⟩ := List.mem_map.1 hm
              have hlt := hN.name a hF
              by_cases ec : c = x
              · rw [if_pos ec] at e; omega
              · rw [if_neg ec] at e; exact hN.self a hF hc (e ▸ hcm)
          · intro id' i' pred' args' h
            rcases hmemF' _ h with h | ⟨a, hF, e, -⟩
            · have := (hnames _ h).2.2.1; cases this
            · cases a <;> simp only [Ins.rename, reduceCtorEq] at e
              obtain ⟨rfl, rfl, rfl, rfl⟩ := Ins.fp.inj e
              obtain ⟨h1, h2⟩ := hA _ _ _ _ hF
              rw [List.length_map]
              exact ⟨h1, h2⟩
          · intro x' hx' hlt hu ins h ins' h' e e'
            rcases hmemF' _ h with h | ⟨a, hF, rfl, -⟩
            · have := (hnames _ h).1; omega
            · rcases hmemF' _ h' with h' | ⟨a', hF', rfl, -⟩
              · have := (hnames _ h').1; omega
              · rw [Ins.rename_name] at e e'
                rw [hu a hF a' hF' e e']
          · intro m n hm hn e
            by_cases e1 : m = x <;> by_cases e2 : n = x
            · omega
            · rw [if_pos e1, if_neg e2] at e; omega
            · rw [if_neg e1, if_pos e2] at e; omega
            · rw [if_neg e1, if_neg e2] at e; exact e
          · refine sim_of_blocks _ _ F _ _ (Block.replaced x y code) rfl (fun _ => rfl) ?_ ?_
            · intro b hb s s' h
              show (b.uses.map fun a => if a = x then y else a).map s'.env = _
              rw [List.map_map]
              apply List.map_congr_left
              intro a ha
              exact h.2 a (hN.uses b hb a ha)
            · intro b hb s s' h
              have eb : (Block.replaced x y code b).body =
                  b.body.flatMap fun ins => (if ins.isFp x then code else [ins]).map (Ins.rename x y) :=
                List.map_flatMap
              rw [eb]
              refine foldl_flatMap_rel F.fresh _ _ _ _ b.body ?_ s s' h
              intro ins hi' s s' h
              have hia := mem_all hb hi'
              by_cases hp : ins.isFp x = true
              · rw [if_pos hp, hcode]
                obtain ⟨i', pred', args', rfl⟩ := (isFp_iff x ins).1 hp
                obtain ⟨rfl, rfl, rfl⟩ : i' = i ∧ pred' = pred ∧ args' = args := by
                  have := huq _ hia rfl; simpa using this
                rw [hexec]
                obtain ⟨k1, k2, k3, -⟩ := hrun s'
                obtain ⟨-, -, k3⟩ := k3 y rfl
                generalize code.foldl (execX sig fl S xs) s' = s₁ at *
                have hav : args'.map s'.env = args'.map s.env := by
                  apply List.map_congr_left
                  intro a ha
                  have ne : a ≠ x := by rintro rfl; exact hself ha
                  have := h.2 a (hargs a ha)
                  simpa only [if_neg ne] using this
                rw [hav, h.1] at k1 k3
                refine ⟨k1, ?_⟩
                intro n hn
                simp only [State.set]
                by_cases e : n = x
                · rw [if_pos e, if_pos e, k3]
                · rw [if_neg e, if_neg e, k2 n hn]
                  have := h.2 n hn
                  simpa only [if_neg e] using this
              · rw [if_neg hp]
                have hnm : ins.name ≠ x := by
                  intro e
                  have := huq ins hia e
                  rw [this] at hp
                  simp [Ins.isFp] at hp
                exact ins_sim sig fl S F.fresh x y xs hy1 ins (hN.name ins hia) (hN.args ins hia) hnm s s' h

/-! ## All steps -/

theorem Sim.trans {st st₁ st₂ : State M → Ins M → State M} {F F₁ F' : Func M} {ρ ρ₁ : Nat → Nat}
    (h : Sim st st₁ F F₁ ρ) (h₁ : Sim st₁ st₂ F₁ F' ρ₁) (hr : ∀ n < F.fresh, ρ n < F₁.fresh) :
    Sim st st₂ F F' (fun n => ρ₁ (ρ n)) := by
  intro n s s' cur hs
  obtain ⟨k1, k2⟩ := h n s ⟨fun m => s'.env (ρ₁ m), 0, s'.mem⟩ cur hs
  obtain ⟨j1, j2⟩ := h₁ n ⟨fun m => s'.env (ρ₁ m), 0, s'.mem⟩ s' cur ⟨rfl, fun _ _ => rfl⟩
  exact ⟨⟨j1.1.trans k1.1, fun m hm => (j1.2 _ (hr m hm)).trans (k1.2 m hm)⟩, k2.trans j2⟩

theorem replaceAll_sim (sig : String → Sig) (fl : Flags) (S : Sem M) (order : List Nat) :
    ∀ F F' : Func M, Named F → Arity sig fl F → order.Nodup → (∀ x ∈ order, x < F.fresh ∧ Uniq F x) →
      replaceAll sig fl F order = .ok F' →
      ∃ ρ, (∀ m n, m < F.fresh → n < F.fresh → ρ m = ρ n → m = n) ∧ (∀ n, n ∉ order → ρ n = n) ∧
        Sim (execX sig fl S order) (exec S) F F' ρ := by
  induction order with
  | nil =>
    intro F F' hN hA _ _ h
    obtain rfl := Outcome.ok.inj h
    refine ⟨id, fun _ _ _ _ h => h, fun _ _ => rfl, ?_⟩
    rw [← execX_nil sig fl S]
    apply sim_of_blocks _ _ F F id id (by simp) (fun _ => rfl)
    · intro b hb s s' h
      apply List.map_congr_left
      intro a ha
      exact h.2 a (hN.uses b hb a ha)
    · intro b hb s s' h
      have := foldl_flatMap_rel F.fresh id (execX sig fl S []) (execX sig fl S []) (fun a => [a]) b.body
        (fun ins hi s s' h => ins_same sig fl S F.fresh [] [] ins (fun _ => Iff.rfl) (hN.args ins (mem_all hb hi))
          (hN.name ins (mem_all hb hi)) s s' h) s s' h
      rwa [List.flatMap_singleton'] at this
  | cons x xs ih =>
    intro F F' hN hA hnd hu h
    obtain ⟨hx, hnd⟩ := List.nodup_cons.1 hnd
    unfold replaceAll at h
    cases h1 : replaceOne sig fl F x with
    | exit => rw [h1] at h; cases h
    | ub => rw [h1] at h; cases h
    | ok F₁ =>
      rw [h1, Outcome.bind_ok] at h
      obtain ⟨ρ, hs, hsim⟩ := replaceOne_sim sig fl S F F₁ x xs hN hA (hu x (by simp)).2 hx h1
      obtain ⟨ρ₁, i1, i2, i3⟩ := ih F₁ F' hs.named hs.arity hnd (fun x' hx' => by
        obtain ⟨a1, a2⟩ := hu x' (by simp [hx'])
        exact ⟨Nat.lt_of_lt_of_le a1 hs.fresh, hs.uniq x' (by rintro rfl; exact hx hx') a1 a2⟩) h
      refine ⟨fun n => ρ₁ (ρ n), ?_, ?_, hsim.trans i3 hs.range⟩
      · intro m n hm hn e
        exact hs.inj m n hm hn (i1 _ _ (hs.range m hm) (hs.range n hn) e)
      · intro n hn
        rw [List.mem_cons, not_or] at hn
        show ρ₁ (ρ n) = n
        rw [hs.same n hn.1, i2 n hn.2]

/-! ## What the source says -/

/-- The operation an opcode asks for. -/
def kind : Opcode → Option FPOp
  | .fadd => some .add
  | .fsub => some .sub
  | .fmul => some .mul
  | .fdiv => some .div
  | .fcmp => some .cmp
  | .fptrunc => some .cast
  | .call (some n) =>
    if n ∈ ["llvm.fmuladd.f32", "llvm.fmuladd.f64", "llvm.fma.f32", "llvm.fma.f64"] then some .fma else none
  | _ => none

/-- The options ask for the instruction: additions, subtractions, multiplications and divisions
always, the other operations with their option, of the conversions only double to float. -/
def Asked (fl : Flags) (i : Instr) : Prop :=
  match kind i.op with
  | some .cmp => fl.fcmp = true
  | some .fma => fl.fma = true
  | some .cast => fl.cast = true ∧ i.opTy = .scalar .double ∧ i.retTy = .scalar .float
  | some _ => True
  | none => False

/-- Scalars and vectors of 2, 4, 8 or 16 elements of single and double precision. -/
def Supported : Ty → Prop
  | .scalar t => t = .float ∨ t = .double
  | .vec n t => (n = 2 ∨ n = 4 ∨ n = 8 ∨ n = 16) ∧ (t = .float ∨ t = .double)
  | _ => False

instance (fl : Flags) (i : Instr) : Decidable (Asked fl i) := by
  unfold Asked; split <;> infer_instance

instance (t : Ty) : Decidable (Supported t) := by
  unfold Supported; split <;> infer_instance

/-- The wrapper for an operation, an element type and a number of elements. -/
def wrapperFor (i : Instr) : Option Wrapper :=
  wrappers.find? fun w => some w.op == kind i.op && some (w.ty, w.width) == i.opTy.shape

/-- What an instruction of the source means: if the options ask for it and its type is supported, the
call of the wrapper, brought back to one bit per element if it is a comparison. -/
def source (fl : Flags) (S : Sem M) (i : Instr) (pred : Nat) (vals : List Nat) (m : M) : Nat × M :=
  if Asked fl i ∧ Supported i.opTy then
    match wrapperFor i with
    | none => (S.native i pred vals, m)
    | some w =>
      if i.op = .fcmp then
        (S.trunc i.retTy (S.wrapper w.name (some pred) vals m).1, (S.wrapper w.name (some pred) vals m).2)
      else S.wrapper w.name none vals m
  else (S.native i pred vals, m)

/-- Execution of the source. -/
def sourceExec (fl : Flags) (S : Sem M) (s : State M) (ins : Ins M) : State M :=
  match ins with
  | .fp id i pred args =>
    { s.set id (source fl S i pred (args.map s.env) s.mem).1 with
      mem := (source fl S i pred (args.map s.env) s.mem).2 }
  | ins => exec S s ins

theorem asked_iff (fl : Flags) (i : Instr) : Asked fl i ↔ mustReplace fl i ≠ .ignore := by
  rw [C59_candidates]
  obtain ⟨op, opTy, retTy⟩ := i
  cases op with
  | call callee =>
    cases callee with
    | none => simp [Asked, kind]
    | some n =>
      by_cases h : n ∈ ["llvm.fmuladd.f32", "llvm.fmuladd.f64", "llvm.fma.f32", "llvm.fma.f64"]
      · simp only [Asked, kind, if_pos h]
        simp only [List.mem_cons, List.not_mem_nil, or_false] at h
        simp only [Opcode.call.injEq, Option.some.injEq, reduceCtorEq, false_or, false_and, and_false, or_false]
        tauto
      · simp only [Asked, kind, if_neg h]
        simp only [List.mem_cons, List.not_mem_nil, or_false] at h
        simp only [Opcode.call.injEq, Option.some.injEq, reduceCtorEq, false_or, false_and, and_false, or_false]
        tauto
  | fcmp => simp [Asked, kind]
  | fptrunc => simp [Asked, kind]
  | _ => simp [Asked, kind]

theorem kind_mustReplace (fl : Flags) (i : Instr) (h : mustReplace fl i ≠ .ignore) :
    kind i.op = some (mustReplace fl i) := by
  have ha := (asked_iff fl i).2 h
  obtain ⟨op, opTy, retTy⟩ := i
  cases op with
  | call callee =>
    cases callee with
    | none => simp [mustReplace, isFMAOperation] at h
    | some n =>
      have e : mustReplace fl ⟨.call (some n), opTy, retTy⟩ = .fma := by
        unfold mustReplace at h ⊢
        simp only at h ⊢
        split_ifs at h ⊢ with h1
        · rfl
        · exact absurd rfl h
      rw [e]
      unfold Asked kind at ha
      unfold kind
      simp only at ha ⊢
      split_ifs at ha ⊢ with h1
      · rfl
      · exact ha.elim
  | fcmp => simp only [Asked, kind] at ha; simp [mustReplace, kind, ha]
  | fptrunc =>
    simp only [Asked, kind] at ha
    simp [mustReplace, kind, ha, isValidCastOperation]
  | other => simp [mustReplace] at h
  | _ => rfl

theorem supported_iff (i : Instr) : Supported i.opTy ↔ isValidInstruction i = some true := by
  unfold Supported isValidInstruction
  have hs : ∀ t, isValidScalar t = true ↔ t = .float ∨ t = .double := by
    intro t; cases t <;> simp [isValidScalar, validTypesMap]
  cases i.opTy with
  | scalar t => simp [hs]
  | vec n t => simp [hs, validVectorSizes]
  | _ => simp

/-- Wrappers are told apart by what they compute. -/
theorem wrappers_key : ∀ v ∈ wrappers, ∀ w ∈ wrappers, v.op = w.op → v.ty = w.ty → v.width = w.width → v = w := by
  decide +kernel

theorem wrapperFor_eq (i : Instr) (w : Wrapper) (hw : w ∈ wrappers) (ho : kind i.op = some w.op)
    (hs : some (w.ty, w.width) = i.opTy.shape) : wrapperFor i = some w := by
  unfold wrapperFor
  cases h : wrappers.find? (fun w => some w.op == kind i.op && some (w.ty, w.width) == i.opTy.shape) with
  | none =>
    have := List.find?_eq_none.1 h w hw
    simp [ho, hs] at this
  | some v =>
    have hv := List.find?_some h
    have hm := List.mem_of_find?_eq_some h
    simp only [Bool.and_eq_true, beq_iff_eq] at hv
    rw [ho, ← hs] at hv
    have h1 := Option.some.inj hv.1
    obtain ⟨h2, h3⟩ := Prod.mk.inj (Option.some.inj hv.2)
    rw [wrappers_key v hm w hw h1 h2 h3]

/-- The pass does to an instruction what the source says. -/
theorem spec_source (sig : String → Sig) (fl : Flags) (S : Sem M) (i : Instr) (pred : Nat) (vals : List Nat) (m : M)
    (h : Asked fl i → Supported i.opTy → WellTyped i ∧ ReturnsNaturally sig fl i) :
    spec sig fl S i pred vals m = source fl S i pred vals m := by
  unfold spec source
  by_cases hc : Asked fl i ∧ Supported i.opTy
  · obtain ⟨hw, hr⟩ := h hc.1 hc.2
    have h1 := (asked_iff fl i).1 hc.1
    have h2 := (supported_iff i).1 hc.2
    obtain ⟨ops, v, e, hv, hb⟩ := C59_replaced_partial sig fl i hw h2 h1 hr
    obtain ⟨w, hl, ho, hs⟩ := C39_wrapper fl i hw h2 h1
    have hwm : w ∈ wrappers := List.mem_of_find?_eq_some hl
    have hname : mcaName i (mustReplace fl i) = w.name := by
      have := List.find?_some hl
      exact (by simpa using this : w.name = _).symm
    have hwf := wrapperFor_eq i w hwm (by rw [kind_mustReplace fl i h1, ho]) hs
    rw [e, if_pos hc, hwf, hname]
    simp only [meant, immediate]
    by_cases hf : i.op = .fcmp
    · rw [if_pos hf, if_pos hf, hv.2 hf]
    · rw [if_neg hf, if_neg hf]
      cases v with
      | call => rfl
      | bitcast => exact absurd rfl hb
      | trunc => exact absurd (hv.1 rfl) hf
  · rw [if_neg hc]
    by_cases h1 : mustReplace fl i = .ignore
    · rw [C59_kept sig fl i (.inl h1)]; rfl
    · have h2 : ¬ Supported i.opTy := fun h2 => hc ⟨(asked_iff fl i).2 h1, h2⟩
      rw [supported_iff] at h2
      cases h3 : isValidInstruction i with
      | none =>
        have : instrument sig fl i = .exit := by unfold instrument; simp only [if_neg h1]; unfold replace; rw [h3]
        rw [this]
      | some b =>
        cases b with
        | false => rw [C59_kept sig fl i (.inr h3)]; rfl
        | true => exact absurd h3 h2

/-! ## The property -/

/-- What LLVM and the compiler of the wrappers guarantee of a function given to the pass: names are
below the counter, a value is defined once and no candidate uses itself, instructions are well
typed, wrappers have as many parameters as their instruction has operands.  The last condition is not
always met (`C59_coerced_wrong`): wrappers return the type of the instruction. -/
structure Source (sig : String → Sig) (fl : Flags) (F : Func M) : Prop where
  named : Named F
  ssa : (F.all.map Ins.name).Nodup
  arity : Arity sig fl F
  typed : ∀ id i pred args, .fp id i pred args ∈ F.all → Asked fl i → Supported i.opTy →
    WellTyped i ∧ ReturnsNaturally sig fl i

theorem uniq_of_nodup (l : List (Ins M)) (h : (l.map Ins.name).Nodup) :
    ∀ a ∈ l, ∀ b ∈ l, a.name = b.name → a = b := by
  induction l with
  | nil => intro a ha; cases ha
  | cons c l ih =>
    rw [List.map_cons, List.nodup_cons] at h
    intro a ha b hb e
    rcases List.mem_cons.1 ha with rfl | ha <;> rcases List.mem_cons.1 hb with rfl | hb
    · rfl
    · exact absurd (e ▸ List.mem_map_of_mem hb) h.1
    · rename_i ha'
      exact absurd (e ▸ List.mem_map_of_mem ha') h.1
    · exact ih h.2 a ha b hb e

theorem mem_workList (fl : Flags) (F : Func M) (x : Nat) :
    x ∈ workList fl F ↔ ∃ i pred args, .fp x i pred args ∈ F.all ∧ mustReplace fl i ≠ .ignore := by
  unfold workList
  rw [List.mem_filterMap]
  constructor
  · rintro ⟨ins, h, e⟩
    cases ins <;> dsimp only at e
    case fp id i pred args =>
      split_ifs at e with hm
      cases e
      exact ⟨i, pred, args, h, hm⟩
    all_goals cases e
  · rintro ⟨i, pred, args, h, hm⟩
    exact ⟨_, h, by dsimp only; rw [if_pos hm]⟩

theorem workList_nodup (fl : Flags) (F : Func M) (h : (F.all.map Ins.name).Nodup) : (workList fl F).Nodup := by
  unfold workList
  have : ∀ l : List (Ins M), List.Sublist (l.filterMap fun
      | .fp id i _ _ => if mustReplace fl i ≠ .ignore then some id else none
      | _ => none) (l.map Ins.name) := by
    intro l
    induction l with
    | nil => exact List.Sublist.slnil
    | cons a l ih =>
      rw [List.map_cons, List.filterMap_cons]
      cases a with
      | fp id i pred args =>
        dsimp only
        by_cases hm : mustReplace fl i ≠ .ignore
        · rw [if_pos hm]; exact ih.cons_cons _
        · rw [if_neg hm]; exact ih.cons _
      | _ => exact ih.cons _
  exact (this _).nodup h

/-- **C89** Refinement: an instrumented function does, block after block, what its source says, with
every operation the options ask for done by its wrapper.  Values are found under other names.  The
instructions may be replaced in any order.  Partial: the wrappers must return the type of the
instruction, which small vectors do not have on x86-64 (`C89_coerced_wrong`). -/
theorem C89_refines_partial (sig : String → Sig) (fl : Flags) (S : Sem M) (F F' : Func M) (order : List Nat)
    (hF : Source sig fl F) (hp : order.Perm (workList fl F)) (h : replaceAll sig fl F order = .ok F') :
    ∃ ρ : Nat → Nat, (∀ m n, m < F.fresh → n < F.fresh → ρ m = ρ n → m = n) ∧
      (∀ n, n ∉ workList fl F → ρ n = n) ∧
      ∀ n (s s' : State M) cur, s'.mem = s.mem → (∀ v < F.fresh, s'.env (ρ v) = s.env v) →
        let c := run (sourceExec fl S) F n (s, cur)
        let c' := run (exec S) F' n (s', cur)
        c'.2 = c.2 ∧ c'.1.mem = c.1.mem ∧ ∀ v < F.fresh, c'.1.env (ρ v) = c.1.env v := by
  have huq := uniq_of_nodup F.all hF.ssa
  obtain ⟨ρ, h1, h2, h3⟩ := replaceAll_sim sig fl S order F F' hF.named hF.arity
    (hp.nodup_iff.2 (workList_nodup fl F hF.ssa)) (fun x hx => by
      obtain ⟨i, pred, args, hm, -⟩ := (mem_workList fl F x).1 (hp.mem_iff.1 hx)
      exact ⟨hF.named.name _ hm, fun a ha b hb e e' => huq a ha b hb (e.trans e'.symm)⟩) h
  refine ⟨ρ, h1, fun n hn => h2 n (fun hc => hn (hp.mem_iff.1 hc)), ?_⟩
  have hst : ∀ ins ∈ F.all, ∀ s, execX sig fl S order s ins = sourceExec fl S s ins := by
    intro ins hi s
    cases ins with
    | fp id i pred args =>
      have hs := fun m => spec_source sig fl S i pred (args.map s.env) m (hF.typed id i pred args hi)
      by_cases hX : id ∈ order
      · simp only [execX, sourceExec, if_pos hX, hs]
      · have hna : ¬ Asked fl i := fun ha => hX (hp.mem_iff.2 ((mem_workList fl F id).2
          ⟨i, pred, args, hi, (asked_iff fl i).1 ha⟩))
        simp only [execX, sourceExec, if_neg hX, exec, source, if_neg (fun hc : _ ∧ _ => hna hc.1)]
        rfl
    | _ => rfl
  have hrun : ∀ n c, run (execX sig fl S order) F n c = run (sourceExec fl S) F n c := by
    intro n
    induction n with
    | zero => intro c; rfl
    | succ n ih =>
      rintro ⟨s, cur⟩
      simp only [run]
      cases hb : cur.bind fun b => F.blocks[b]? with
      | none => rfl
      | some b =>
        have hbm : b ∈ F.blocks := by
          cases cur with
          | none => cases hb
          | some k => exact List.mem_of_getElem? hb
        have hfold : ∀ l : List (Ins M), (∀ ins ∈ l, ins ∈ F.all) → ∀ s,
            l.foldl (execX sig fl S order) s = l.foldl (sourceExec fl S) s := by
          intro l
          induction l with
          | nil => intro _ s; rfl
          | cons a l ihl =>
            intro hl s
            rw [List.foldl_cons, List.foldl_cons, hst a (hl a (by simp)), ihl (fun b hb => hl b (by simp [hb]))]
        dsimp only
        rw [ih]
        simp only [runBlock, hfold b.body (fun ins hi => mem_all hbm hi)]
  intro n s s' cur hm he
  obtain ⟨⟨k1, k2⟩, k3⟩ := h3 n s s' cur ⟨hm, he⟩
  rw [hrun] at k1 k2 k3
  exact ⟨k3.symm, k1, k2⟩

/-- The state at the start of a call: the parameters are the names below `k`. -/
def enter (k : Nat) (param : Nat → Nat) (m : M) : State M :=
  { env := fun n => if n < k then param n else 0, stack := 0, mem := m }

/-- **C89** for what can be seen of a call: memory, and where control goes.  (The value returned is one
of the things the end of a block does with its operands.) -/
theorem C89_observed_partial (sig : String → Sig) (fl : Flags) (S : Sem M) (F F' : Func M) (order : List Nat)
    (hF : Source sig fl F) (hp : order.Perm (workList fl F)) (h : replaceAll sig fl F order = .ok F')
    (k : Nat) (hk : ∀ ins ∈ F.all, k ≤ ins.name) (hkF : k ≤ F.fresh) (param : Nat → Nat) (m : M) (n : Nat) (cur : Option Nat) :
    (run (exec S) F' n (enter k param m, cur)).1.mem = (run (sourceExec fl S) F n (enter k param m, cur)).1.mem ∧
      (run (exec S) F' n (enter k param m, cur)).2 = (run (sourceExec fl S) F n (enter k param m, cur)).2 := by
  obtain ⟨ρ, h1, h2, h3⟩ := C89_refines_partial sig fl S F F' order hF hp h
  have hpar : ∀ v < k, ρ v = v := by
    intro v hv
    apply h2
    intro hc
    obtain ⟨i, pred, args, hm, -⟩ := (mem_workList fl F v).1 hc
    have := hk _ hm
    simp only [Ins.name] at this
    omega
  obtain ⟨a1, a2, -⟩ := h3 n (enter k param m) (enter k param m) cur rfl (by
    intro v hv
    simp only [enter]
    by_cases hvk : v < k
    · rw [hpar v hvk]
    · rw [if_neg hvk, if_neg]
      intro hc
      have := h1 v (ρ v) hv (Nat.lt_of_lt_of_le hc hkF) (by rw [hpar (ρ v) hc])
      omega)
  exact ⟨a2, a1⟩

end Verif.Pass
