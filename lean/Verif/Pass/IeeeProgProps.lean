import Verif.Ieee.CmpProps
import Verif.Pass.IeeeBackend
import Verif.Pass.TransparentProps

/-!
# Property C90: programs run with the IEEE backend
-/

namespace Verif.Pass
open Verif Verif.Fp

variable {P σ κ M : Type}

/-! ## Results -/

/-- LLVM's numbers of the predicates (`CmpInst::Predicate`): ordered ones are below 8, unordered ones
from 8 on; in each half, bit 0 is for equal, bit 1 for greater and bit 2 for less. -/
def numberOf : Ieee.Pred → Nat
  | .false_ => 0
  | .oeq => 1
  | .ogt => 2
  | .oge => 2 + 1
  | .olt => 4
  | .ole => 4 + 1
  | .one => 4 + 2
  | .ord => 4 + 2 + 1
  | .uno => 8
  | .ueq => 8 + 1
  | .ugt => 8 + 2
  | .uge => 8 + 2 + 1
  | .ult => 8 + 4
  | .ule => 8 + 4 + 1
  | .une => 8 + 4 + 2
  | .true_ => 8 + 4 + 2 + 1

open Classical in
/-- The machine: IEEE-754 arithmetic, a fused multiply-add rounding once, and comparisons as the
LLVM Language Reference defines them. -/
noncomputable def machine : Wrapper.OpId → List (BitVec 64) → BitVec 64
  | .cmp p, x =>
    if ∃ q, x.getD 0 0 = BitVec.ofNat 64 (numberOf q) ∧
      Ieee.llvm (mcaTy p).fmt q (operand (mcaTy p).fmt x 1) (operand (mcaTy p).fmt x 2) then 1 else 0
  | o, x => ieee o x

/-- The number of a predicate the backend implements as LLVM defines it. -/
def Sound (v : Nat) : Prop := ∃ q : Ieee.Pred, v = numberOf q ∧ q.uRel = false

theorem fmtOf_eq (p : Wrapper.Prec) : fmtOf p = (mcaTy p).fmt := by cases p <;> rfl

theorem enumerators_number (q : Ieee.Pred) : enumerators[numberOf q]? = some q := by cases q <;> rfl

theorem number_toNat (q : Ieee.Pred) : (BitVec.ofNat 64 (numberOf q)).toNat = numberOf q := by cases q <;> rfl

theorem number_inj (q r : Ieee.Pred) (h : BitVec.ofNat 64 (numberOf q) = BitVec.ofNat 64 (numberOf r)) : q = r := by
  have h1 : numberOf q = numberOf r := by rw [← number_toNat q, h, number_toNat]
  have h2 := enumerators_number q
  rw [h1, enumerators_number] at h2
  exact (Option.some.inj h2).symm

/-- The IEEE backend compares as the machine does, whatever the backends before it, if those after it do not compare. -/
theorem ieee_compare (count : Ieee.Op → σ → σ) (bs bs' : List (Wrapper.Backend σ κ)) (hbs : ∀ b ∈ bs', ∀ p, b (.cmp p) = none) (ctx : Nat → κ)
    (p : Wrapper.Prec) (x : List (BitVec 64)) (s : σ) (hp : ∃ v, Sound v ∧ x.head? = some (BitVec.ofNat 64 v)) :
    (Wrapper.scalar (bs ++ ieeeBackend count :: bs') ctx (.cmp p) x s).1 = some (machine (.cmp p) x) := by
  obtain ⟨v, ⟨q, rfl, hq⟩, hx⟩ := hp
  have h0 : x.getD 0 0 = BitVec.ofNat 64 (numberOf q) := by
    cases x with
    | nil => cases hx
    | cons y ys => exact Option.some.inj hx
  have he : enumerators[(x.getD 0 0).toNat]? = some q := by
    rw [h0, number_toNat, enumerators_number]
  rw [Wrapper.C30_last bs bs' _ ctx _ x s _ rfl (fun _ _ _ => by simp only [he]) (fun b hb => hbs b hb p)]
  simp only [he, fmtOf_eq, machine]
  have hew : 2 ≤ (mcaTy p).fmt.ew := by cases p <;> decide
  have key := Ieee.C27_agrees_partial _ hew q hq _ _ (operand_wf _ x 1) (operand_wf _ x 2)
  congr 1
  by_cases hc : Ieee.cmp (mcaTy p).fmt q (operand (mcaTy p).fmt x 1) (operand (mcaTy p).fmt x 2) = true
  · rw [if_pos hc, if_pos ⟨q, h0, key.1 hc⟩]
  · rw [if_neg hc, if_neg]
    rintro ⟨r, hr, h⟩
    obtain rfl : r = q := number_inj r q (by rw [← hr, h0])
    exact hc (key.2 h)

/-- The IEEE backend, loaded last, gives the results of the machine, whatever the other backends. -/
theorem ieee_transparent (count : Ieee.Op → σ → σ) (bs : List (Wrapper.Backend σ κ)) (ctx : Nat → κ) (fl : Flags) :
    Transparent fl Sound machine (bs ++ [ieeeBackend count]) ctx := by
  intro o ho x s hp
  rcases o with ⟨a, p⟩ | p | p | _
  · rw [Wrapper.C30_last bs [] _ ctx _ x s _ rfl (fun _ _ _ => rfl) (by simp)]
    cases a <;> cases p <;> rfl
  · exact ieee_compare count bs [] (by simp) ctx p x s (hp p rfl)
  · rw [Wrapper.C30_last bs [] _ ctx _ x s _ rfl (fun _ _ _ => rfl) (by simp)]
    cases p <;> rfl
  · rw [Wrapper.C30_last bs [] _ ctx _ x s _ rfl (fun _ _ _ => rfl) (by simp)]
    rfl

/-- **C90** A function compiled with Verificarlo with any of `--inst-fcmp`, `--inst-fma` and `--inst-cast`, and run
with the IEEE backend loaded last, does to the memory of the program what the function compiled
without Verificarlo does, and takes the same branches.  Partial as `C89_refines_partial`, and because
of the predicates: those with "unordered or" are not implemented (`C90_branch_wrong`). -/
theorem C90_transparent_partial (sig : String → Sig) (fl : Flags) (rest : Instr → Nat → List Nat → Nat)
    (count : Ieee.Op → σ → σ) (bs : List (Wrapper.Backend σ κ)) (ctx : Nat → κ)
    (F F' : Func (P × σ)) (order : List Nat) (hF : Source sig fl F) (hb : Blind F)
    (hcm : CmpTyped Sound F) (hp : order.Perm (workList fl F)) (h : replaceAll sig fl F order = .ok F')
    (k : Nat) (hk : ∀ ins ∈ F.all, k ≤ ins.name) (hkF : k ≤ F.fresh) (param : Nat → Nat) (p : P) (s s' : σ) (n : Nat)
    (cur : Option Nat) :
    let S : Sem (P × σ) := linked machine rest (bs ++ [ieeeBackend count]) ctx
    (run (exec S) F' n (enter k param (p, s), cur)).1.mem.1 = (run (exec S) F n (enter k param (p, s'), cur)).1.mem.1 ∧
      (run (exec S) F' n (enter k param (p, s), cur)).2 = (run (exec S) F n (enter k param (p, s'), cur)).2 :=
  C89_transparent_partial sig fl Sound machine rest (bs ++ [ieeeBackend count]) ctx (ieee_transparent count bs ctx fl)
    F F' order hF hb hcm hp h k hk hkF param p s s' n cur

/-! ## Counters -/

/-- The instructions executed in at most `n` blocks. -/
def trace (step : State M → Ins M → State M) (F : Func M) : Nat → State M × Option Nat → List (Ins M)
  | 0, _ => []
  | n + 1, (s, cur) =>
    match cur.bind fun b => F.blocks[b]? with
    | none => []
    | some b => b.body ++ trace step F n (runBlock step b s)

/-- The operation a counter is for. -/
def counted : Ieee.Kind → FPOp
  | .add => .add
  | .sub => .sub
  | .mul => .mul
  | .div => .div
  | .fma => .fma
  | .cmp => .cmp
  | .cast => .cast

/-- The number of scalar operations of a kind in an instruction the options ask for. -/
def weight (fl : Flags) (k : Ieee.Kind) : Ins M → Nat
  | .fp _ i _ _ =>
    if Asked fl i ∧ Supported i.opTy ∧ kind i.op = some (counted k) then
      match i.opTy with
      | .vec n _ => n
      | _ => 1
    else 0
  | _ => 0

/-- The counters, with their operations. -/
def fields : List (Ieee.Kind × (Ieee.Counters → BitVec 64)) :=
  [(.mul, Ieee.Counters.mul), (.div, Ieee.Counters.div), (.add, Ieee.Counters.add), (.sub, Ieee.Counters.sub),
    (.fma, Ieee.Counters.fma)]

/-- The program does not touch the state of the backends. -/
structure Silent (F : Func (P × σ)) : Prop where
  other : ∀ id args f, .other id args f ∈ F.all → ∀ vals m, (f vals m).2.2 = m.2
  next : ∀ b ∈ F.blocks, ∀ vals m, (b.next vals m).1.2 = m.2

/-- The kind an entry counts as. -/
def kindOf : Wrapper.OpId → Ieee.Kind
  | .arith .add _ => .add
  | .arith .sub _ => .sub
  | .arith .mul _ => .mul
  | .arith .div _ => .div
  | .cmp _ => .cmp
  | .fma _ => .fma
  | .cast => .cast

theorem bump_field (countOp : Bool) (c : Ieee.Counters) (o : Ieee.Op) (kg) (hk : kg ∈ fields) :
    kg.2 (c.bump countOp o) = kg.2 c + BitVec.ofNat 64 (if countOp ∧ o.kind = kg.1 then 1 else 0) := by
  obtain ⟨kd, db⟩ := o
  simp only [fields, List.mem_cons, List.not_mem_nil, or_false] at hk
  rcases hk with rfl | rfl | rfl | rfl | rfl <;> cases countOp <;> cases kd <;> simp [Ieee.Counters.bump]

theorem scalar_count (countOp : Bool) (ctx : Nat → κ) (o : Wrapper.OpId) (x : List (BitVec 64)) (c : Ieee.Counters)
    (kg) (hk : kg ∈ fields) :
    kg.2 (scalarWrapper [ieeeBackend fun o c => Ieee.Counters.bump countOp c o] ctx o x c).2 =
      kg.2 c + BitVec.ofNat 64 (if countOp ∧ kindOf o = kg.1 then 1 else 0) := by
  have hcc : ∀ o : Ieee.Op, o.kind = .cmp ∨ o.kind = .cast → c.bump countOp o = c := by
    rintro ⟨kd, db⟩ (rfl | rfl) <;> cases countOp <;> rfl
  rcases o with ⟨a, p⟩ | p | p | _
  · have := bump_field countOp c ⟨counterOf a, p = .double⟩ kg hk
    cases a <;> exact this
  · have := bump_field countOp c ⟨.cmp, true⟩ kg hk
    rw [hcc _ (.inl rfl)] at this
    simp only [scalarWrapper, Wrapper.scalar, Wrapper.callFrom, ieeeBackend]
    split <;> exact this
  · exact bump_field countOp c ⟨.fma, p = .double⟩ kg hk
  · have := bump_field countOp c ⟨.cast, true⟩ kg hk
    rw [hcc _ (.inr rfl)] at this
    exact this

theorem before_count (countOp : Bool) (ctx : Nat → κ) (o : Wrapper.OpId) (b : Nat) (pred : Option Nat) (vals : List Nat)
    (c : Ieee.Counters) (kg) (hk : kg ∈ fields) (n : Nat) :
    kg.2 (before (scalarWrapper [ieeeBackend fun o c => Ieee.Counters.bump countOp c o] ctx o) b pred vals c n) =
      kg.2 c + BitVec.ofNat 64 (if countOp ∧ kindOf o = kg.1 then n else 0) := by
  induction n with
  | zero => simp [before]
  | succ n ih =>
    rw [before, scalar_count countOp ctx o _ _ kg hk, ih]
    split <;> simp [BitVec.ofNat_add, BitVec.add_assoc]

/-- An instruction of the source adds its scalar operations to the counters. -/
theorem source_count (fl : Flags) (countOp : Bool) (op1 : Wrapper.OpId → List (BitVec 64) → BitVec 64)
    (rest : Instr → Nat → List Nat → Nat) (ctx : Nat → κ) (id : Nat) (i : Instr) (pred : Nat) (args vals : List Nat) (p : P)
    (c : Ieee.Counters) (hw : Asked fl i → Supported i.opTy → WellTyped i) (kg) (hk : kg ∈ fields) :
    kg.2 (source fl (linked op1 rest [ieeeBackend fun o c => Ieee.Counters.bump countOp c o] ctx) i pred vals (p, c)).2.2 =
      kg.2 c + BitVec.ofNat 64 (if countOp then weight (M := M) fl kg.1 (.fp id i pred args) else 0) := by
  unfold source
  by_cases ha : Asked fl i ∧ Supported i.opTy
  swap
  · rw [if_neg ha]
    have : weight (M := M) fl kg.1 (.fp id i pred args) = 0 := by
      simp only [weight]
      rw [if_neg (fun h => ha ⟨h.1, h.2.1⟩)]
    simp [this]
  rw [if_pos ha]
  have h1 := (asked_iff fl i).1 ha.1
  have h2 := (supported_iff i).1 ha.2
  obtain ⟨w, hl, ho, hs⟩ := C39_wrapper fl i (hw ha.1 ha.2) h2 h1
  have hwm : w ∈ wrappers := List.mem_of_find?_eq_some hl
  have hkd := kind_mustReplace fl i h1
  rw [← ho] at hkd
  rw [wrapperFor_eq i w hwm hkd hs]
  dsimp only
  have hwid : (match i.opTy with | .vec n _ => n | _ => 1) = max 1 w.width := by
    have hS := ha.2
    revert hs hS
    cases i.opTy with
    | scalar t => intro hs _; have := (Prod.mk.inj (Option.some.inj hs)).2; rw [this]; rfl
    | vec n t =>
      intro hs hS
      have := (Prod.mk.inj (Option.some.inj hs)).2
      rw [this]
      have := hS.1
      show n = _
      omega
    | svec => intro _ hS; exact hS.elim
    | ptr => intro _ hS; exact hS.elim
  have hval : ∀ im, kg.2 (wrapperFn [ieeeBackend fun o c => Ieee.Counters.bump countOp c o] ctx w.name im vals (p, c)).2.2 =
      kg.2 c + BitVec.ofNat 64 (if countOp then weight (M := M) fl kg.1 (.fp id i pred args) else 0) := by
    intro im
    obtain ⟨o, eo, e, -, -⟩ := C89_lanes [ieeeBackend fun o c => Ieee.Counters.bump countOp c o] ctx w hwm im vals p c
    rw [e]
    dsimp only
    rw [before_count countOp ctx o _ _ _ _ kg hk]
    have hiff : kindOf o = kg.1 ↔ kind i.op = some (counted kg.1) := by
      rw [hkd, Option.some.injEq]
      revert eo
      generalize kg.1 = k
      cases w.op <;> cases w.ty <;> simp only [meaning, Option.some.injEq, reduceCtorEq, false_imp_iff] <;>
        (rintro rfl; cases k <;> simp [kindOf, counted])
    congr 2
    simp only [weight]
    rw [hwid]
    by_cases hc : countOp = true <;> by_cases hq : kindOf o = kg.1
    · rw [if_pos ⟨hc, hq⟩, if_pos hc, if_pos ⟨ha.1, ha.2, hiff.1 hq⟩]
    · rw [if_neg (fun h => hq h.2), if_pos hc, if_neg (fun h => hq (hiff.2 h.2.2))]
    · rw [if_neg (fun h => hc h.1), if_neg hc]
    · rw [if_neg (fun h => hc h.1), if_neg hc]
  by_cases hf : i.op = .fcmp
  · rw [if_pos hf]; exact hval (some pred)
  · rw [if_neg hf]; exact hval none

/-- The sum of the scalar operations of a kind in a list of instructions. -/
def total (fl : Flags) (k : Ieee.Kind) (l : List (Ins M)) : Nat := (l.map (weight fl k)).sum

theorem run_count (fl : Flags) (countOp : Bool) (rest : Instr → Nat → List Nat → Nat) (ctx : Nat → κ)
    (F : Func (P × Ieee.Counters)) (hb : Blind F) (hsl : Silent F) (hcm : CmpTyped Sound F)
    (hw : ∀ id i pred args, .fp id i pred args ∈ F.all → Asked fl i → Supported i.opTy → WellTyped i)
    (kg) (hk : kg ∈ fields) :
    let S : Sem (P × Ieee.Counters) := linked machine rest [ieeeBackend fun o c => Ieee.Counters.bump countOp c o] ctx
    ∀ n s s' cur, Alike s s' →
      kg.2 (run (sourceExec fl S) F n (s, cur)).1.mem.2 =
        kg.2 s.mem.2 + BitVec.ofNat 64 (if countOp then total fl kg.1 (trace (exec S) F n (s', cur)) else 0) := by
  intro S
  have hstep : ∀ ins ∈ F.all, ∀ s, kg.2 (sourceExec fl S s ins).mem.2 =
      kg.2 s.mem.2 + BitVec.ofNat 64 (if countOp then weight fl kg.1 ins else 0) := by
    intro ins hi s
    rcases hb.fresh ins hi with ⟨id, i, pred, args, rfl⟩ | ⟨id, args, f, rfl⟩
    · obtain ⟨e, k, p, t⟩ := s
      exact source_count fl countOp machine rest ctx id i pred args (args.map e) p t (hw id i pred args hi) kg hk
    · simp only [sourceExec, exec, hsl.other id args f hi, weight]
      simp
  have hfold : ∀ l : List (Ins (P × Ieee.Counters)), (∀ ins ∈ l, ins ∈ F.all) → ∀ s,
      kg.2 (l.foldl (sourceExec fl S) s).mem.2 =
        kg.2 s.mem.2 + BitVec.ofNat 64 (if countOp then total fl kg.1 l else 0) := by
    intro l
    induction l with
    | nil => intro _ s; simp [total]
    | cons a l ih =>
      intro hl s
      rw [List.foldl_cons, ih (fun b hb => hl b (by simp [hb])), hstep a (hl a (by simp)), BitVec.add_assoc,
        ← BitVec.ofNat_add]
      congr 2
      cases countOp <;> simp [total]
  intro n
  induction n with
  | zero => intro s s' cur _; simp [run, trace, total]
  | succ n ih =>
    intro s s' cur h
    have hone := run_alike fl Sound machine rest [ieeeBackend fun o c => Ieee.Counters.bump countOp c o] ctx
      (ieee_transparent _ [] ctx fl) F hb hcm hw 1 s s' cur h
    simp only [run, trace]
    simp only [run] at hone
    cases hbb : cur.bind fun b => F.blocks[b]? with
    | none => simp [total]
    | some b =>
      rw [hbb] at hone
      have hbm : b ∈ F.blocks := by
        cases cur with
        | none => cases hbb
        | some k => exact List.mem_of_getElem? hbb
      dsimp only at hone ⊢
      have e1 : runBlock (sourceExec fl S) b s = ((runBlock (sourceExec fl S) b s).1, (runBlock (exec S) b s').2) :=
        Prod.ext rfl hone.2
      rw [e1]
      have := ih (runBlock (sourceExec fl S) b s).1 (runBlock (exec S) b s').1 (runBlock (exec S) b s').2 hone.1
      rw [this]
      have e2 : kg.2 (runBlock (sourceExec fl S) b s).1.mem.2 =
          kg.2 s.mem.2 + BitVec.ofNat 64 (if countOp then total fl kg.1 b.body else 0) := by
        rw [← hfold b.body (fun ins hi => mem_all hbm hi) s]
        simp only [runBlock, hsl.next b hbm]
      rw [e2, BitVec.add_assoc, ← BitVec.ofNat_add]
      congr 2
      cases countOp <;> simp [total]

/-- **C90** With `--count-op` the counters of the IEEE backend are, modulo `2 ^ 64`, the numbers of scalar operations
of each kind in the instructions that the options ask for and that the function compiled without
Verificarlo executes; a vector operation counts for its elements.  Without `--count-op` they do not
change.  Partial as `C90_transparent_partial`; calls of other instrumented functions are left out. -/
theorem C90_count_partial (sig : String → Sig) (fl : Flags) (countOp : Bool) (rest : Instr → Nat → List Nat → Nat) (ctx : Nat → κ)
    (F F' : Func (P × Ieee.Counters)) (order : List Nat) (hF : Source sig fl F) (hb : Blind F) (hsl : Silent F)
    (hcm : CmpTyped Sound F) (hp : order.Perm (workList fl F)) (h : replaceAll sig fl F order = .ok F')
    (k : Nat) (hk : ∀ ins ∈ F.all, k ≤ ins.name) (hkF : k ≤ F.fresh) (param : Nat → Nat) (p : P) (c : Ieee.Counters) (n : Nat)
    (cur : Option Nat) :
    let S : Sem (P × Ieee.Counters) := linked machine rest [ieeeBackend fun o c => Ieee.Counters.bump countOp c o] ctx
    let c' := (run (exec S) F' n (enter k param (p, c), cur)).1.mem.2
    let ops := trace (exec S) F n (enter k param (p, c), cur)
    ∀ kg ∈ fields, kg.2 c' = kg.2 c + BitVec.ofNat 64 (if countOp then total fl kg.1 ops else 0) := by
  intro S c' ops kg hkg
  obtain ⟨a1, -⟩ := C89_observed_partial sig fl S F F' order hF hp h k hk hkF param (p, c) n cur
  show kg.2 (run (exec S) F' n (enter k param (p, c), cur)).1.mem.2 = _
  rw [a1]
  exact run_count fl countOp rest ctx F hb hsl hcm (fun id i pred args h1 h2 h3 => (hF.typed id i pred args h1 h2 h3).1)
    kg hkg n _ _ cur ⟨rfl, rfl⟩

/-! ## A comparison -/

/-- `x != y ? 1 : 2`, returned through the memory; `!=` is the predicate `une`, of number 14. -/
def notEqual : Func (Nat × σ) :=
  { blocks := [{ body := [.fp 2 ⟨.fcmp, .scalar .double, .scalar (.int 1)⟩ 14 [0, 1]]
                 uses := [2]
                 next := fun vals m => ((if vals.headD 0 = 0 then 2 else 1, m.2), none) }]
    fresh := 3 }

/-- The wrapper of comparisons of doubles. -/
def comparisons : String → Sig :=
  fun _ => ⟨[(.scalar (.int 32), false), (.scalar .double, false), (.scalar .double, false)], .scalar (.int 32)⟩

/-- **C90** is false of the predicates with "unordered or": with `--inst-fcmp` and the IEEE backend,
`x != y ? 1 : 2` is 2 for all numbers that differ. -/
theorem C90_branch_wrong (fl : Flags) (hfl : fl.fcmp = true) (rest : Instr → Nat → List Nat → Nat)
    (count : Ieee.Op → σ → σ) (ctx : Nat → κ) (x y : Nat) (hx : x < 2 ^ 64) (hy : y < 2 ^ 64)
    (nx : ¬ (ofWord b64 x).isNaN b64) (ny : ¬ (ofWord b64 y).isNaN b64)
    (hne : Ieee.num b64 (ofWord b64 x) ≠ Ieee.num b64 (ofWord b64 y)) :
    ∃ F' : Func (Nat × σ), replaceAll comparisons fl notEqual (workList fl (notEqual (σ := σ))) = .ok F' ∧
      ∀ (param : Nat → Nat) (m : Nat × σ), param 0 = x → param 1 = y →
        let S : Sem (Nat × σ) := linked machine rest [ieeeBackend count] ctx
        (run (exec S) notEqual 1 (enter 2 param m, some 0)).1.mem.1 = 1 ∧
        (run (exec S) F' 1 (enter 2 param m, some 0)).1.mem.1 = 2 := by
  have hi : ∀ b c, instrument comparisons ⟨true, b, c⟩ ⟨.fcmp, .scalar .double, .scalar (.int 1)⟩ =
      .ok (.replaced "_doublecmp" [.direct, .direct] .trunc) := by decide +kernel
  obtain ⟨f1, f2, f3⟩ := fl
  obtain rfl : f1 = true := hfl
  have hl : workList ⟨true, f2, f3⟩ (notEqual (σ := σ)) = [2] := rfl
  rw [hl]
  simp only [replaceAll, replaceOne, findFp, notEqual, List.flatMap_cons, List.flatMap_nil, List.append_nil,
    List.findSome?_cons, if_true, hi, Outcome.bind_ok, expand]
  refine ⟨_, rfl, ?_⟩
  intro param m hp0 hp1
  have ha : laneArgs 64 (some 14) [param 0, param 1] 0 = [14, BitVec.ofNat 64 x, BitVec.ofNat 64 y] := by
    simp only [laneArgs, Option.toList_some, List.map_cons, List.map_nil, lane, hp0, hp1, Nat.mul_zero, Nat.pow_zero,
      Nat.div_one, Nat.mod_eq_of_lt hx, Nat.mod_eq_of_lt hy]
    rfl
  have o1 : operand b64 [14, BitVec.ofNat 64 x, BitVec.ofNat 64 y] 1 = ofWord b64 x := by
    simp only [operand, List.getD_cons_succ, List.getD_cons_zero, BitVec.toNat_ofNat, Nat.mod_eq_of_lt hx]
  have o2 : operand b64 [14, BitVec.ofNat 64 x, BitVec.ofNat 64 y] 2 = ofWord b64 y := by
    simp only [operand, List.getD_cons_succ, List.getD_cons_zero, BitVec.toNat_ofNat, Nat.mod_eq_of_lt hy]
  have hm : machine (.cmp .double) [14, BitVec.ofNat 64 x, BitVec.ofNat 64 y] = 1 := by
    simp only [machine]
    rw [if_pos]
    refine ⟨.une, rfl, ?_⟩
    show Ieee.llvm b64 .une (operand b64 _ 1) (operand b64 _ 2)
    rw [o1, o2]
    exact Or.inr hne
  constructor
  · show (if nativeOf machine rest ⟨.fcmp, .scalar .double, .scalar (.int 1)⟩ 14 [param 0, param 1] = 0 then 2 else 1) = 1
    have : nativeOf machine rest ⟨.fcmp, .scalar .double, .scalar (.int 1)⟩ 14 [param 0, param 1] =
        pack 1 [machine (.cmp .double) (laneArgs 64 (some 14) [param 0, param 1] 0)] := rfl
    rw [this, ha, hm]
    rfl
  · have hb : (scalarWrapper [ieeeBackend count] ctx (.cmp .double) [14, BitVec.ofNat 64 x, BitVec.ofNat 64 y] m.2).1 = 0 := by
      have e : Ieee.cmp b64 .une (ofWord b64 x) (ofWord b64 y) = false := by
        simp [Ieee.cmp, Ieee.isunordered, Ieee.fcompare, nx, ny]
      show (if Ieee.cmp b64 .une (operand b64 _ 1) (operand b64 _ 2) = true then (1 : BitVec 64) else 0) = 0
      rw [o1, o2, e]
      rfl
    show (if truncLanes (.scalar (.int 1)) (wrapperFn [ieeeBackend count] ctx "_doublecmp" (some 14) [param 0, param 1] m).1 = 0
      then 2 else 1) = 2
    have : (wrapperFn [ieeeBackend count] ctx "_doublecmp" (some 14) [param 0, param 1] m).1 =
        pack 32 [(scalarWrapper [ieeeBackend count] ctx (.cmp .double) (laneArgs 64 (some 14) [param 0, param 1] 0) m.2).1] := by
      have hl : lookup "_doublecmp" = some ⟨"_doublecmp", .cmp, .double, 0⟩ := by decide +kernel
      simp only [wrapperFn, hl, entry, precOf, resBits, STy.bits]
      rfl
    rw [this, ha, hb]
    rfl

/-- `1.0 != 2.0`. -/
example : ¬ (ofWord b64 0x3ff0000000000000).isNaN b64 ∧ ¬ (ofWord b64 0x4000000000000000).isNaN b64 ∧
    Ieee.num b64 (ofWord b64 0x3ff0000000000000) ≠ Ieee.num b64 (ofWord b64 0x4000000000000000) := by
  refine ⟨by decide +kernel, by decide +kernel, ?_⟩
  have h1 : ofWord b64 0x3ff0000000000000 = ⟨false, 1023, 0⟩ := by decide +kernel
  have h2 : ofWord b64 0x4000000000000000 = ⟨false, 1024, 0⟩ := by decide +kernel
  rw [h1, h2]
  rcases Ieee.C27_not_equal_false.2 with h | h
  · exact absurd h (by decide)
  · exact h

/-! ## A loop -/

/-- A sum of two vectors of four floats, of which the blocks are executed twice, then a product. -/
def sums : Func (Nat × Ieee.Counters) :=
  { blocks := [{ body := [.fp 2 ⟨.fadd, .vec 4 .float, .vec 4 .float⟩ 0 [0, 1]]
                 uses := []
                 next := fun _ m => ((m.1 + 1, m.2), if m.1 = 0 then some 0 else some 1) },
               { body := [.fp 3 ⟨.fmul, .scalar .double, .scalar .double⟩ 0 [0, 1]]
                 uses := []
                 next := fun _ m => (m, none) }]
    fresh := 4 }

/-- Wrappers of vectors passed in registers. -/
def registers : String → Sig := fun name =>
  if name = "_doublemul" then ⟨[(.scalar .double, false), (.scalar .double, false)], .scalar .double⟩
  else ⟨[(.vec 4 .float, false), (.vec 4 .float, false)], .vec 4 .float⟩

theorem sums_all (ins : Ins (Nat × Ieee.Counters)) (h : ins ∈ sums.all) :
    ins = .fp 2 ⟨.fadd, .vec 4 .float, .vec 4 .float⟩ 0 [0, 1] ∨
      ins = .fp 3 ⟨.fmul, .scalar .double, .scalar .double⟩ 0 [0, 1] := by
  simpa [sums, Func.all] using h

/-- The hypotheses of `C90_count_partial` hold of it. -/
example : Source registers ⟨false, false, false⟩ sums ∧ Blind sums ∧ Silent sums ∧ CmpTyped Sound sums ∧
    (∀ ins ∈ sums.all, 2 ≤ ins.name) := by
  have h1 : instrument registers ⟨false, false, false⟩ ⟨.fadd, .vec 4 .float, .vec 4 .float⟩ =
      .ok (.replaced "_4xfloatadd" [.direct, .direct] .call) := by decide +kernel
  have h2 : instrument registers ⟨false, false, false⟩ ⟨.fmul, .scalar .double, .scalar .double⟩ =
      .ok (.replaced "_doublemul" [.direct, .direct] .call) := by decide +kernel
  refine ⟨⟨by constructor <;> decide, by decide, ?_, ?_⟩, ⟨?_, ?_, ?_⟩, ⟨?_, ?_⟩, ?_, ?_⟩
  · intro id i pred args h
    rcases sums_all _ h with h | h <;> obtain ⟨rfl, rfl, rfl, rfl⟩ := Ins.fp.inj h
    · refine ⟨by decide, fun r hr _ => ?_⟩
      rw [h1] at hr; obtain rfl := Outcome.ok.inj hr; rfl
    · refine ⟨by decide, fun r hr _ => ?_⟩
      rw [h2] at hr; obtain rfl := Outcome.ok.inj hr; rfl
  · intro id i pred args h _ _
    rcases sums_all _ h with h | h <;> obtain ⟨rfl, rfl, rfl, rfl⟩ := Ins.fp.inj h
    · refine ⟨rfl, ?_⟩; simp [ReturnsNaturally, registers]; decide +kernel
    · refine ⟨rfl, ?_⟩; simp [ReturnsNaturally, registers]; decide +kernel
  · intro id args f h; rcases sums_all _ h with h | h <;> cases h
  · intro b h vals p s s'
    simp only [sums, List.mem_cons, List.not_mem_nil, or_false] at h
    rcases h with rfl | rfl <;> exact ⟨rfl, rfl⟩
  · intro ins h
    rcases sums_all _ h with rfl | rfl <;> exact .inl ⟨_, _, _, _, rfl⟩
  · intro id args f h; rcases sums_all _ h with h | h <;> cases h
  · intro b h vals m
    simp only [sums, List.mem_cons, List.not_mem_nil, or_false] at h
    rcases h with rfl | rfl <;> rfl
  · intro id i pred args h hf
    rcases sums_all _ h with h | h <;> obtain ⟨rfl, rfl, rfl, rfl⟩ := Ins.fp.inj h <;> cases hf
  · intro ins h
    rcases sums_all _ h with rfl | rfl <;> decide

/-- Eight additions and a multiplication. -/
example : (match replaceAll registers ⟨false, false, false⟩ sums [3, 2] with
      | .ok F' => some (run (exec (linked ieee (fun _ _ _ => 0) [ieeeBackend fun o c => Ieee.Counters.bump true c o] (fun _ => ())))
          F' 5 (enter 2 (fun _ => 0) (0, {}), some 0)).1.mem.2
      | _ => none) = some { add := 8, mul := 1 } ∧
    total ⟨false, false, false⟩ .add (trace (exec (linked ieee (fun _ _ _ => 0) ([] : List (Wrapper.Backend Ieee.Counters Unit))
      (fun _ => ()))) sums 5 (enter 2 (fun _ => 0) (0, {}), some 0)) = 8 := by
  decide +kernel

end Verif.Pass
