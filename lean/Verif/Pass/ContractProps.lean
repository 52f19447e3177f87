import Verif.Mca.StochLimits
import Verif.Pass.NeutralProps
import Verif.Vprec.EmulateProps

/-!
# Property C94: what backends guarantee of operations holds of programs

A backend that does not compute as the machine does guarantees something of the result of each
operation.  A program instrumented and run with it behaves as the program would on a machine whose
operations may give any result with this guarantee.
-/

namespace Verif.Pass
open Verif Verif.Fp

variable {P σ κ M : Type}

/-! ## The machine -/

/-- What is guaranteed of the result of an entry, given its operands. -/
abbrev Contract := Wrapper.OpId → List (BitVec 64) → Bits → Prop

/-- `v` may be the value of the instruction: each element is a number that the contract allows for the
elements of the operands in its place. -/
def Allowed (C : Contract) (i : Instr) (vals : List Nat) (v : Nat) : Prop :=
  ∃ op t n o, kind i.op = some op ∧ i.opTy.shape = some (t, n) ∧ meaning op t = some o ∧
    v < 2 ^ ((resultFmt o).width * max 1 n) ∧
    ∀ k < max 1 n, ∃ y : Bits, y.WF (resultFmt o) ∧ lane (resultFmt o).width v k = image (resultFmt o) y ∧
      C o (laneArgs t.bits none vals k) y

/-- A step of the machine: instructions that the options ask for take any value allowed; nothing is said of the
state of the backends, which the program does not look at. -/
inductive MStep (C : Contract) (fl : Flags) (S : Sem (P × σ)) : State (P × σ) → Ins (P × σ) → State (P × σ) → Prop
  | op (s : State (P × σ)) (id : Nat) (i : Instr) (pred : Nat) (args : List Nat) (v : Nat) (t : σ) (h1 : Asked fl i)
      (h2 : Supported i.opTy) (h3 : Allowed C i (args.map s.env) v) :
      MStep C fl S s (.fp id i pred args) { s.set id v with mem := (s.mem.1, t) }
  | native (s : State (P × σ)) (id : Nat) (i : Instr) (pred : Nat) (args : List Nat) (t : σ)
      (h : ¬ (Asked fl i ∧ Supported i.opTy)) :
      MStep C fl S s (.fp id i pred args) { s.set id (S.native i pred (args.map s.env)) with mem := (s.mem.1, t) }
  | other (s : State (P × σ)) (id : Nat) (args : List Nat) (f : List Nat → P × σ → Nat × (P × σ)) :
      MStep C fl S s (.other id args f)
        { s.set id (f (args.map s.env) s.mem).1 with mem := (f (args.map s.env) s.mem).2 }

/-- The instructions of a block, one after the other. -/
inductive MSteps (C : Contract) (fl : Flags) (S : Sem (P × σ)) : State (P × σ) → List (Ins (P × σ)) → State (P × σ) → Prop
  | nil (s : State (P × σ)) : MSteps C fl S s [] s
  | cons {s s1 s2 : State (P × σ)} {a : Ins (P × σ)} {l : List (Ins (P × σ))} (h1 : MStep C fl S s a s1)
      (h2 : MSteps C fl S s1 l s2) : MSteps C fl S s (a :: l) s2

/-- At most `n` blocks from block `cur` on, to a state and the block that comes next. -/
inductive MRuns (C : Contract) (fl : Flags) (S : Sem (P × σ)) (F : Func (P × σ)) :
    Nat → State (P × σ) → Option Nat → State (P × σ) → Option Nat → Prop
  | start (s : State (P × σ)) (cur : Option Nat) : MRuns C fl S F 0 s cur s cur
  | stop (n : Nat) (s : State (P × σ)) (cur : Option Nat) (h : (cur.bind fun b => F.blocks[b]?) = none) :
      MRuns C fl S F (n + 1) s cur s none
  | block {n : Nat} {s s1 s2 : State (P × σ)} {k : Nat} {b : Block (P × σ)} {fin : Option Nat}
      (hb : F.blocks[k]? = some b) (h1 : MSteps C fl S s b.body s1)
      (h2 : MRuns C fl S F n { s1 with mem := (b.next (b.uses.map s1.env) s1.mem).1 }
        (b.next (b.uses.map s1.env) s1.mem).2 s2 fin) : MRuns C fl S F (n + 1) s (some k) s2 fin

/-- The backends keep the contract, for the entries the options make the program call. -/
def Meets (fl : Flags) (C : Contract) (bs : List (Wrapper.Backend σ κ)) (ctx : Nat → κ) : Prop :=
  ∀ o, Wrapper.emitted ⟨fl.fcmp, fl.fma, fl.cast⟩ o = true → ∀ x s, ∃ y : Bits, y.WF (resultFmt o) ∧
    (Wrapper.scalar bs ctx o x s).1 = some (image (resultFmt o) y) ∧ C o x y

/-- The comparisons that the options make the program call the backends for are those of the machine, for the predicates in `Pr`. -/
def Compare (fl : Flags) (Pr : Nat → Prop) (op1 : Wrapper.OpId → List (BitVec 64) → BitVec 64) (bs : List (Wrapper.Backend σ κ))
    (ctx : Nat → κ) : Prop :=
  fl.fcmp = true → ∀ p x s, (∃ v, Pr v ∧ x.head? = some (BitVec.ofNat 64 v)) → (Wrapper.scalar bs ctx (.cmp p) x s).1 = some (op1 (.cmp p) x)

theorem compare_off {fl : Flags} (h : fl.fcmp = false) (Pr : Nat → Prop) (op1 : Wrapper.OpId → List (BitVec 64) → BitVec 64)
    (bs : List (Wrapper.Backend σ κ)) (ctx : Nat → κ) : Compare fl Pr op1 bs ctx := fun h' => by rw [h] at h'; cases h'

/-! ## Programs keep the contract -/

theorem image_lt (F : Fmt) (hF : F.width ≤ 64) (y : Bits) (hy : y.WF F) : (image F y).toNat < 2 ^ F.width := by
  have h1 := word_lt F y hy
  have h2 : 2 ^ F.width ≤ 2 ^ 64 := Nat.pow_le_pow_right (by norm_num) hF
  unfold image
  rw [BitVec.toNat_ofNat, Nat.mod_eq_of_lt (by omega)]
  exact h1

theorem width_le (o : Wrapper.OpId) : (resultFmt o).width ≤ 64 := by
  rcases o with ⟨a, p⟩ | p | p | _
  · cases p <;> exact Nat.le_of_ble_eq_true rfl
  · exact Nat.le_of_ble_eq_true rfl
  · cases p <;> exact Nat.le_of_ble_eq_true rfl
  · exact Nat.le_of_ble_eq_true rfl

theorem width_eq (op : FPOp) (t : STy) (o : Wrapper.OpId) (h : meaning op t = some o) :
    outBits o = (resultFmt o).width := by
  revert h
  cases op <;> cases t <;> simp only [meaning, Option.some.injEq, reduceCtorEq, false_imp_iff] <;>
    (rintro rfl; rfl)

/-- An instruction of the source is a step of the machine. -/
theorem source_step (fl : Flags) (C : Contract) (Pr : Nat → Prop) (op1 : Wrapper.OpId → List (BitVec 64) → BitVec 64)
    (rest : Instr → Nat → List Nat → Nat) (bs : List (Wrapper.Backend σ κ)) (ctx : Nat → κ) (hm : Meets { fl with fcmp := false } C bs ctx)
    (hcm : Compare fl Pr op1 bs ctx) (id : Nat) (i : Instr) (pred : Nat) (args : List Nat) (s : State (P × σ))
    (hw : Asked fl i → Supported i.opTy → WellTyped i)
    (hc : fl.fcmp = true → i.op = .fcmp → Pr pred ∧ (∀ t, i.opTy = .scalar t → i.retTy = .scalar (.int 1)) ∧
      ∀ n t, i.opTy = .vec n t → i.retTy = .vec n (.int 1)) :
    MStep C { fl with fcmp := false } (linked op1 rest bs ctx) s (.fp id i pred args)
      (sourceExec fl (linked op1 rest bs ctx) s (.fp id i pred args)) := by
  by_cases hf : i.op = .fcmp ∧ fl.fcmp = true
  · obtain ⟨e, st, p, t⟩ := s
    obtain ⟨k1, k2⟩ := source_entries fl Pr op1 rest bs ctx i (fun o ho he x s hx => by
      obtain ⟨op, ty, h1, h2⟩ := ho
      rw [hf.1] at h1
      obtain rfl := Option.some.inj h1
      cases ty <;> cases h2
      · exact hcm hf.2 .float x s (hx .float rfl)
      · exact hcm hf.2 .double x s (hx .double rfl)) pred (args.map e) p t hw (hc hf.2)
    have hstep := MStep.native (C := C) (fl := { fl with fcmp := false }) (S := linked op1 rest bs ctx) ⟨e, st, (p, t)⟩ id i pred args
      (source fl (linked op1 rest bs ctx) i pred (args.map e) (p, t)).2.2 (by
        rintro ⟨hA, -⟩
        unfold Asked at hA
        rw [hf.1] at hA
        simp [kind] at hA)
    have e4 : (source fl (linked op1 rest bs ctx) i pred (args.map e) (p, t)).2 =
        (p, (source fl (linked op1 rest bs ctx) i pred (args.map e) (p, t)).2.2) := Prod.ext k2 rfl
    show MStep C _ _ _ _ { State.set ⟨e, st, (p, t)⟩ id (source fl (linked op1 rest bs ctx) i pred (args.map e) (p, t)).1 with
      mem := (source fl (linked op1 rest bs ctx) i pred (args.map e) (p, t)).2 }
    rw [k1, e4]
    exact hstep
  have hask : Asked fl i → Asked { fl with fcmp := false } i := by
    intro hA
    unfold Asked at hA ⊢
    cases hk : kind i.op with
    | none => rw [hk] at hA; exact hA
    | some op =>
      rw [hk] at hA
      cases op <;> try exact hA
      exfalso
      refine hf ⟨?_, hA⟩
      revert hk
      cases i.op <;> simp [kind]
      rename_i n
      cases n with
      | none => simp
      | some n => simp
  have hask' : Asked { fl with fcmp := false } i → Asked fl i := by
    intro hA
    unfold Asked at hA ⊢
    cases hk : kind i.op with
    | none => rw [hk] at hA; exact hA
    | some op =>
      rw [hk] at hA
      cases op <;> first | exact hA | exact absurd hA (by simp)
  simp only [sourceExec, source]
  by_cases ha : Asked fl i ∧ Supported i.opTy
  swap
  · simp only [if_neg ha]
    exact .native s id i pred args s.mem.2 (fun h => ha ⟨hask' h.1, h.2⟩)
  simp only [if_pos ha]
  have h1 := (asked_iff fl i).1 ha.1
  have h2 := (supported_iff i).1 ha.2
  obtain ⟨w, hl, ho, hs⟩ := C39_wrapper fl i (hw ha.1 ha.2) h2 h1
  have hwm : w ∈ wrappers := List.mem_of_find?_eq_some hl
  have hk := kind_mustReplace fl i h1
  rw [← ho] at hk
  have hnf : i.op ≠ .fcmp := by
    intro hf'
    have hA := ha.1
    unfold Asked at hA
    rw [hf'] at hA
    simp only [kind] at hA
    exact hf ⟨hf', hA⟩
  simp only [wrapperFor_eq i w hwm hk hs, if_neg hnf]
  have hem : ∀ o, meaning w.op w.ty = some o → Wrapper.emitted ⟨false, fl.fma, fl.cast⟩ o = true := by
    intro o e
    have hA := hask ha.1
    unfold Asked at hA
    rw [hk] at hA
    revert e hA
    cases w.op <;> cases w.ty <;> simp only [meaning, Option.some.injEq, reduceCtorEq, false_imp_iff] <;>
      first
      | (rintro rfl hA; first | rfl | exact hA | exact hA.1)
      | simp
  obtain ⟨e, st, p, t⟩ := s
  obtain ⟨o, eo, e1, e2, e3⟩ := C89_lanes bs ctx w hwm none (args.map e) p t
  have hstep := MStep.op (C := C) (fl := { fl with fcmp := false }) (S := linked op1 rest bs ctx) ⟨e, st, (p, t)⟩ id i pred args
    (wrapperFn bs ctx w.name none (args.map e) (p, t)).1 (wrapperFn bs ctx w.name none (args.map e) (p, t)).2.2 (hask ha.1) ha.2 (by
      refine ⟨w.op, w.ty, w.width, o, hk, hs.symm, eo, ?_, ?_⟩
      · rw [← width_eq _ _ _ eo]; exact e2
      · intro k hk
        obtain ⟨y, hy, hsc, hc⟩ := hm o (hem o eo) (laneArgs w.ty.bits none (args.map e) k)
          (before (scalarWrapper bs ctx o) w.ty.bits none (args.map e) t k)
        refine ⟨y, hy, ?_, hc⟩
        rw [← width_eq _ _ _ eo, e3 k hk]
        simp only [scalarWrapper, hsc, Option.getD_some]
        rw [width_eq _ _ _ eo, Nat.mod_eq_of_lt (image_lt _ (width_le o) y hy), BitVec.ofNat_toNat, BitVec.setWidth_eq])
  have e4 : (wrapperFn bs ctx w.name none (args.map e) (p, t)).2 =
      (p, (wrapperFn bs ctx w.name none (args.map e) (p, t)).2.2) := by rw [e1]
  show MStep C _ _ _ _ { State.set ⟨e, st, (p, t)⟩ id (wrapperFn bs ctx w.name none (args.map e) (p, t)).1 with
    mem := (wrapperFn bs ctx w.name none (args.map e) (p, t)).2 }
  rw [e4]
  exact hstep

/-- A run of the source is a run of the machine. -/
theorem source_runs (fl : Flags) (C : Contract) (Pr : Nat → Prop) (op1 : Wrapper.OpId → List (BitVec 64) → BitVec 64)
    (rest : Instr → Nat → List Nat → Nat) (bs : List (Wrapper.Backend σ κ)) (ctx : Nat → κ) (hm : Meets { fl with fcmp := false } C bs ctx)
    (hcm : Compare fl Pr op1 bs ctx) (F : Func (P × σ)) (hb : Blind F) (hct : fl.fcmp = true → CmpTyped Pr F)
    (hw : ∀ id i pred args, .fp id i pred args ∈ F.all → Asked fl i → Supported i.opTy → WellTyped i) :
    ∀ n s cur, MRuns C { fl with fcmp := false } (linked op1 rest bs ctx) F n s cur
      (run (sourceExec fl (linked op1 rest bs ctx)) F n (s, cur)).1
      (run (sourceExec fl (linked op1 rest bs ctx)) F n (s, cur)).2 := by
  have hsteps : ∀ l : List (Ins (P × σ)), (∀ ins ∈ l, ins ∈ F.all) → ∀ s,
      MSteps C { fl with fcmp := false } (linked op1 rest bs ctx) s l (l.foldl (sourceExec fl (linked op1 rest bs ctx)) s) := by
    intro l
    induction l with
    | nil => intro _ s; exact .nil s
    | cons a l ih =>
      intro hl s
      refine .cons ?_ (ih (fun b hb => hl b (by simp [hb])) _)
      rcases hb.fresh a (hl a (by simp)) with ⟨id, i, pred, args, rfl⟩ | ⟨id, args, f, rfl⟩
      · exact source_step fl C Pr op1 rest bs ctx hm hcm id i pred args s (hw id i pred args (hl _ (by simp)))
          (fun hf => hct hf id i pred args (hl _ (by simp)))
      · exact .other s id args f
  intro n
  induction n with
  | zero => intro s cur; exact .start s cur
  | succ n ih =>
    intro s cur
    simp only [run]
    cases hbb : cur.bind fun b => F.blocks[b]? with
    | none => exact .stop n s cur hbb
    | some b =>
      cases cur with
      | none => cases hbb
      | some k =>
        have hbm : b ∈ F.blocks := List.mem_of_getElem? hbb
        exact .block hbb (hsteps b.body (fun ins hi => mem_all hbm hi) s) (ih _ _)

/-- **C94** A function compiled with Verificarlo, with any options, and run with backends that keep a
contract, and that compare as the machine does if they are to compare, leaves the memory, and takes the branches, of some run of the function compiled without
Verificarlo on a machine whose operations give what the contract allows.  Partial as
`C89_refines_partial`. -/
theorem C94_compare_partial (sig : String → Sig) (fl : Flags) (C : Contract) (Pr : Nat → Prop)
    (op1 : Wrapper.OpId → List (BitVec 64) → BitVec 64) (rest : Instr → Nat → List Nat → Nat)
    (bs : List (Wrapper.Backend σ κ)) (ctx : Nat → κ) (hm : Meets { fl with fcmp := false } C bs ctx) (hcm : Compare fl Pr op1 bs ctx)
    (F F' : Func (P × σ)) (order : List Nat) (hF : Source sig fl F) (hb : Blind F) (hct : fl.fcmp = true → CmpTyped Pr F)
    (hp : order.Perm (workList fl F)) (h : replaceAll sig fl F order = .ok F')
    (k : Nat) (hk : ∀ ins ∈ F.all, k ≤ ins.name) (hkF : k ≤ F.fresh) (param : Nat → Nat) (m : P × σ) (n : Nat)
    (cur : Option Nat) :
    let S : Sem (P × σ) := linked op1 rest bs ctx
    ∃ s, MRuns C { fl with fcmp := false } S F n (enter k param m) cur s (run (exec S) F' n (enter k param m, cur)).2 ∧
      s.mem = (run (exec S) F' n (enter k param m, cur)).1.mem := by
  intro S
  obtain ⟨a1, a2⟩ := C89_observed_partial sig fl S F F' order hF hp h k hk hkF param m n cur
  refine ⟨_, ?_, a1.symm⟩
  rw [a2]
  exact source_runs fl C Pr op1 rest bs ctx hm hcm F hb hct (fun id i pred args hi h1 h2 => (hF.typed id i pred args hi h1 h2).1) n _ cur

/-- **C94** A function compiled with Verificarlo without `--inst-fcmp` and run with backends that keep a
contract leaves the memory, and takes the branches, of some run of the function compiled without
Verificarlo on a machine whose operations give what the contract allows.  Partial as
`C89_refines_partial`. -/
theorem C94_contract_partial (sig : String → Sig) (fl : Flags) (hfc : fl.fcmp = false) (C : Contract)
    (op1 : Wrapper.OpId → List (BitVec 64) → BitVec 64) (rest : Instr → Nat → List Nat → Nat)
    (bs : List (Wrapper.Backend σ κ)) (ctx : Nat → κ) (hm : Meets fl C bs ctx)
    (F F' : Func (P × σ)) (order : List Nat) (hF : Source sig fl F) (hb : Blind F)
    (hp : order.Perm (workList fl F)) (h : replaceAll sig fl F order = .ok F')
    (k : Nat) (hk : ∀ ins ∈ F.all, k ≤ ins.name) (hkF : k ≤ F.fresh) (param : Nat → Nat) (m : P × σ) (n : Nat)
    (cur : Option Nat) :
    let S : Sem (P × σ) := linked op1 rest bs ctx
    ∃ s, MRuns C fl S F n (enter k param m) cur s (run (exec S) F' n (enter k param m, cur)).2 ∧
      s.mem = (run (exec S) F' n (enter k param m, cur)).1.mem := by
  obtain ⟨f1, f2, f3⟩ := fl
  obtain rfl : f1 = false := hfc
  exact C94_compare_partial sig ⟨false, f2, f3⟩ C (fun _ => True) op1 rest bs ctx hm (fun h => (Bool.false_ne_true h).elim) F F' order hF hb
    (fun h => (Bool.false_ne_true h).elim) hp h k hk hkF param m n cur

/-- A backend loaded last keeps its contract, whatever the other backends. -/
theorem meets_last (fl : Flags) (C : Contract) (b : Wrapper.Backend σ κ)
    (h : ∀ o, Wrapper.emitted ⟨fl.fcmp, fl.fma, fl.cast⟩ o = true →
      ∃ f, b o = some f ∧ ∀ x k s, ∃ y s', y.WF (resultFmt o) ∧ C o x y ∧ ∀ c, f x c k s = (some (image (resultFmt o) y), s'))
    (bs : List (Wrapper.Backend σ κ)) (ctx : Nat → κ) : Meets fl C (bs ++ [b]) ctx := by
  intro o ho x s
  obtain ⟨f, hf, hk⟩ := h o ho
  rw [Wrapper.C30_last bs [] b ctx o x s f hf (fun c c' s => by
    obtain ⟨y, s', -, -, hs⟩ := hk x (ctx bs.length) s
    rw [hs, hs]) (by simp)]
  obtain ⟨y, s', hy, hc, hs⟩ := hk x (ctx bs.length) (Wrapper.scalar bs ctx o x s).2
  exact ⟨y, hy, by rw [hs], hc⟩

/-! ## VPREC -/

/-- The exponent range and the precision VPREC is configured with for a type. -/
def vprecSize (cfg : Vprec.Config.Cfg) : Wrapper.Prec → Nat × Nat
  | .float => (cfg.range32.toNat, cfg.prec32.toNat)
  | .double => (cfg.range64.toNat, cfg.prec64.toNat)

/-- A finite result is a number of the format. -/
def InFormat (cfg : Vprec.Config.Cfg) (p : Wrapper.Prec) (y : Bits) : Prop :=
  Vprec.Spec.InFmt (vprecSize cfg p).2 (Vprec.Spec.emin (vprecSize cfg p).1) (y.val (fmtOf p)) ∧
    |y.val (fmtOf p)| < 2 ^ (Vprec.Spec.emax (vprecSize cfg p).1 + 1)

/-- What VPREC guarantees when it rounds results: finite results are numbers of the format; in ob mode, the
operation of two numbers of the format is the exact one rounded once, to the nearest, ties to even,
if the format has less than half the bits of the type and the exact result is not one of those C84 leaves
out. -/
def VprecContract (cfg : Vprec.Config.Cfg) : Contract
  | .arith o p, x, y =>
    let F := fmtOf p
    let r := (vprecSize cfg p).1
    let t := (vprecSize cfg p).2
    let a := operand F x 0
    let b := operand F x 1
    let z := Vprec.exactOp (vprecOp o) (a.val F) (b.val F)
    (y.Fin F → InFormat cfg p y) ∧
      (cfg.mode = .ob → cfg.ftz = false → 2 * t + 2 ≤ F.mw → a.Fin F → b.Fin F → InFormat cfg p a → InFormat cfg p b →
        (o = .div → b.val F ≠ 0) → (o = .mul → r < F.ew ∨ 2 ^ Vprec.Spec.emin r ≤ |z|) →
        (o = .mul ∨ o = .div → |z| ≠ 2 ^ (Vprec.Spec.emin r - t - 1)) → Vprec.Correct F r t z y)
  | .fma p, _, y => y.Fin (fmtOf p) → InFormat cfg p y
  | _, _, _ => True

theorem vprecHW_ieee (F : Fmt) : vprecHW F = Vprec.ieeeHW F := by
  unfold vprecHW Vprec.ieeeHW
  congr 1
  funext o a b
  cases o <;> rfl

/-- A call rounds some value. -/
theorem vprec_rounds (sem : ShiftSem) (hw32 hw64 : Vprec.Ops.HW) (c : Vprec.Config.Cfg) (k : Vprec.Ops.Call)
    (v : Vprec.Ops.View) (hv : Vprec.Ops.view hw32 hw64 c k = some v) (hm : Vprec.Ops.RoundsResult c.mode)
    (hround : ∀ x inp, x.WF v.F → ∃ y, Vprec.roundBinary sem v.F v.w x inp c.ctx v.range.toNat v.prec = .ok y ∧ y.WF v.F)
    (hargs : ∀ x ∈ v.args, x.WF v.F) (hhw : ∀ l, (∀ x ∈ l, x.WF v.F) → (v.hw l).WF v.F) :
    ∃ z, z.WF v.F ∧ Vprec.Ops.exec sem hw32 hw64 c k =
      Vprec.roundBinary sem v.F v.w z false c.ctx v.range.toNat v.prec := by
  have hlist : ∀ l : List Bits, (∀ x ∈ l, x.WF v.F) → ∃ l', List.Forall₂
      (fun x x' => Vprec.roundBinary sem v.F v.w x true c.ctx v.range.toNat v.prec = .ok x') l l' ∧ ∀ x ∈ l', x.WF v.F := by
    intro l
    induction l with
    | nil => intro _; exact ⟨[], .nil, by simp⟩
    | cons a l ih =>
      intro h
      obtain ⟨l', hl', hw'⟩ := ih (fun x hx => h x (List.mem_cons_of_mem _ hx))
      obtain ⟨a', ha', hwa⟩ := hround a true (h a List.mem_cons_self)
      exact ⟨a' :: l', .cons ha' hl', by
        intro x hx
        rcases List.mem_cons.1 hx with rfl | hx
        exacts [hwa, hw' x hx]⟩
  by_cases ho : Vprec.Ops.RoundsOperands c.mode
  · obtain ⟨l', hl', hw'⟩ := hlist v.args hargs
    exact ⟨v.hw l', hhw _ hw', (Vprec.Ops.C09_modes sem hw32 hw64 c k v hv l' ⟨fun _ => hl', fun h => absurd ho h⟩).2 hm⟩
  · exact ⟨v.hw v.args, hhw _ hargs,
      (Vprec.Ops.C09_modes sem hw32 hw64 c k v hv v.args ⟨fun h => absurd h ho, fun _ => rfl⟩).2 hm⟩

theorem vprec_in_format (sem : ShiftSem) (cfg : Vprec.Config.Cfg) (hc : Vprec.Config.InLimits cfg)
    (hrel : cfg.absErr = false) (hp : sem = .wrap ∨ (cfg.prec32 < 23 ∧ cfg.prec64 < 52))
    (hm : Vprec.Ops.RoundsResult cfg.mode) (q : Wrapper.Prec) (k : Vprec.Ops.Call) (args : List Bits) (hw : List Bits → Bits)
    (hv : Vprec.Ops.view (vprecHW b32) (vprecHW b64) cfg k = some (match q with
      | .float => ⟨b32, 32, cfg.range32, cfg.prec32, args, hw⟩
      | .double => ⟨b64, 64, cfg.range64, cfg.prec64, args, hw⟩))
    (hargs : ∀ x ∈ args, x.WF (fmtOf q)) (hhw : ∀ l, (∀ x ∈ l, x.WF (fmtOf q)) → (hw l).WF (fmtOf q)) :
    ∃ y, Vprec.Ops.exec sem (vprecHW b32) (vprecHW b64) cfg k = .ok y ∧ y.WF (fmtOf q) ∧
      (y.Fin (fmtOf q) → InFormat cfg q y) := by
  have e1 : b32.ew = 8 := rfl
  have e2 : b64.ew = 11 := rfl
  have e3 : b32.mw = 23 := rfl
  have e4 : b64.mw = 52 := rfl
  have key : ∀ (F : Fmt) (w : Nat) (range prec : Int), Vprec.IsC F w → 2 ≤ range.toNat → range.toNat ≤ F.ew → 1 ≤ prec →
      prec ≤ F.mw → (prec < F.mw ∨ sem = .wrap) →
      Vprec.Ops.view (vprecHW b32) (vprecHW b64) cfg k = some ⟨F, w, range, prec, args, hw⟩ →
      (∀ x ∈ args, x.WF F) → (∀ l, (∀ x ∈ l, x.WF F) → (hw l).WF F) →
      ∃ y, Vprec.Ops.exec sem (vprecHW b32) (vprecHW b64) cfg k = .ok y ∧ y.WF F ∧
        (y.Fin F → Vprec.Spec.InFmt prec.toNat (Vprec.Spec.emin range.toNat) (y.val F) ∧ |y.val F| < 2 ^ (Vprec.Spec.emax range.toNat + 1)) := by
    intro F w range prec hIs hr hr2 hp1 hp2 hp3 hv hargs hhw
    obtain ⟨p, hpe⟩ : ∃ p : ℕ, prec = p := ⟨prec.toNat, by omega⟩
    subst hpe
    have hdef : ∀ x inp, x.WF F → ∃ y, Vprec.roundBinary sem F w x inp cfg.ctx range.toNat p = .ok y ∧ y.WF F := fun x inp hx =>
      Vprec.C03_result_defined sem F w hIs x inp cfg.ctx range.toNat p hrel hr hr2 (by omega) (by omega)
        (hp3.imp (by omega) id) hx
    obtain ⟨z, hz, he⟩ := vprec_rounds sem (vprecHW b32) (vprecHW b64) cfg k _ hv hm hdef hargs hhw
    obtain ⟨y, hy, hw⟩ := hdef z false hz
    refine ⟨y, he.trans hy, hw, fun hfin => ?_⟩
    by_cases hzf : z.Fin F
    · exact Vprec.C03_result_in_format sem F w hIs z y false cfg.ctx range.toNat p hrel hr hr2 (by omega) (by omega)
        (hp3.imp (by omega) id) hz hzf hy hfin
    · exfalso
      have := Vprec.roundBinary_special sem F w z false cfg.ctx range.toNat p (by unfold Bits.Fin at hzf; omega)
      rw [this] at hy
      exact hzf (Outcome.ok.inj hy ▸ hfin)
  obtain ⟨h1, h2, h3, h4⟩ := hc
  cases q
  · refine key b32 32 cfg.range32 cfg.prec32 (Or.inl ⟨rfl, rfl⟩) (by omega) (by omega) h1.1 (by omega) ?_ hv hargs hhw
    rcases hp with hp | hp
    · exact Or.inr hp
    · left; omega
  · refine key b64 64 cfg.range64 cfg.prec64 (Or.inr ⟨rfl, rfl⟩) (by omega) (by omega) h3.1 (by omega) ?_ hv hargs hhw
    rcases hp with hp | hp
    · exact Or.inr hp
    · left; omega

theorem vprecOp_mul (o : Wrapper.Arith) (h : vprecOp o = .mul) : o = .mul := by cases o <;> first | rfl | cases h
theorem vprecOp_div (o : Wrapper.Arith) (h : vprecOp o = .div) : o = .div := by cases o <;> first | rfl | cases h

theorem vprec_once (sem : ShiftSem) (cfg : Vprec.Config.Cfg) (hrel : cfg.absErr = false) (F : Fmt) (w : Nat)
    (range prec : Int) (hIs : Vprec.IsC F w) (hr : 2 ≤ range) (hr2 : range ≤ F.ew) (hp1 : 1 ≤ prec) (o : Wrapper.Arith)
    (a b y : Bits) (hy : Vprec.Ops.binaryOp sem F w (vprecHW F) cfg range prec (vprecOp o) a b = .ok y)
    (hob : cfg.mode = .ob) (hftz : cfg.ftz = false) (hh : 2 * prec.toNat + 2 ≤ F.mw) (fa : a.Fin F) (fb : b.Fin F)
    (ia : Vprec.Spec.InFmt prec.toNat (Vprec.Spec.emin range.toNat) (a.val F))
    (ib : Vprec.Spec.InFmt prec.toNat (Vprec.Spec.emin range.toNat) (b.val F)) (hd : o = .div → b.val F ≠ 0)
    (hmu : o = .mul → range.toNat < F.ew ∨
      2 ^ Vprec.Spec.emin range.toNat ≤ |Vprec.exactOp (vprecOp o) (a.val F) (b.val F)|)
    (hx : o = .mul ∨ o = .div → |Vprec.exactOp (vprecOp o) (a.val F) (b.val F)| ≠
      2 ^ (Vprec.Spec.emin range.toNat - prec.toNat - 1)) :
    Vprec.Correct F range.toNat prec.toNat (Vprec.exactOp (vprecOp o) (a.val F) (b.val F)) y := by
  obtain ⟨r, rfl⟩ : ∃ r : ℕ, range = r := ⟨range.toNat, by omega⟩
  obtain ⟨p, rfl⟩ : ∃ p : ℕ, prec = p := ⟨prec.toNat, by omega⟩
  simp only [Int.toNat_natCast] at *
  obtain ⟨res, h1, h2⟩ := Vprec.C84_single_rounding_partial sem F w hIs cfg hob r p hrel hftz (by omega) (by omega)
    (by omega) hh (vprecOp o) a b fa fb ia ib (fun h => hd (vprecOp_div o h))
    (fun h => by
      have := hmu (vprecOp_mul o h)
      rw [h] at this
      exact this)
    (fun h => hx (h.imp (vprecOp_mul o) (vprecOp_div o)))
  rw [vprecHW_ieee] at hy
  rw [hy] at h1
  exact Outcome.ok.inj h1 ▸ h2

/-- **C94** VPREC keeps its contract: within the limits of its configuration, with relative errors and in the modes that
round results, whatever the other options and the backends before it. -/
theorem C94_vprec_partial (sem : ShiftSem) (cfg : Vprec.Config.Cfg) (hc : Vprec.Config.InLimits cfg)
    (hrel : cfg.absErr = false) (hp : sem = .wrap ∨ (cfg.prec32 < 23 ∧ cfg.prec64 < 52))
    (hm : Vprec.Ops.RoundsResult cfg.mode) (fl : Flags) (hfc : fl.fcmp = false) (hca : fl.cast = false)
    (bs : List (Wrapper.Backend σ κ)) (ctx : Nat → κ) :
    Meets fl (VprecContract cfg) (bs ++ [vprecBackend sem cfg]) ctx := by
  refine meets_last fl _ _ (fun o ho => ?_) bs ctx
  have hmw : ∀ p, 1 ≤ (fmtOf p).mw := by intro p; cases p <;> decide
  have hop : ∀ F : Fmt, 1 ≤ F.mw → ∀ (op : Vprec.Ops.Op2) (l : List Bits), (∀ x ∈ l, x.WF F) →
      (Vprec.Ops.apply2 ((vprecHW F).op2 op) l).WF F := by
    intro F hF op l hl
    match l, hl with
    | [], _ => exact Vprec.zero_wf _ _
    | [a], _ => exact Vprec.zero_wf _ _
    | [a, b], hl =>
      have := operatorC_wf F hF a b (hl a (by simp)) (hl b (by simp))
      cases op
      exacts [this .add, this .sub, this .mul, this .div]
    | a :: b :: c :: l, _ => exact Vprec.zero_wf _ _
  have hfm : ∀ F : Fmt, 1 ≤ F.mw → ∀ (l : List Bits), (∀ x ∈ l, x.WF F) →
      (Vprec.Ops.apply3 (vprecHW F).fma l).WF F := by
    intro F hF l hl
    match l, hl with
    | [], _ => exact Vprec.zero_wf _ _
    | [a], _ => exact Vprec.zero_wf _ _
    | [a, b], hl => exact Vprec.zero_wf _ _
    | [a, b, c], hl => exact ffma_wf F hF a b c (hl c (by simp))
    | a :: b :: c :: d :: l, _ => exact Vprec.zero_wf _ _
  have two : ∀ (F : Fmt) x, ∀ y ∈ [operand F x 0, operand F x 1], y.WF F := by
    intro F x y hy
    simp only [List.mem_cons, List.not_mem_nil, or_false] at hy
    rcases hy with rfl | rfl <;> exact operand_wf _ _ _
  have three : ∀ (F : Fmt) x, ∀ y ∈ [operand F x 0, operand F x 1, operand F x 2], y.WF F := by
    intro F x y hy
    simp only [List.mem_cons, List.not_mem_nil, or_false] at hy
    rcases hy with rfl | rfl | rfl <;> exact operand_wf _ _ _
  have hst : ∀ o : Wrapper.OpId, (∀ (x : List (BitVec 64)) (_ : κ) (s : σ), ∃ (y : Bits) (s' : σ), y.WF (resultFmt o) ∧ VprecContract cfg o x y ∧
      ∀ c, (match vprecCall x o with
        | some k => store (resultFmt o) c s (Vprec.Ops.exec sem (vprecHW b32) (vprecHW b64) cfg k >>= fun r => .ok (r, s))
        | none => (c, s)) = (some (image (resultFmt o) y), s')) → (∀ p, o ≠ .cmp p) →
      ∃ f, (vprecBackend sem cfg : Wrapper.Backend σ κ) o = some f ∧ ∀ x k s, ∃ y s', y.WF (resultFmt o) ∧
        VprecContract cfg o x y ∧ ∀ c, f x c k s = (some (image (resultFmt o) y), s') := by
    intro o h hne
    rcases o with ⟨a, p⟩ | p | p | _
    · exact ⟨_, rfl, fun x k s => h x k s⟩
    · exact absurd rfl (hne p)
    · exact ⟨_, rfl, fun x k s => h x k s⟩
    · exact ⟨_, rfl, fun x k s => h x k s⟩
  rcases o with ⟨a, p⟩ | p | p | _
  · refine hst _ (fun x _ s => ?_) (by simp)
    cases p
    · obtain ⟨y, h1, h2, h3⟩ := vprec_in_format sem cfg hc hrel hp hm .float
        (.bin32 (vprecOp a) (operand b32 x 0) (operand b32 x 1)) _ _ rfl (two b32 x) (hop b32 (by decide) _)
      refine ⟨y, s, h2, ⟨h3, ?_⟩, fun c => ?_⟩
      · intro hob hftz hh fa fb ia ib hd hmu hx
        exact vprec_once sem cfg hrel b32 32 cfg.range32 cfg.prec32 (Or.inl ⟨rfl, rfl⟩) hc.r32.1 hc.r32.2 hc.p32.1 a _ _ y h1
          hob hftz hh fa fb ia.1 ib.1 hd hmu hx
      · simp only [vprecCall, h1, Outcome.bind_ok, store]
    · obtain ⟨y, h1, h2, h3⟩ := vprec_in_format sem cfg hc hrel hp hm .double
        (.bin64 (vprecOp a) (operand b64 x 0) (operand b64 x 1)) _ _ rfl (two b64 x) (hop b64 (by decide) _)
      refine ⟨y, s, h2, ⟨h3, ?_⟩, fun c => ?_⟩
      · intro hob hftz hh fa fb ia ib hd hmu hx
        exact vprec_once sem cfg hrel b64 64 cfg.range64 cfg.prec64 (Or.inr ⟨rfl, rfl⟩) hc.r64.1 hc.r64.2 hc.p64.1 a _ _ y h1
          hob hftz hh fa fb ia.1 ib.1 hd hmu hx
      · simp only [vprecCall, h1, Outcome.bind_ok, store]
  · simp [Wrapper.emitted, hfc] at ho
  · refine hst _ (fun x _ s => ?_) (by simp)
    cases p
    · obtain ⟨y, h1, h2, h3⟩ := vprec_in_format sem cfg hc hrel hp hm .float
        (.fma32 (operand b32 x 0) (operand b32 x 1) (operand b32 x 2)) _ _ rfl (three b32 x) (hfm b32 (by decide))
      refine ⟨y, s, h2, h3, fun c => ?_⟩
      simp only [vprecCall, h1, Outcome.bind_ok, store]
    · obtain ⟨y, h1, h2, h3⟩ := vprec_in_format sem cfg hc hrel hp hm .double
        (.fma64 (operand b64 x 0) (operand b64 x 1) (operand b64 x 2)) _ _ rfl (three b64 x) (hfm b64 (by decide))
      refine ⟨y, s, h2, h3, fun c => ?_⟩
      simp only [vprecCall, h1, Outcome.bind_ok, store]
  · simp [Wrapper.emitted, hca] at ho

/-! ## Bitmask -/

/-- The operands of an entry. -/
def operandsOf : Wrapper.OpId → List (BitVec 64) → List Bits
  | .arith _ p, x => [operand (fmtOf p) x 0, operand (fmtOf p) x 1]
  | .fma p, x => [operand (fmtOf p) x 0, operand (fmtOf p) x 1, operand (fmtOf p) x 2]
  | .cmp p, x => [operand (fmtOf p) x 1, operand (fmtOf p) x 2]
  | .cast, x => [operand b64 x 0]

/-- The operation of the machine on numbers. -/
def exactly : Wrapper.OpId → List Bits → Bits
  | .arith .add p, [a, b] => fadd (fmtOf p) a b
  | .arith .sub p, [a, b] => fadd (fmtOf p) a (fneg b)
  | .arith .mul p, [a, b] => fmul (fmtOf p) a b
  | .arith .div p, [a, b] => fdiv (fmtOf p) a b
  | .fma p, [a, b, c] => ffma (fmtOf p) a b c
  | _, _ => zeroBits false

/-- What bitmask guarantees: operands and results keep their sign, their exponent and as many bits
of their significand as the precision says; zeros, infinities and NaN are kept.  In ob mode operands do not
change, in ib mode results. -/
def BitmaskContract (cfg : Bitmask.Ctx) : Contract
  | .cast, _, _ => True
  | .cmp _, _, _ => True
  | o, x, y =>
    let F := resultFmt o
    let t := if F = b32 then (cfg.prec .f32).toNat else (cfg.prec .f64).toNat
    ∃ args, List.Forall₂ (Bitmask.Keeps F t) (operandsOf o x) args ∧ Bitmask.Keeps F t (exactly o args) y ∧
      (cfg.mode = .ob → args = operandsOf o x) ∧ (cfg.mode = .ib → y = exactly o args)

/-- **C94** Bitmask keeps its contract, with a precision asked for both types and subnormal numbers kept, whatever the
generator and the backends before it. -/
theorem C94_bitmask_partial (g : Bitmask.Gen σ) (cfg : Bitmask.Ctx) (hap : ∀ T, Bitmask.Applied T cfg)
    (hd : cfg.daz = false) (hf : cfg.ftz = false) (fl : Flags) (hfc : fl.fcmp = false) (hca : fl.cast = false)
    (bs : List (Wrapper.Backend σ κ)) (ctx : Nat → κ) :
    Meets fl (BitmaskContract cfg) (bs ++ [bitmaskBackend g cfg]) ctx := by
  refine meets_last fl _ _ (fun o ho => ?_) bs ctx
  have hmw : ∀ p, 1 ≤ (fmtOf p).mw := by intro p; cases p <;> decide
  have hget : ∀ (F : Fmt) (l : List Bits), (∀ x ∈ l, x.WF F) → ∀ k, (l.getD k (zeroBits false)).WF F := by
    intro F l hl k
    rw [List.getD_eq_getElem?_getD]
    cases h : l[k]? with
    | none => exact Vprec.zero_wf _ _
    | some y => exact hl y (List.mem_of_getElem? h)
  have hprec : ∀ p, (if fmtOf p = b32 then (cfg.prec .f32).toNat else (cfg.prec .f64).toNat) =
      (cfg.prec (bitmaskTy p)).toNat := by
    intro p
    cases p
    · rfl
    · rw [if_neg (by decide)]; rfl
  rcases o with ⟨a, p⟩ | p | p | _
  · refine ⟨_, rfl, fun x _ s => ?_⟩
    obtain ⟨args, res, s', h1, h2, h3, h4, h5⟩ := Bitmask.C24_operation g (bitmaskTy p) (binaryC (fmtOf p) a) cfg
      (hap _) s [operand (fmtOf p) x 0, operand (fmtOf p) x 1]
      (by
        intro y hy
        simp only [List.mem_cons, List.not_mem_nil, or_false] at hy
        rw [bitmaskTy_fmt]
        rcases hy with rfl | rfl <;> exact operand_wf _ _ _)
      (by
        rw [bitmaskTy_fmt]
        intro l hl
        exact operatorC_wf _ (hmw p) _ _ (hget _ l hl _) (hget _ l hl _) _)
    simp only [hd, hf, Bool.false_eq_true, if_false, bitmaskTy_fmt] at h1 h2 h3 h4
    obtain ⟨c, d, rfl⟩ : ∃ c d, args = [c, d] := by
      cases h2 with
      | cons _ h => cases h with
        | cons _ h => cases h; exact ⟨_, _, rfl⟩
    have he : binaryC (fmtOf p) a [c, d] = exactly (.arith a p) [c, d] := by cases a <;> rfl
    rw [he] at h3 h5
    refine ⟨res, s', h3.1, ⟨[c, d], ?_, ?_, fun h => h4 (.inr h), fun h => h5 (.inr h)⟩, fun c => ?_⟩
    · rw [show resultFmt (.arith a p) = fmtOf p from rfl, hprec]; exact h2
    · rw [show resultFmt (.arith a p) = fmtOf p from rfl, hprec]; exact h3
    · simp only [h1, store]
      rfl
  · simp [Wrapper.emitted, hfc] at ho
  · refine ⟨_, rfl, fun x _ s => ?_⟩
    obtain ⟨args, res, s', h1, h2, h3, h4, h5⟩ := Bitmask.C24_operation g (bitmaskTy p) (ternaryC (fmtOf p)) cfg
      (hap _) s [operand (fmtOf p) x 0, operand (fmtOf p) x 1, operand (fmtOf p) x 2]
      (by
        intro y hy
        simp only [List.mem_cons, List.not_mem_nil, or_false] at hy
        rw [bitmaskTy_fmt]
        rcases hy with rfl | rfl | rfl <;> exact operand_wf _ _ _)
      (by
        rw [bitmaskTy_fmt]
        intro l hl
        exact ffma_wf _ (hmw p) _ _ _ (hget _ l hl _))
    simp only [hd, hf, Bool.false_eq_true, if_false, bitmaskTy_fmt] at h1 h2 h3 h4
    obtain ⟨c, d, e, rfl⟩ : ∃ c d e, args = [c, d, e] := by
      cases h2 with
      | cons _ h => cases h with
        | cons _ h => cases h with
          | cons _ h => cases h; exact ⟨_, _, _, rfl⟩
    have he : ternaryC (fmtOf p) [c, d, e] = exactly (.fma p) [c, d, e] := rfl
    rw [he] at h3 h5
    refine ⟨res, s', h3.1, ⟨[c, d, e], ?_, ?_, fun h => h4 (.inr h), fun h => h5 (.inr h)⟩, fun c => ?_⟩
    · rw [show resultFmt (.fma p) = fmtOf p from rfl, hprec]; exact h2
    · rw [show resultFmt (.fma p) = fmtOf p from rfl, hprec]; exact h3
    · simp only [h1, store]
      rfl
  · simp [Wrapper.emitted, hca] at ho

/-! ## Cancellation -/

/-- What cancellation guarantees: multiplications, divisions, multiply-adds and conversions are those of the
machine; so are sums whose exponent is below those of the operands by less than the tolerance; a sum `z`
of finite numbers that loses `k` bits is perturbed by `2 ^ (exponent of z - (k - 1))` at most, in `double` if
this is not out of range. -/
def CancelContract (tolerance : Int) : Contract
  | .arith .mul p, x, y => y = fmul (fmtOf p) (operand (fmtOf p) x 0) (operand (fmtOf p) x 1)
  | .arith .div p, x, y => y = fdiv (fmtOf p) (operand (fmtOf p) x 0) (operand (fmtOf p) x 1)
  | .fma p, x, y => y = ffma (fmtOf p) (operand (fmtOf p) x 0) (operand (fmtOf p) x 1) (operand (fmtOf p) x 2)
  | .cast, x, y => y = fconv b64 b32 (operand b64 x 0)
  | .cmp _, _, _ => True
  | .arith o p, x, y =>
    let F := fmtOf p
    let a := operand F x 0
    let b := operand F x 1
    let z := if o = .add then fadd F a b else fadd F a (fneg b)
    let k : Int := (max a.exp b.exp : Nat) - z.exp
    let e : Int := z.exp - F.bias - (k - 1)
    (k < tolerance → y = z) ∧
      (tolerance ≤ k → a.Fin F → b.Fin F → (p = .double → -970 ≤ e) →
        y.Fin F ∧ |y.val F - z.val F| ≤ 2 ^ e)

theorem quadNoise_wf (e : Int) (w : BitVec 64) : (Mca.quadNoise b64 e w).WF b64 := by
  obtain ⟨c1, -⟩ := Mca.centred_spec b64 (Or.inl rfl) w
  rw [Mca.quadNoise_eq]
  refine ⟨?_, c1.2⟩
  show (((Mca.centred b64 w).exp + e) % 2 ^ b64.ew).toNat < 2 ^ b64.ew
  have h1 := Int.emod_lt_of_pos ((Mca.centred b64 w).exp + e) (show (0 : Int) < 2 ^ b64.ew by positivity)
  have h2 := Int.emod_nonneg ((Mca.centred b64 w).exp + e) (show (2 : Int) ^ b64.ew ≠ 0 by positivity)
  have h3 : ((2 ^ b64.ew : Nat) : Int) = 2 ^ b64.ew := by push_cast; rfl
  omega

/-- **C94** Cancellation keeps its contract, with a generator that does not draw one half (C26), whatever
the backends before it. -/
theorem C94_cancellation_partial (g : Mca.Gen σ) (hg : ∀ s, Mca.drawn (g.next s).1 ≠ 2 ^ 51) (cfg : Cancel.Ctx)
    (ht : 1 ≤ cfg.tolerance) (fl : Flags) (hfc : fl.fcmp = false) (bs : List (Wrapper.Backend σ κ)) (ctx : Nat → κ) :
    Meets fl (CancelContract cfg.tolerance) (bs ++ [cancelBackend g cfg]) ctx := by
  refine meets_last fl _ _ (fun o ho => ?_) bs ctx
  have hmw : ∀ p, 1 ≤ (fmtOf p).mw := by intro p; cases p <;> decide
  have hsum : ∀ (p : Wrapper.Prec) (op : Cancel.Op) (a b z : Bits) (s : σ) (_ : Cancel.sum? (fmtOf p) op = some (a, b, z))
      (_ : a.WF (fmtOf p)) (_ : b.WF (fmtOf p)) (_ : z.WF (fmtOf p)),
      let y := (Cancel.exec g (fmtOf p) (cancelHW (fmtOf p)) cfg s op).1
      let k : Int := (max a.exp b.exp : Nat) - z.exp
      let e : Int := z.exp - (fmtOf p).bias - (k - 1)
      y.WF (fmtOf p) ∧ (k < cfg.tolerance → y = z) ∧
        (cfg.tolerance ≤ k → a.Fin (fmtOf p) → b.Fin (fmtOf p) → (p = .double → -970 ≤ e) →
          y.Fin (fmtOf p) ∧ |y.val (fmtOf p) - z.val (fmtOf p)| ≤ 2 ^ e) := by
    intro p op a b z s hs wa wb wz y k e
    have hk : max ((a.exp : Int) - (fmtOf p).bias) ((b.exp : Int) - (fmtOf p).bias) - ((z.exp : Int) - (fmtOf p).bias) = k := by
      show _ = ((max a.exp b.exp : Nat) : Int) - z.exp
      omega
    have hlt : k < cfg.tolerance → y = z := by
      intro h
      show (Cancel.exec g _ _ cfg s op).1 = z
      rw [Cancel.exec_sum g _ _ cfg s op a b z hs]
      have hl : Cancel.lost (fmtOf p) a b z = k := hk
      simp only [Cancel.cancell, hl, if_neg (not_le.2 h)]
    refine ⟨?_, hlt, ?_⟩
    · by_cases h : k < cfg.tolerance
      · rw [hlt h]; exact wz
      · show (Cancel.exec g _ _ cfg s op).1.WF _
        rw [Cancel.exec_sum g _ _ cfg s op a b z hs, Cancel.cancell_eq g _ cfg s a b z k hk (not_lt.1 h)]
        unfold Cancel.addNoise
        split
        · rename_i hF
          rw [hF] at wz ⊢
          exact operatorC_wf b64 (by decide) _ _ wz (quadNoise_wf _ _) .add
        · exact fconv_wf _ _ (hmw p) _
    · intro h fa fb hr
      have hL : Cancel.Lossy (fmtOf p) a b z k (g.next s).1 := ⟨wa, wb, fa, fb, wz, hk, by omega, hg s⟩
      cases p
      · exact Cancel.C26_float_partial g _ cfg s op a b z k hs hL h
      · refine Cancel.C26_double_partial g _ cfg s op a b z k hs hL h ?_
        have := hr rfl
        have hb : b64.bias = 1023 := by decide
        show _ ≤ e
        rw [hb]
        omega
  rcases o with ⟨a, p⟩ | p | p | _
  · refine ⟨_, rfl, fun x _ s => ?_⟩
    have wf := fun k => operand_wf (fmtOf p) x k
    cases a
    · obtain ⟨h1, h2, h3⟩ := hsum p (cancelOp (operand (fmtOf p) x 0) (operand (fmtOf p) x 1) .add) _ _ _ s rfl (wf 0) (wf 1)
        (operatorC_wf _ (hmw p) _ _ (wf 0) (wf 1) .add)
      exact ⟨_, _, h1, ⟨h2, h3⟩, fun c => rfl⟩
    · obtain ⟨h1, h2, h3⟩ := hsum p (cancelOp (operand (fmtOf p) x 0) (operand (fmtOf p) x 1) .sub) _ _ _ s rfl (wf 0) (wf 1)
        (operatorC_wf _ (hmw p) _ _ (wf 0) (wf 1) .sub)
      exact ⟨_, _, h1, ⟨h2, h3⟩, fun c => rfl⟩
    · exact ⟨_, _, operatorC_wf _ (hmw p) _ _ (wf 0) (wf 1) .mul, rfl, fun c => rfl⟩
    · exact ⟨_, _, operatorC_wf _ (hmw p) _ _ (wf 0) (wf 1) .div, rfl, fun c => rfl⟩
  · simp [Wrapper.emitted, hfc] at ho
  · refine ⟨_, rfl, fun x _ s => ⟨_, _, ?_, rfl, fun c => rfl⟩⟩
    exact ffma_wf _ (hmw p) _ _ _ (operand_wf _ _ _)
  · refine ⟨_, rfl, fun x _ s => ⟨_, _, ?_, rfl, fun c => rfl⟩⟩
    exact fconv_wf _ _ (by decide) _

/-! ## Integer MCA -/

/-- The operation in the wide type. -/
def widely : Wrapper.OpId → Fmt → List Bits → Bits
  | .arith .add _, G, [a, b] => fadd G a b
  | .arith .sub _, G, [a, b] => fadd G a (fneg b)
  | .arith .mul _, G, [a, b] => fmul G a b
  | .arith .div _, G, [a, b] => fdiv G a b
  | .fma _, G, [a, b, c] => ffma G a b c
  | _, _, _ => zeroBits false

/-- What stochastic rounding guarantees, `z` being the result in the wide type: one of the two numbers next
to `z`, when it is between two numbers above the smallest normal one; `z` itself if it is a number of
the type with a normal representation in the wide type, a zero, an infinity or a NaN. -/
def StochasticContract : Contract
  | .cast, _, _ => True
  | .cmp _, _, _ => True
  | o, x, y =>
    let T := if resultFmt o = b32 then Mca.Ty.f32 else Mca.Ty.f64
    let z := widely o T.wide ((operandsOf o x).map (fconv T.fmt T.wide))
    (∀ lo hi, Mca.Between T lo hi z → y = lo ∨ y = hi) ∧
      (z.WF T.wide → z.exp ≠ 0 → BitsAtMost T.wide (T.fmt.mw + 1) z → y = fconv T.wide T.fmt z) ∧
      (Mca.Special T.wide z → y = fconv T.wide T.fmt z)

theorem int_defined (g : Mca.Gen σ) (T : Mca.Ty) (c : Mca.Ctx) (s : σ) (x : Bits) :
    ∃ y s', Mca.intInexact .wrap g T c s x = .ok (y, s') := by
  have hn : ∀ (F : Fmt) vp w x, ∃ y, Mca.intNoise .wrap F vp w x = .ok y := by
    intro F vp w x
    unfold Mca.intNoise Mca.sar Mca.sadd
    simp only [or_true, if_true]
    split
    · exact ⟨_, rfl⟩
    · exact ⟨_, rfl⟩
  unfold Mca.intInexact Mca.inexact
  split
  · exact ⟨_, _, rfl⟩
  · generalize Mca.skipEval g c.sparsity s = r
    obtain ⟨sk, s1⟩ := r
    dsimp only
    split
    · exact ⟨_, _, rfl⟩
    · unfold Mca.intPerturb
      obtain ⟨y, hy⟩ := hn T.wide (c.prec T) (g.next s1).1 x
      rw [hy]
      exact ⟨_, _, rfl⟩

theorem int_stochastic (g : Mca.Gen σ) (T : Mca.Ty) (cfg : Mca.Ctx) (hm : cfg.mode = .rr) (hd : cfg.daz = false)
    (hf : cfg.ftz = false) (hs : 1 ≤ cfg.sparsity) (hp : cfg.prec T = (T.fmt.mw + 1 : ℕ)) (f : List Bits → Bits) (s : σ)
    (args : List Bits) :
    let z := f (args.map (fconv T.fmt T.wide))
    ∃ y s', Mca.opN T (Mca.intInexact .wrap g T cfg) f cfg s args = .ok (y, s') ∧ y.WF T.fmt ∧
      (∀ lo hi, Mca.Between T lo hi z → y = lo ∨ y = hi) ∧
      (z.WF T.wide → z.exp ≠ 0 → BitsAtMost T.wide (T.fmt.mw + 1) z → y = fconv T.wide T.fmt z) ∧
      (Mca.Special T.wide z → y = fconv T.wide T.fmt z) := by
  intro z
  obtain ⟨y, s', hy⟩ := int_defined g T cfg s z
  have h := Mca.opN_rr T _ f cfg hm hd hf s s' args y hy
  refine ⟨_, _, h, fconv_wf _ _ (by cases T <;> decide) _, ?_, ?_, ?_⟩
  · intro lo hi hb
    obtain ⟨fr, f0, f1, hpat, -, e1, e2⟩ := Mca.between_pat T lo hi _ hb
    have := Mca.int_op .wrap g T cfg hm hd hf hs hp f args lo hi hb fr f0 f1 hpat e1 e2 s
    rw [h] at this
    have := congrArg Prod.fst (Outcome.ok.inj this)
    dsimp only at this
    rw [this]
    exact (ite_eq_or_eq _ _ _).symm
  · intro wz hn hb
    have := Mca.C22_rr_exact (Mca.intPerturb .wrap g) g T cfg hm (T.fmt.mw + 1) (by omega) s z wz hn hb
    rw [← hp] at this
    have := congrArg Prod.fst (Outcome.ok.inj (this.symm.trans hy))
    rw [show z = y from this]
  · intro hsp
    have := Mca.C22_special (Mca.intPerturb .wrap g) g T.wide (by cases T <;> decide) cfg (cfg.prec T) s z hsp
    have := congrArg Prod.fst (Outcome.ok.inj (this.symm.trans hy))
    rw [show z = y from this]

/-- **C94** Integer MCA in rr mode, at the precisions of the types, rounds each result up or down, whatever the
generator and the backends before it. -/
theorem C94_stochastic_partial (g : Mca.Gen σ) (cfg : Mca.Ctx) (hm : cfg.mode = .rr) (hd : cfg.daz = false)
    (hf : cfg.ftz = false) (hs : 1 ≤ cfg.sparsity) (hp32 : cfg.prec32 = 24) (hp64 : cfg.prec64 = 53) (fl : Flags)
    (hfc : fl.fcmp = false) (hca : fl.cast = false) (bs : List (Wrapper.Backend σ κ)) (ctx : Nat → κ) :
    Meets fl StochasticContract (bs ++ [mcaIntBackend .wrap g cfg]) ctx := by
  refine meets_last fl _ _ (fun o ho => ?_) bs ctx
  have hp : ∀ T : Mca.Ty, cfg.prec T = (T.fmt.mw + 1 : ℕ) := by
    intro T; cases T
    · exact hp32
    · exact hp64
  rcases o with ⟨a, p⟩ | p | p | _
  · refine ⟨_, rfl, fun x _ s => ?_⟩
    obtain ⟨y, s', h1, h2, h3⟩ := int_stochastic g (mcaTy p) cfg hm hd hf hs (hp _) (mcaFun a (mcaTy p).wide) s
      [operand (mcaTy p).fmt x 0, operand (mcaTy p).fmt x 1]
    refine ⟨y, s', by rw [show resultFmt (.arith a p) = fmtOf p from rfl, fmtOf_eq]; exact h2, ?_, fun c => ?_⟩
    · have : ∀ l : List Bits, l.length = 2 → mcaFun a (mcaTy p).wide l = widely (.arith a p) (mcaTy p).wide l := by
        intro l hl
        match l, hl with
        | [c, d], _ => cases a <;> rfl
      rw [this _ (by simp)] at h3
      cases p <;> exact h3
    · show store (mcaTy p).fmt c s (Mca.opN (mcaTy p) (Mca.intInexact .wrap g (mcaTy p) cfg) _ cfg s _) = _
      rw [h1, show resultFmt (.arith a p) = fmtOf p from rfl, fmtOf_eq]
      rfl
  · simp [Wrapper.emitted, hfc] at ho
  · refine ⟨_, rfl, fun x _ s => ?_⟩
    obtain ⟨y, s', h1, h2, h3⟩ := int_stochastic g (mcaTy p) cfg hm hd hf hs (hp _) (Mca.wideFma (mcaTy p).wide) s
      [operand (mcaTy p).fmt x 0, operand (mcaTy p).fmt x 1, operand (mcaTy p).fmt x 2]
    refine ⟨y, s', by rw [show resultFmt (.fma p) = fmtOf p from rfl, fmtOf_eq]; exact h2, ?_, fun c => ?_⟩
    · have : ∀ l : List Bits, l.length = 3 → Mca.wideFma (mcaTy p).wide l = widely (.fma p) (mcaTy p).wide l := by
        intro l hl
        match l, hl with
        | [c, d, e], _ => rfl
      rw [this _ (by simp)] at h3
      cases p <;> exact h3
    · show store (mcaTy p).fmt c s (Mca.opN (mcaTy p) (Mca.intInexact .wrap g (mcaTy p) cfg) _ cfg s _) = _
      rw [h1, show resultFmt (.fma p) = fmtOf p from rfl, fmtOf_eq]
      rfl
  · simp [Wrapper.emitted, hca] at ho

/-- Stochastic rounding leaves two choices for the `float` sum of `1 + 2^-23` and `2^-25`. -/
example (y : Bits) (h : StochasticContract (.arith .add .float) [0x3f800001, 0x33000000] y) :
    y = ⟨false, 127, 1⟩ ∨ y = ⟨false, 127, 2⟩ := by
  refine h.1 _ _ ?_
  have e : widely (.arith .add .float) b64 ((operandsOf (.arith .add .float) [0x3f800001, 0x33000000]).map (fconv b32 b64)) =
      ⟨false, 1023, 1 * 2 ^ 29 + 2 ^ 27⟩ := by decide +kernel
  show Mca.Between .f32 _ _ (widely (.arith .add .float) b64
    ((operandsOf (.arith .add .float) [0x3f800001, 0x33000000]).map (fconv b32 b64)))
  rw [e]
  exact Mca.between_one 1 (by norm_num) (2 ^ 27) (by norm_num) (by norm_num)

/-- With 3 bits and the result perturbed, the `float` sum 0.75 + 0.625 is 1.25 or 1.375: bit 2 is kept. -/
example (cfg : Bitmask.Ctx) (hp : cfg.prec .f32 = 3) (hm : cfg.mode = .ob) (y : Bits)
    (h : BitmaskContract cfg (.arith .add .float) [0x3f400000, 0x3f200000] y) :
    y.sign = false ∧ y.exp = 127 ∧ y.sig b32 / 2 ^ 21 = 5 := by
  obtain ⟨args, -, h2, h3, -⟩ := h
  rw [h3 hm] at h2
  have e : exactly (.arith .add .float) (operandsOf (.arith .add .float) [0x3f400000, 0x3f200000]) = ⟨false, 127, 3 * 2 ^ 20⟩ := by
    decide +kernel
  have ht : (if resultFmt (.arith .add .float) = b32 then (cfg.prec .f32).toNat else (cfg.prec .f64).toNat) = 3 := by
    rw [show resultFmt (.arith .add .float) = b32 from rfl, if_pos rfl, hp]; rfl
  rw [e, ht] at h2
  obtain ⟨-, h4, h5, h6, -⟩ := h2
  exact ⟨h4, h5, h6.trans (by decide +kernel)⟩

/-- With the tolerance 1, the `float` difference of 1.25 and 1, which loses two bits, is perturbed by `2^-3` at most. -/
example (y : Bits) (h : CancelContract 1 (.arith .sub .float) [0x3fa00000, 0x3f800000] y) :
    |y.val b32 - Bits.val b32 ⟨false, 125, 0⟩| ≤ 2 ^ (-3 : ℤ) := by
  have e : (if Wrapper.Arith.sub = .add then fadd b32 (operand b32 [0x3fa00000, 0x3f800000] 0) (operand b32 [0x3fa00000, 0x3f800000] 1)
      else fadd b32 (operand b32 [0x3fa00000, 0x3f800000] 0) (fneg (operand b32 [0x3fa00000, 0x3f800000] 1))) = ⟨false, 125, 0⟩ := by
    decide +kernel
  have h2 := h.2
  simp only [fmtOf, e] at h2
  exact (h2 (by decide +kernel) (by decide +kernel) (by decide +kernel) (by simp)).2

/-! ## A function -/

/-- `C94_contract_partial` and `C94_vprec_partial` on `(a + b)²` (`squareOfSum`) with 10 bits of precision and the
exponent range of binary16, in ob mode: if the result is a finite number, it is a number of binary16. -/
theorem vprec_square (rest : Instr → Nat → List Nat → Nat) (other : Wrapper.Backend Nat Unit) (cfg : Vprec.Config.Cfg)
    (hfmt : cfg.fmt = (10, 5, 10, 5)) (hm : cfg.mode = .ob) (hrel : cfg.absErr = false)
    (F' : Func (Nat × Nat)) (h : replaceAll doubles ⟨false, false, false⟩ squareOfSum [3, 2] = .ok F')
    (param : Nat → Nat) (p s : Nat) :
    ∃ y : Bits, y.WF b64 ∧
      (run (exec (linked ieee rest ([other] ++ [vprecBackend .strict cfg]) (fun _ => ()))) F' 1
        (enter 2 param (p, s), some 0)).1.mem.1 = word b64 y ∧
      (y.Fin b64 → Vprec.Spec.InFmt 10 (-14) (y.val b64) ∧ |y.val b64| < 2 ^ 16) := by
  simp only [Vprec.Config.Cfg.fmt, Prod.mk.injEq] at hfmt
  obtain ⟨f1, f2, f3, f4⟩ := hfmt
  obtain ⟨st, hr, hmem⟩ := C94_contract_partial doubles ⟨false, false, false⟩ rfl (VprecContract cfg) ieee rest
    ([other] ++ [vprecBackend .strict cfg]) (fun _ => ())
    (C94_vprec_partial .strict cfg ⟨by omega, by omega, by omega, by omega⟩ hrel (.inr ⟨by omega, by omega⟩) (.inl hm) _ rfl rfl
      [other] (fun _ => ()))
    squareOfSum F' [3, 2] squareOfSum_source squareOfSum_blind (List.Perm.swap 2 3 []) h 2 (by decide) (by decide) param (p, s)
    1 (some 0)
  rw [← hmem]
  generalize (run _ _ _ _).2 = fin at hr
  cases hr with
  | block hb h1 h2 =>
    obtain rfl := Option.some.inj hb
    cases h2
    dsimp only
    cases h1 with
    | cons a1 h1 =>
      cases h1 with
      | cons a2 h1 =>
        cases h1
        cases a2 with
        | native id i pred args u hn =>
          exact absurd ⟨trivial, Or.inr rfl⟩ hn
        | op id i pred args v t g1 g2 g3 =>
          obtain ⟨op, t, n, o, k1, k2, k3, k4, k5⟩ := g3
          obtain rfl := Option.some.inj k1
          obtain ⟨rfl, rfl⟩ := Prod.mk.inj (Option.some.inj k2)
          obtain rfl := Option.some.inj k3
          obtain ⟨y, y1, y2, y3, -⟩ := k5 0 (by decide)
          refine ⟨y, y1, ?_, ?_⟩
          · have hw := word_lt b64 y y1
            have e : (lane 64 v 0).toNat = (image b64 y).toNat := congrArg BitVec.toNat y2
            simp only [lane, image, BitVec.toNat_ofNat, Nat.mul_zero, Nat.pow_zero, Nat.div_one] at e
            have e2 : b64.width = 64 := rfl
            rw [e2] at hw
            have k4' : v < 2 ^ 64 := k4
            show v = _
            omega
          · intro hf
            have := y3 hf
            simp only [InFormat, vprecSize, f3, f4] at this
            exact this
  | stop => rename_i hb; cases hb

/-- The contract leaves no choice for `1 + 3` in ob mode: the result is 4. -/
example (cfg : Vprec.Config.Cfg) (hfmt : cfg.fmt = (10, 5, 10, 5)) (hm : cfg.mode = .ob) (hftz : cfg.ftz = false) (y : Bits)
    (h : VprecContract cfg (.arith .add .double) [0x3ff0000000000000, 0x4008000000000000] y) : y.val b64 = 4 := by
  simp only [Vprec.Config.Cfg.fmt, Prod.mk.injEq] at hfmt
  obtain ⟨f1, f2, f3, f4⟩ := hfmt
  have e1 : operand b64 [0x3ff0000000000000, 0x4008000000000000] 0 = ⟨false, 1023, 0⟩ := by decide +kernel
  have e2 : operand b64 [0x3ff0000000000000, 0x4008000000000000] 1 = ⟨false, 1024, 2 ^ 51⟩ := by decide +kernel
  have v1 : Bits.val b64 ⟨false, 1023, 0⟩ = 1 := by
    norm_num [Bits.val, Bits.sig, Bits.lsb, b64, Fmt.uexp, Fmt.bias, sgn]
  have v2 : Bits.val b64 ⟨false, 1024, 2 ^ 51⟩ = 3 := by
    norm_num [Bits.val, Bits.sig, Bits.lsb, b64, Fmt.uexp, Fmt.bias, sgn]
  have i1 : ∀ m : ℤ, |m| < 2 ^ 11 → Vprec.Spec.InFmt 10 (Vprec.Spec.emin 5) m := fun m hm =>
    ⟨m, 0, hm, by decide, by simp⟩
  have hb : (2 : ℚ) ^ (Vprec.Spec.emax 5 + 1) = 65536 := by norm_num [Vprec.Spec.emax]
  have := h.2 hm hftz (by simp [vprecSize, f3, fmtOf, b64])
  simp only [fmtOf, e1, e2, InFormat, vprecSize, f3, f4, v1, v2, Vprec.exactOp, vprecOp, show Int.toNat 10 = 10 from rfl,
    show Int.toNat 5 = 5 from rfl, hb] at this
  have := this (by decide) (by decide) ⟨by exact_mod_cast i1 1 (by decide), by norm_num⟩
    ⟨by exact_mod_cast i1 3 (by decide), by norm_num⟩ (by simp) (by simp) (by simp)
  obtain ⟨-, -, hn⟩ := this.1 (by norm_num [Vprec.overflowFrom, Vprec.Spec.emax])
  have := hn.1.2 4 (by exact_mod_cast i1 4 (by decide))
  norm_num at this
  linarith

end Verif.Pass
