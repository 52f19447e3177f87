import Verif.Ieee.DebugProps
import Verif.Pass.DebugBackend
import Verif.Pass.IeeeProgProps

/-!
# Property C95 of programs: the trace of a program is the list of its operations
-/

namespace Verif.Pass
open Verif Verif.Fp
open Verif.Stdlib (CStr)

variable {P σ κ M : Type}

/-! ## The operations of an execution -/

/-- The scalar operations of an instruction the options ask for, with their operands, in the order of the elements. -/
def scalars (fl : Flags) (i : Instr) (pred : Nat) (vals : List Nat) : List (Wrapper.OpId × List (BitVec 64)) :=
  if Asked fl i ∧ Supported i.opTy then
    match kind i.op, i.opTy.shape with
    | some op, some (t, n) =>
      match meaning op t with
      | some o => (List.range (max 1 n)).map fun k => (o, laneArgs t.bits (immediate i pred) vals k)
      | none => []
    | _, _ => []
  else []

/-- Those of an instruction executed in a state. -/
def opsOf (fl : Flags) (s : State M) : Ins M → List (Wrapper.OpId × List (BitVec 64))
  | .fp _ i pred args => scalars fl i pred (args.map s.env)
  | _ => []

/-- Those of a list of instructions. -/
def opsIn (fl : Flags) (step : State M → Ins M → State M) : List (Ins M) → State M → List (Wrapper.OpId × List (BitVec 64))
  | [], _ => []
  | ins :: l, s => opsOf fl s ins ++ opsIn fl step l (step s ins)

/-- Those of an execution of at most `n` blocks. -/
def operations (fl : Flags) (step : State M → Ins M → State M) (F : Func M) :
    Nat → State M × Option Nat → List (Wrapper.OpId × List (BitVec 64))
  | 0, _ => []
  | n + 1, (s, cur) =>
    match cur.bind fun b => F.blocks[b]? with
    | none => []
    | some b => opsIn fl step b.body s ++ operations fl step F n (runBlock step b s)

/-- What the backends do to their state is `upd`. -/
def Updates (fl : Flags) (Pr : Nat → Prop) (upd : Wrapper.OpId → List (BitVec 64) → σ → σ)
    (bs : List (Wrapper.Backend σ κ)) (ctx : Nat → κ) : Prop :=
  ∀ o, Wrapper.emitted ⟨fl.fcmp, fl.fma, fl.cast⟩ o = true →
    ∀ x s, (∀ p, o = .cmp p → ∃ v, Pr v ∧ x.head? = some (BitVec.ofNat 64 v)) → (Wrapper.scalar bs ctx o x s).2 = upd o x s

theorem before_upd (upd : Wrapper.OpId → List (BitVec 64) → σ → σ) (bs : List (Wrapper.Backend σ κ)) (ctx : Nat → κ)
    (o : Wrapper.OpId) (b : Nat) (pred : Option Nat) (vals : List Nat) (s : σ)
    (h : ∀ k s, (Wrapper.scalar bs ctx o (laneArgs b pred vals k) s).2 = upd o (laneArgs b pred vals k) s) (n : Nat) :
    before (scalarWrapper bs ctx o) b pred vals s n =
      ((List.range n).map fun k => (o, laneArgs b pred vals k)).foldl (fun t e => upd e.1 e.2 t) s := by
  induction n with
  | zero => rfl
  | succ n ih =>
    rw [before, List.range_succ, List.map_append, List.foldl_append, ← ih]
    exact h n _

/-- An instruction of the source changes the state of the backends as its scalar operations do, one after the other. -/
theorem source_state (fl : Flags) (Pr : Nat → Prop) (upd : Wrapper.OpId → List (BitVec 64) → σ → σ)
    (op1 : Wrapper.OpId → List (BitVec 64) → BitVec 64) (rest : Instr → Nat → List Nat → Nat)
    (bs : List (Wrapper.Backend σ κ)) (ctx : Nat → κ) (hu : Updates fl Pr upd bs ctx) (i : Instr) (pred : Nat)
    (vals : List Nat) (p : P) (s : σ) (hw : Asked fl i → Supported i.opTy → WellTyped i) (hc : i.op = .fcmp → Pr pred) :
    (source fl (linked op1 rest bs ctx) i pred vals (p, s)).2.2 =
      (scalars fl i pred vals).foldl (fun t e => upd e.1 e.2 t) s := by
  unfold source scalars
  by_cases ha : Asked fl i ∧ Supported i.opTy
  swap
  · rw [if_neg ha, if_neg ha]; rfl
  rw [if_pos ha, if_pos ha]
  have h1 := (asked_iff fl i).1 ha.1
  have h2 := (supported_iff i).1 ha.2
  obtain ⟨w, hl, ho, hs⟩ := C39_wrapper fl i (hw ha.1 ha.2) h2 h1
  have hwm : w ∈ wrappers := List.mem_of_find?_eq_some hl
  have hk := kind_mustReplace fl i h1
  rw [← ho] at hk
  rw [wrapperFor_eq i w hwm hk hs]
  dsimp only
  have hem : ∀ o, meaning w.op w.ty = some o → Wrapper.emitted ⟨fl.fcmp, fl.fma, fl.cast⟩ o = true := by
    intro o e
    have hA := ha.1
    unfold Asked at hA
    rw [hk] at hA
    revert e hA
    cases w.op <;> cases w.ty <;> simp only [meaning, Option.some.injEq, reduceCtorEq, false_imp_iff] <;>
      (rintro rfl hA; first | rfl | exact hA | exact hA.1)
  have hval : ∀ im, (i.op = .fcmp → im = some pred) → ∃ o, meaning w.op w.ty = some o ∧
      (wrapperFn bs ctx w.name im vals (p, s)).2.2 =
        ((List.range (max 1 w.width)).map fun k => (o, laneArgs w.ty.bits im vals k)).foldl (fun t e => upd e.1 e.2 t) s := by
    intro im him
    obtain ⟨o, eo, e, -, -⟩ := C89_lanes bs ctx w hwm im vals p s
    refine ⟨o, eo, ?_⟩
    rw [e]
    dsimp only
    rw [before_upd upd bs ctx o]
    intro k t
    apply hu o (hem o eo)
    intro q hq
    subst hq
    have hcmp : w.op = .cmp := by
      revert eo
      cases w.op <;> cases w.ty <;> simp [meaning]
    have hf : i.op = .fcmp := by
      rw [hcmp] at hk
      revert hk
      cases i.op <;> simp [kind]
      rename_i n
      cases n with
      | none => simp
      | some n => simp
    refine ⟨pred, hc hf, ?_⟩
    rw [him hf]
    rfl
  rw [hk, ← hs]
  by_cases hf : i.op = .fcmp
  · rw [if_pos hf]
    obtain ⟨o, eo, e⟩ := hval (some pred) (fun _ => rfl)
    simp only [eo, show immediate i pred = some pred from if_pos hf]
    exact e
  · rw [if_neg hf]
    obtain ⟨o, eo, e⟩ := hval none (fun h => absurd h hf)
    simp only [eo, show immediate i pred = none from if_neg hf]
    exact e

theorem run_state (fl : Flags) (Pr : Nat → Prop) (upd : Wrapper.OpId → List (BitVec 64) → σ → σ)
    (op1 : Wrapper.OpId → List (BitVec 64) → BitVec 64) (rest : Instr → Nat → List Nat → Nat)
    (bs : List (Wrapper.Backend σ κ)) (ctx : Nat → κ) (ht : Transparent fl Pr op1 bs ctx) (hu : Updates fl Pr upd bs ctx)
    (F : Func (P × σ)) (hb : Blind F) (hsl : Silent F) (hcm : CmpTyped Pr F)
    (hw : ∀ id i pred args, .fp id i pred args ∈ F.all → Asked fl i → Supported i.opTy → WellTyped i) :
    let S : Sem (P × σ) := linked op1 rest bs ctx
    ∀ n s s' cur, Alike s s' →
      (run (sourceExec fl S) F n (s, cur)).1.mem.2 =
        (operations fl (exec S) F n (s', cur)).foldl (fun t e => upd e.1 e.2 t) s.mem.2 := by
  intro S
  have hstep : ∀ ins ∈ F.all, ∀ s s', Alike s s' → Alike (sourceExec fl S s ins) (exec S s' ins) ∧
      (sourceExec fl S s ins).mem.2 = (opsOf fl s' ins).foldl (fun t e => upd e.1 e.2 t) s.mem.2 := by
    rintro ins hi ⟨e, k, p, t⟩ ⟨e', k', p', t'⟩ ⟨h1, h2⟩
    dsimp only at h1 h2
    subst h1 h2
    rcases hb.fresh ins hi with ⟨id, i, pred, args, rfl⟩ | ⟨id, args, f, rfl⟩
    · obtain ⟨k1, k2⟩ := source_native fl Pr op1 rest bs ctx ht i pred (args.map e) p t (hw id i pred args hi)
        (hcm id i pred args hi)
      refine ⟨⟨?_, k2⟩, ?_⟩
      · funext n
        simp only [S, sourceExec, exec, State.set, k1]
        rfl
      · exact source_state fl Pr upd op1 rest bs ctx hu i pred (args.map e) p t (hw id i pred args hi)
          (fun h => (hcm id i pred args hi h).1)
    · obtain ⟨k1, k2⟩ := hb.other id args f hi (args.map e) p t t'
      refine ⟨⟨?_, k2⟩, ?_⟩
      · funext n
        simp only [sourceExec, exec, State.set, k1]
      · exact hsl.other id args f hi (args.map e) (p, t)
  have hfold : ∀ l : List (Ins (P × σ)), (∀ ins ∈ l, ins ∈ F.all) → ∀ s s', Alike s s' →
      Alike (l.foldl (sourceExec fl S) s) (l.foldl (exec S) s') ∧
      (l.foldl (sourceExec fl S) s).mem.2 = (opsIn fl (exec S) l s').foldl (fun t e => upd e.1 e.2 t) s.mem.2 := by
    intro l
    induction l with
    | nil => intro _ s s' h; exact ⟨h, rfl⟩
    | cons a l ih =>
      intro hl s s' h
      obtain ⟨a1, a2⟩ := hstep a (hl a (by simp)) s s' h
      obtain ⟨b1, b2⟩ := ih (fun b hb => hl b (by simp [hb])) _ _ a1
      refine ⟨b1, ?_⟩
      rw [List.foldl_cons, b2, a2, opsIn, List.foldl_append]
  intro n
  induction n with
  | zero => intro s s' cur _; rfl
  | succ n ih =>
    intro s s' cur h
    simp only [run, operations]
    cases hbb : cur.bind fun b => F.blocks[b]? with
    | none => rfl
    | some b =>
      have hbm : b ∈ F.blocks := by
        cases cur with
        | none => cases hbb
        | some k => exact List.mem_of_getElem? hbb
      obtain ⟨hf, hg⟩ := hfold b.body (fun ins hi => mem_all hbm hi) s s' h
      dsimp only
      rw [List.foldl_append, ← hg]
      simp only [runBlock]
      generalize b.body.foldl (sourceExec fl S) s = s₁ at *
      generalize b.body.foldl (exec S) s' = s₂ at *
      obtain ⟨e, k, p, t⟩ := s₁
      obtain ⟨e', k', p', t'⟩ := s₂
      obtain ⟨h1, h2⟩ := hf
      dsimp only at h1 h2
      subst h1 h2
      obtain ⟨k1, k2⟩ := hb.next b hbm (b.uses.map e) p t t'
      dsimp only
      rw [k1]
      rw [ih ⟨e, k, (b.next (b.uses.map e) (p, t)).1⟩ ⟨e, k', (b.next (b.uses.map e) (p, t')).1⟩ _ ⟨rfl, k2⟩]
      congr 1
      exact hsl.next b hbm (b.uses.map e) (p, t)

/-- **C95** What backends that give the results of the machine do to their state in an instrumented function is what
they do for the operations of the function compiled without Verificarlo, in the order of its execution.  Partial as
`C90_count_partial`. -/
theorem C95_states_partial (sig : String → Sig) (fl : Flags) (Pr : Nat → Prop) (upd : Wrapper.OpId → List (BitVec 64) → σ → σ)
    (op1 : Wrapper.OpId → List (BitVec 64) → BitVec 64) (rest : Instr → Nat → List Nat → Nat)
    (bs : List (Wrapper.Backend σ κ)) (ctx : Nat → κ) (ht : Transparent fl Pr op1 bs ctx) (hu : Updates fl Pr upd bs ctx)
    (F F' : Func (P × σ)) (order : List Nat) (hF : Source sig fl F) (hb : Blind F) (hsl : Silent F)
    (hcm : CmpTyped Pr F) (hp : order.Perm (workList fl F)) (h : replaceAll sig fl F order = .ok F')
    (k : Nat) (hk : ∀ ins ∈ F.all, k ≤ ins.name) (hkF : k ≤ F.fresh) (param : Nat → Nat) (p : P) (s s' : σ) (n : Nat)
    (cur : Option Nat) :
    let S : Sem (P × σ) := linked op1 rest bs ctx
    (run (exec S) F' n (enter k param (p, s), cur)).1.mem.2 =
      (operations fl (exec S) F n (enter k param (p, s'), cur)).foldl (fun t e => upd e.1 e.2 t) s := by
  intro S
  obtain ⟨a1, -⟩ := C89_observed_partial sig fl S F F' order hF hp h k hk hkF param (p, s) n cur
  rw [a1]
  exact run_state fl Pr upd op1 rest bs ctx ht hu F hb hsl hcm
    (fun id i pred args h1 h2 h3 => (hF.typed id i pred args h1 h2 h3).1) n _ _ cur ⟨rfl, rfl⟩

/-! ## The trace -/

/-- What the trace should say of an operation: its operands, and the result of the machine. -/
noncomputable def said (e : Wrapper.OpId × List (BitVec 64)) : Ieee.Entry :=
  let r := machine e.1 e.2
  match e.1 with
  | .arith o p =>
    .arith (match o with | .add => "+".toList | .sub => "-".toList | .mul => "*".toList | .div => "/".toList)
      (Ieee.meant ⟨p = .double, operand (fmtOf p) e.2 0⟩) (Ieee.meant ⟨p = .double, operand (fmtOf p) e.2 1⟩)
      (Ieee.meant ⟨p = .double, operand (fmtOf p) [r] 0⟩)
  | .cmp p =>
    .cmp ((enumerators.find? fun q => BitVec.ofNat 64 (numberOf q) == e.2.getD 0 0).map (fun q => (Ieee.predName q).toList) |>.getD [])
      (Ieee.meant ⟨p = .double, operand (fmtOf p) e.2 1⟩) (Ieee.meant ⟨p = .double, operand (fmtOf p) e.2 2⟩) (r == 1)
  | .cast => .cast (Ieee.meant ⟨true, operand b64 e.2 0⟩) (Ieee.meant ⟨false, operand b32 [r] 0⟩)
  | .fma p =>
    .fma (Ieee.meant ⟨p = .double, operand (fmtOf p) e.2 0⟩) (Ieee.meant ⟨p = .double, operand (fmtOf p) e.2 1⟩)
      (Ieee.meant ⟨p = .double, operand (fmtOf p) e.2 2⟩) (Ieee.meant ⟨p = .double, operand (fmtOf p) [r] 0⟩)

/-- The operation the backend shows, with the result of the machine. -/
noncomputable def shownM (e : Wrapper.OpId × List (BitVec 64)) : Ieee.Shown := shownC e.1 e.2 (machine e.1 e.2)

theorem debug_scalar (count : Ieee.Op → σ → σ) (g : Bits → CStr) (df : Ieee.DebugFlags) (v : Logger.Vars) (ctx : Nat → κ)
    (o : Wrapper.OpId) (x : List (BitVec 64)) (s : σ × Outcome Logger.Proc) :
    Wrapper.scalar [debugBackend count g df v] ctx o x s =
      ((Wrapper.scalar [ieeeBackend count] ctx o x s.1).1, (Wrapper.scalar [ieeeBackend count] ctx o x s.1).2,
        s.2 >>= fun p => Ieee.showOp g df v (shownC o x ((Wrapper.scalar [ieeeBackend count] ctx o x s.1).1.getD 0)) p) := by
  rcases o with ⟨a, p⟩ | p | p | _ <;> rfl

theorem debug_transparent (count : Ieee.Op → σ → σ) (g : Bits → CStr) (df : Ieee.DebugFlags) (v : Logger.Vars)
    (ctx : Nat → κ) (fl : Flags) : Transparent fl Sound machine [debugBackend count g df v] ctx := by
  intro o ho x s hp
  rw [debug_scalar]
  exact ieee_transparent count [] ctx fl o ho x s.1 hp

theorem debug_updates (count : Ieee.Op → σ → σ) (g : Bits → CStr) (df : Ieee.DebugFlags) (v : Logger.Vars)
    (ctx : Nat → κ) (fl : Flags) :
    Updates fl Sound (fun o x s => ((Wrapper.scalar [ieeeBackend count] ctx o x s.1).2,
      s.2 >>= fun p => Ieee.showOp g df v (shownM (o, x)) p)) [debugBackend count g df v] ctx := by
  intro o ho x s hp
  rw [debug_scalar]
  have := ieee_transparent count [] ctx fl o ho x s.1 hp
  rw [List.nil_append] at this
  rw [this]
  rfl

theorem showAll_fold (g : Bits → CStr) (df : Ieee.DebugFlags) (v : Logger.Vars) (os : List (Wrapper.OpId × List (BitVec 64)))
    (f : Wrapper.OpId → List (BitVec 64) → σ → σ) (s : σ) (q : Outcome Logger.Proc) :
    (os.foldl (fun t e => (f e.1 e.2 t.1, t.2 >>= fun p => Ieee.showOp g df v (shownM e) p)) (s, q)).2 =
      (q >>= Ieee.showAll g df v (os.map shownM)) := by
  induction os generalizing s q with
  | nil => cases q <;> rfl
  | cons e os ih =>
    rw [List.foldl_cons, ih]
    cases q <;> rfl

theorem shownM_wf (e : Wrapper.OpId × List (BitVec 64)) : ∀ x ∈ (shownM e).data, x.WF := by
  obtain ⟨o, x⟩ := e
  have h : ∀ p (l : List (BitVec 64)) k, (datumOf p (operand (fmtOf p) l k)).WF := by
    intro p l k
    cases p <;> exact operand_wf _ l k
  rcases o with ⟨a, p⟩ | p | p | _ <;> intro y hy <;>
    simp only [shownM, shownC, Ieee.Shown.data, List.mem_cons, List.not_mem_nil, or_false] at hy
  · rcases hy with rfl | rfl | rfl <;> exact h ..
  · rcases hy with rfl | rfl <;> exact h ..
  · rcases hy with rfl | rfl | rfl | rfl <;> exact h ..
  · rcases hy with rfl | rfl
    · exact h .double x 0
    · exact h .float _ 0

/-- A comparison of which the backend implements the predicate. -/
def SoundOp (e : Wrapper.OpId × List (BitVec 64)) : Prop :=
  ∀ p, e.1 = .cmp p → ∃ v, Sound v ∧ e.2.head? = some (BitVec.ofNat 64 v)

theorem shownM_named (e : Wrapper.OpId × List (BitVec 64)) (h : SoundOp e) :
    Ieee.Named (shownM e) ∧ Ieee.entryOf (shownM e) = said e := by
  obtain ⟨o, x⟩ := e
  rcases o with ⟨a, p⟩ | p | p | _
  · cases a <;> exact ⟨by simp [shownM, shownC, symbolC, Ieee.Named], rfl⟩
  · obtain ⟨v, ⟨q, rfl, -⟩, hx⟩ := h p rfl
    have h0 : x.getD 0 0 = BitVec.ofNat 64 (numberOf q) := by
      cases x with
      | nil => cases hx
      | cons y ys => exact Option.some.inj hx
    have hm : machine (.cmp p) x = 0 ∨ machine (.cmp p) x = 1 := by
      simp only [machine]; split <;> simp
    have he : enumerators[(x.getD 0 0).toNat]? = some q := by rw [h0, number_toNat, enumerators_number]
    have hf : (enumerators.find? fun r => BitVec.ofNat 64 (numberOf r) == x.getD 0 0) = some q := by
      rw [h0]; cases q <;> rfl
    refine ⟨⟨q, by simp only [he]⟩, ?_⟩
    simp only [shownM, shownC, said, Ieee.entryOf, he, hf]
    congr 1
    rcases hm with h | h <;> rw [h] <;> rfl
  · exact ⟨trivial, rfl⟩
  · exact ⟨rfl, rfl⟩

theorem scalars_sound (fl : Flags) (i : Instr) (pred : Nat) (vals : List Nat) (hc : i.op = .fcmp → Sound pred) :
    ∀ e ∈ scalars fl i pred vals, SoundOp e := by
  intro e he
  unfold scalars at he
  split at he
  swap
  · simp at he
  split at he
  · rename_i op t n hk hs
    split at he
    · rename_i o eo
      obtain ⟨j, -, rfl⟩ := List.mem_map.1 he
      intro q hq
      dsimp only at hq
      subst hq
      have hcmp : op = .cmp := by
        revert eo
        cases op <;> cases t <;> simp [meaning]
      have hf : i.op = .fcmp := by
        rw [hcmp] at hk
        revert hk
        cases i.op <;> simp [kind]
        rename_i n
        cases n with
        | none => simp
        | some n => simp
      refine ⟨pred, hc hf, ?_⟩
      dsimp only
      rw [show immediate i pred = some pred from if_pos hf]
      rfl
    · simp at he
  · simp at he

theorem operations_sound (fl : Flags) (step : State M → Ins M → State M) (F : Func M) (hcm : CmpTyped Sound F) :
    ∀ n c, ∀ e ∈ operations fl step F n c, SoundOp e := by
  have h1 : ∀ l : List (Ins M), (∀ ins ∈ l, ins ∈ F.all) → ∀ s, ∀ e ∈ opsIn fl step l s, SoundOp e := by
    intro l
    induction l with
    | nil => intro _ s e he; simp [opsIn] at he
    | cons a l ih =>
      intro hl s e he
      rw [opsIn] at he
      rcases List.mem_append.1 he with h | h
      · cases a with
        | fp id i pred args =>
          exact scalars_sound fl i pred _ (fun hf => (hcm id i pred args (hl _ (by simp)) hf).1) e h
        | _ => simp [opsOf] at h
      · exact ih (fun b hb => hl b (by simp [hb])) _ e h
  intro n
  induction n with
  | zero => intro c e he; simp [operations] at he
  | succ n ih =>
    rintro ⟨s, cur⟩ e he
    rw [operations] at he
    cases hbb : cur.bind fun b => F.blocks[b]? with
    | none => rw [hbb] at he; simp at he
    | some b =>
      rw [hbb] at he
      have hbm : b ∈ F.blocks := by
        cases cur with
        | none => cases hbb
        | some k => exact List.mem_of_getElem? hbb
      rcases List.mem_append.1 he with h | h
      · exact h1 b.body (fun ins hi => mem_all hbm hi) s e h
      · exact ih _ e h

/-- What the counters should be after an operation. -/
def tallied (count : Ieee.Op → σ → σ) (t : σ) (e : Wrapper.OpId × List (BitVec 64)) : σ :=
  match e.1 with
  | .arith .add p => count ⟨.add, p = .double⟩ t
  | .arith .sub p => count ⟨.sub, p = .double⟩ t
  | .arith .mul p => count ⟨.mul, p = .double⟩ t
  | .arith .div p => count ⟨.div, p = .double⟩ t
  | .fma p => count ⟨.fma, p = .double⟩ t
  | .cmp _ => t
  | .cast => t

theorem scalar_tallied (count : Ieee.Op → σ → σ) (ctx : Nat → κ) (e : Wrapper.OpId × List (BitVec 64)) (t : σ) :
    (Wrapper.scalar [ieeeBackend count] ctx e.1 e.2 t).2 = tallied count t e := by
  obtain ⟨o, x⟩ := e
  rcases o with ⟨a, p⟩ | p | p | _
  · cases a <;> rfl
  · simp only [Wrapper.scalar, Wrapper.callFrom, ieeeBackend, tallied]
    split <;> rfl
  · rfl
  · rfl

theorem counts_fold (g : Bits → CStr) (df : Ieee.DebugFlags) (v : Logger.Vars) (os : List (Wrapper.OpId × List (BitVec 64)))
    (count : Ieee.Op → σ → σ) (ctx : Nat → κ) (s : σ) (q : Outcome Logger.Proc) :
    (os.foldl (fun t e => ((Wrapper.scalar [ieeeBackend count] ctx e.1 e.2 t.1).2,
      t.2 >>= fun p => Ieee.showOp g df v (shownM e) p)) (s, q)).1 = os.foldl (tallied count) s := by
  induction os generalizing s q with
  | nil => rfl
  | cons e os ih => rw [List.foldl_cons, ih, scalar_tallied]; rfl

/-- **C95** With `--debug-binary --no-backend-name`, what a function compiled with Verificarlo and run with the IEEE
backend writes on the standard error reads as the list of the operations which the function compiled without Verificarlo
executes and the options ask for, in order, with the operands it gives them and the results of the machine; a vector
operation is one entry per element.  The operations are counted as without debug output.  Partial as
`C90_count_partial`. -/
theorem C95_program_partial (sig : String → Sig) (fl : Flags) (count : Ieee.Op → σ → σ) (g : Bits → CStr)
    (df : Ieee.DebugFlags) (h1 : df.debug = false) (h2 : df.debugBinary = true) (h3 : df.noBackendName = true)
    (h4 : df.printNewLine = false) (v : Logger.Vars) (d : Logger.Stream) (hd : v.logfile = some d)
    (rest : Instr → Nat → List Nat → Nat) (ctx : Nat → κ)
    (F F' : Func (P × (σ × Outcome Logger.Proc))) (order : List Nat) (hF : Source sig fl F) (hb : Blind F) (hsl : Silent F)
    (hcm : CmpTyped Sound F) (hp : order.Perm (workList fl F)) (h : replaceAll sig fl F order = .ok F')
    (k : Nat) (hk : ∀ ins ∈ F.all, k ≤ ins.name) (hkF : k ≤ F.fresh) (param : Nat → Nat) (p : P) (s : σ) (q : Logger.Proc)
    (n : Nat) (cur : Option Nat) :
    let S : Sem (P × (σ × Outcome Logger.Proc)) := linked machine rest [debugBackend count g df v] ctx
    (run (exec S) F' n (enter k param (p, s, .ok q), cur)).1.mem.2.1 =
      (operations fl (exec S) F n (enter k param (p, s, .ok q), cur)).foldl (tallied count) s ∧
    ∃ q' t, (run (exec S) F' n (enter k param (p, s, .ok q), cur)).1.mem.2.2 = .ok q' ∧
      Logger.text q' .stderr = Logger.text q .stderr ++ t ∧ (∀ d', d' ≠ .stderr → Logger.text q' d' = Logger.text q d') ∧
      Ieee.readTrace t = some ((operations fl (exec S) F n (enter k param (p, s, .ok q), cur)).map said) := by
  intro S
  have hst := C95_states_partial sig fl Sound _ machine rest _ ctx (debug_transparent count g df v ctx fl)
    (debug_updates count g df v ctx fl) F F' order hF hb hsl hcm hp h k hk hkF param p (s, .ok q) (s, .ok q) n cur
  have hops := operations_sound fl (exec S) F hcm n (enter k param (p, s, .ok q), cur)
  dsimp only at hst
  rw [hst]
  refine ⟨counts_fold g df v _ count ctx s (.ok q), ?_⟩
  change ∃ q' t, (List.foldl _ (s, Outcome.ok q) (operations fl (exec S) F n (enter k param (p, s, .ok q), cur))).2 = _ ∧ _
  generalize operations fl (exec S) F n (enter k param (p, s, .ok q), cur) = os at hops ⊢
  have hwf : ∀ o ∈ os.map shownM, ∀ x ∈ o.data, x.WF := by
    intro o ho
    obtain ⟨e, -, rfl⟩ := List.mem_map.1 ho
    exact shownM_wf e
  obtain ⟨q', e1, e2⟩ := Ieee.C95_text g df v d hd (os.map shownM) hwf q
  refine ⟨q', (os.map shownM).flatMap (Ieee.body (Ieee.numText g df) []), ?_, ?_, ?_, ?_⟩
  · rw [showAll_fold g df v os (fun o x t => (Wrapper.scalar [ieeeBackend count] ctx o x t).2) s (.ok q), Outcome.bind_ok]
    exact e1
  · rw [e2 .stderr, if_pos (.inr h2)]
    congr 1
    simp only [Ieee.headerLine, h3, h4, Bool.true_eq_false, false_and, if_false, ite_self, List.nil_append, if_true,
      Bool.false_eq_true]
  · intro d' hd'
    rw [e2 d', if_pos (.inr h2)]
    simp only [Ieee.headerLine, h3, Bool.true_eq_false, false_and, if_false, ite_self, List.nil_append, if_neg (Ne.symm hd')]
    simp
  · rw [Ieee.C95_read g df h1 _ hwf, List.map_map]
    · congr 1
      apply List.map_congr_left
      intro e he
      exact (shownM_named e (hops e he)).2
    · intro o ho
      obtain ⟨e, he, rfl⟩ := List.mem_map.1 ho
      exact (shownM_named e (hops e he)).1

/-! ## A function -/

/-- `(a + b) * (a + b)`, returned through the memory. -/
def squared : Func (Nat × σ) :=
  { blocks := [{ body := [.fp 2 ⟨.fadd, .scalar .double, .scalar .double⟩ 0 [0, 1],
                          .fp 3 ⟨.fmul, .scalar .double, .scalar .double⟩ 0 [2, 2]]
                 uses := [3]
                 next := fun vals m => ((vals.headD 0, m.2), none) }]
    fresh := 4 }

theorem squared_all (ins : Ins (Nat × σ)) (h : ins ∈ squared.all) :
    ins = .fp 2 ⟨.fadd, .scalar .double, .scalar .double⟩ 0 [0, 1] ∨
      ins = .fp 3 ⟨.fmul, .scalar .double, .scalar .double⟩ 0 [2, 2] := by
  simpa [squared, Func.all] using h

/-- The hypotheses of `C95_program_partial` hold of it. -/
example : Source doubles ⟨false, false, false⟩ (squared (σ := σ)) ∧ Blind (squared (σ := σ)) ∧ Silent (squared (σ := σ)) ∧
    CmpTyped Sound (squared (σ := σ)) ∧ ∀ ins ∈ (squared (σ := σ)).all, 2 ≤ ins.name := by
  have h1 : instrument doubles ⟨false, false, false⟩ ⟨.fadd, .scalar .double, .scalar .double⟩ =
      .ok (.replaced "_doubleadd" [.direct, .direct] .call) := by decide +kernel
  have h2 : instrument doubles ⟨false, false, false⟩ ⟨.fmul, .scalar .double, .scalar .double⟩ =
      .ok (.replaced "_doublemul" [.direct, .direct] .call) := by decide +kernel
  refine ⟨⟨by constructor <;> simp [squared, Func.all, Ins.name, Ins.args, Ins.cand], by simp [squared, Func.all, Ins.name], ?_, ?_⟩, ⟨?_, ?_, ?_⟩, ⟨?_, ?_⟩, ?_, ?_⟩
  · intro id i pred args h
    rcases squared_all _ h with h | h <;> obtain ⟨rfl, rfl, rfl, rfl⟩ := Ins.fp.inj h
    · refine ⟨by decide, fun r hr _ => ?_⟩
      rw [h1] at hr; obtain rfl := Outcome.ok.inj hr; rfl
    · refine ⟨by decide, fun r hr _ => ?_⟩
      rw [h2] at hr; obtain rfl := Outcome.ok.inj hr; rfl
  · intro id i pred args h _ _
    rcases squared_all _ h with h | h <;> obtain ⟨rfl, rfl, rfl, rfl⟩ := Ins.fp.inj h
    · exact ⟨rfl, by simp [ReturnsNaturally, doubles]⟩
    · exact ⟨rfl, by simp [ReturnsNaturally, doubles]⟩
  · intro id args f h; rcases squared_all _ h with h | h <;> cases h
  · intro b h vals p s s'
    simp only [squared, List.mem_singleton] at h
    subst h; exact ⟨rfl, rfl⟩
  · intro ins h
    rcases squared_all _ h with rfl | rfl <;> exact .inl ⟨_, _, _, _, rfl⟩
  · intro id args f h; rcases squared_all _ h with h | h <;> cases h
  · intro b h vals m
    simp only [squared, List.mem_singleton] at h
    subst h; rfl
  · intro id i pred args h hf
    rcases squared_all _ h with h | h <;> obtain ⟨rfl, rfl, rfl, rfl⟩ := Ins.fp.inj h <;> cases hf
  · intro ins h
    rcases squared_all _ h with rfl | rfl <;> simp [Ins.name]

/-- What it writes for 1 and 2. -/
example : (match replaceAll doubles ⟨false, false, false⟩ (squared (σ := Unit × Outcome Logger.Proc)) [3, 2] with
      | .ok F' =>
        match (run (exec (linked ieee (fun _ _ _ => 0) [debugBackend (fun _ s => s) (fun _ => []) ⟨false, true, true, false, false⟩
            ⟨[], true, false, .info, some .stderr⟩] (fun _ => ()))) F' 1
            (enter 2 (fun n => if n = 0 then 0x3ff0000000000000 else 0x4000000000000000) (0, (), .ok ⟨[], none⟩), some 0)).1.mem.2.2 with
        | .ok q => some (Logger.text q .stderr)
        | _ => none
      | _ => none) =
    some "+1.0 x 2^0 + +1.0 x 2^1 -> +1.1 x 2^1\n+1.1 x 2^1 * +1.1 x 2^1 -> +1.001 x 2^3\n".toList := by
  decide +kernel

end Verif.Pass
