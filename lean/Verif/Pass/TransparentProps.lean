import Verif.Pass.BlockProps
import Verif.Pass.McaBackend
import Verif.Wrapper.DispatchProps

/-!
# Property C89, continued: lanes, transparent backends, and where it fails
-/

namespace Verif.Pass
open Verif

variable {P σ κ : Type}

/-! ## Lanes -/

theorem pack_lt (b : Nat) (l : List (BitVec 64)) : pack b l < 2 ^ (b * l.length) := by
  induction l with
  | nil => simp [pack]
  | cons x xs ih =>
    simp only [pack, List.length_cons]
    have h1 : x.toNat % 2 ^ b < 2 ^ b := Nat.mod_lt _ (Nat.two_pow_pos b)
    have h2 : 2 ^ (b * (xs.length + 1)) = 2 ^ b * 2 ^ (b * xs.length) := by
      rw [← Nat.pow_add]; congr 1; rw [Nat.mul_add, Nat.mul_one, Nat.add_comm]
    rw [h2]
    calc x.toNat % 2 ^ b + 2 ^ b * pack b xs < 2 ^ b + 2 ^ b * pack b xs := Nat.add_lt_add_right h1 _
      _ = 2 ^ b * (pack b xs + 1) := by rw [Nat.mul_add, Nat.mul_one, Nat.add_comm]
      _ ≤ 2 ^ b * 2 ^ (b * xs.length) := Nat.mul_le_mul_left _ ih

/-- A lane of a vector is the element put there. -/
theorem lane_pack (b : Nat) (l : List (BitVec 64)) (k : Nat) (hk : k < l.length) :
    lane b (pack b l) k = BitVec.ofNat 64 (l[k].toNat % 2 ^ b) := by
  induction l generalizing k with
  | nil => simp at hk
  | cons x xs ih =>
    have h1 : x.toNat % 2 ^ b < 2 ^ b := Nat.mod_lt _ (Nat.two_pow_pos b)
    cases k with
    | zero =>
      simp only [lane, pack, Nat.mul_zero, Nat.pow_zero, Nat.div_one, List.getElem_cons_zero]
      rw [Nat.add_mul_mod_self_left, Nat.mod_mod]
    | succ k =>
      simp only [List.length_cons, Nat.add_lt_add_iff_right] at hk
      rw [List.getElem_cons_succ, ← ih k hk]
      simp only [lane, pack]
      have h2 : 2 ^ (b * (k + 1)) = 2 ^ b * 2 ^ (b * k) := by
        rw [← Nat.pow_add]; congr 1; rw [Nat.mul_add, Nat.mul_one, Nat.add_comm]
      rw [h2, ← Nat.div_div_eq_div_mul, Nat.add_mul_div_left _ _ (Nat.two_pow_pos b), Nat.div_eq_of_lt h1, Nat.zero_add]

/-- The state of the backends before lane `k`. -/
def before (f : List (BitVec 64) → σ → BitVec 64 × σ) (b : Nat) (pred : Option Nat) (vals : List Nat) (s : σ) : Nat → σ
  | 0 => s
  | k + 1 => (f (laneArgs b pred vals k) (before f b pred vals s k)).2

theorem lanesFrom_eq (f : List (BitVec 64) → σ → BitVec 64 × σ) (b : Nat) (pred : Option Nat) (vals : List Nat) (s : σ) :
    ∀ n j, lanesFrom f b pred vals n j (before f b pred vals s j) =
      ((List.range' j n).map fun k => (f (laneArgs b pred vals k) (before f b pred vals s k)).1,
        before f b pred vals s (j + n)) := by
  intro n
  induction n with
  | zero => intro j; rfl
  | succ n ih =>
    intro j
    simp only [lanesFrom]
    rw [show (f (laneArgs b pred vals j) (before f b pred vals s j)).2 = before f b pred vals s (j + 1) from rfl, ih (j + 1)]
    rw [List.range'_succ, List.map_cons, show j + 1 + n = j + (n + 1) by omega]

/-- The scalar operation that an operation on elements of a type stands for, as LLVM defines the
instructions. -/
def meaning : FPOp → STy → Option Wrapper.OpId
  | .add, .float => some (.arith .add .float)
  | .add, .double => some (.arith .add .double)
  | .sub, .float => some (.arith .sub .float)
  | .sub, .double => some (.arith .sub .double)
  | .mul, .float => some (.arith .mul .float)
  | .mul, .double => some (.arith .mul .double)
  | .div, .float => some (.arith .div .float)
  | .div, .double => some (.arith .div .double)
  | .fma, .float => some (.fma .float)
  | .fma, .double => some (.fma .double)
  | .cmp, .float => some (.cmp .float)
  | .cmp, .double => some (.cmp .double)
  | .cast, .double => some .cast
  | _, _ => none

/-- The bits of its result; those of an `int` for a comparison. -/
def outBits : Wrapper.OpId → Nat
  | .arith _ .float => 32
  | .arith _ .double => 64
  | .fma .float => 32
  | .fma .double => 64
  | .cmp _ => 32
  | .cast => 32

theorem entry_eq (op : FPOp) (t : STy) : entry op t = meaning op t := by
  cases op <;> cases t <;> rfl

theorem outBits_eq (op : FPOp) (t : STy) (o : Wrapper.OpId) (h : meaning op t = some o) : outBits o = resBits op t := by
  revert h
  cases op <;> cases t <;> simp only [meaning, Option.some.injEq, reduceCtorEq, false_imp_iff] <;> (rintro rfl; rfl)

/-- **C89** Every wrapper computes its lanes one after the other with the backends, which find the state
the lane before has left; the memory of the program is not touched.  Lane `k` of the result is what
the backends give for lane `k` of the operands, after the predicate if it is a comparison. -/
theorem C89_lanes (bs : List (Wrapper.Backend σ κ)) (ctx : Nat → κ) (w : Wrapper) (hw : w ∈ wrappers)
    (pred : Option Nat) (vals : List Nat) (p : P) (s : σ) :
    ∃ o, meaning w.op w.ty = some o ∧
      let st := before (scalarWrapper bs ctx o) w.ty.bits pred vals s
      let r := wrapperFn bs ctx w.name pred vals (p, s)
      r.2 = (p, st (max 1 w.width)) ∧ r.1 < 2 ^ (outBits o * max 1 w.width) ∧
      ∀ k < max 1 w.width, lane (outBits o) r.1 k =
        BitVec.ofNat 64 ((scalarWrapper bs ctx o (laneArgs w.ty.bits pred vals k) (st k)).1.toNat % 2 ^ outBits o) := by
  have hl : ∀ w ∈ wrappers, lookup w.name = some w ∧ (meaning w.op w.ty).isSome = true := by decide +kernel
  obtain ⟨h1, h2⟩ := hl w hw
  obtain ⟨o, ho⟩ := Option.isSome_iff_exists.1 h2
  refine ⟨o, ho, ?_⟩
  simp only [wrapperFn, h1, entry_eq, ho, outBits_eq _ _ _ ho]
  have e := lanesFrom_eq (scalarWrapper bs ctx o) w.ty.bits pred vals s (max 1 w.width) 0
  simp only [before, Nat.zero_add] at e
  rw [e]
  refine ⟨rfl, ?_, ?_⟩
  · have := pack_lt (resBits w.op w.ty) ((List.range' 0 (max 1 w.width)).map fun k =>
      (scalarWrapper bs ctx o (laneArgs w.ty.bits pred vals k) (before (scalarWrapper bs ctx o) w.ty.bits pred vals s k)).1)
    simpa using this
  · intro k hk
    rw [lane_pack _ _ k (by simpa using hk)]
    simp

/-! ## Transparent backends -/

/-- The native instructions on bit patterns, from the scalar operations: what LLVM says of the
instructions on vectors. -/
def nativeOf (op1 : Wrapper.OpId → List (BitVec 64) → BitVec 64) (rest : Instr → Nat → List Nat → Nat)
    (i : Instr) (pred : Nat) (vals : List Nat) : Nat :=
  match kind i.op, i.opTy.shape with
  | some op, some (t, n) =>
    match meaning op t with
    | some o =>
      pack (if i.op = .fcmp then 1 else outBits o)
        ((List.range (max 1 n)).map fun k => op1 o (laneArgs t.bits (immediate i pred) vals k))
    | none => rest i pred vals
  | _, _ => rest i pred vals

/-- The semantics of a program linked with the wrappers. -/
def linked (op1 : Wrapper.OpId → List (BitVec 64) → BitVec 64) (rest : Instr → Nat → List Nat → Nat)
    (bs : List (Wrapper.Backend σ κ)) (ctx : Nat → κ) : Sem (P × σ) :=
  { native := nativeOf op1 rest, wrapper := wrapperFn bs ctx, trunc := truncLanes }

/-- The backends give the results of the machine for the operations the options ask for, comparisons
being those with a predicate in `Pr`. -/
def Transparent (fl : Flags) (Pr : Nat → Prop) (op1 : Wrapper.OpId → List (BitVec 64) → BitVec 64)
    (bs : List (Wrapper.Backend σ κ)) (ctx : Nat → κ) : Prop :=
  ∀ o, Wrapper.emitted ⟨fl.fcmp, fl.fma, fl.cast⟩ o = true →
    ∀ x s, (∀ p, o = .cmp p → ∃ v, Pr v ∧ x.head? = some (BitVec.ofNat 64 v)) →
      (Wrapper.scalar bs ctx o x s).1 = some (op1 o x)

/-- The program does not look at the state of the backends. -/
structure Blind (F : Func (P × σ)) : Prop where
  other : ∀ id args f, .other id args f ∈ F.all → ∀ vals p s s',
    (f vals (p, s)).1 = (f vals (p, s')).1 ∧ (f vals (p, s)).2.1 = (f vals (p, s')).2.1
  next : ∀ b ∈ F.blocks, ∀ vals p s s',
    (b.next vals (p, s)).2 = (b.next vals (p, s')).2 ∧ (b.next vals (p, s)).1.1 = (b.next vals (p, s')).1.1
  /-- The program has no code of the pass yet. -/
  fresh : ∀ ins ∈ F.all, (∃ id i pred args, ins = .fp id i pred args) ∨ ∃ id args f, ins = .other id args f

/-- Comparisons give a bit per element, and their predicates are in `Pr`. -/
def CmpTyped (Pr : Nat → Prop) (F : Func M) : Prop :=
  ∀ id i pred args, .fp id i pred args ∈ F.all → i.op = .fcmp →
    Pr pred ∧ (∀ t, i.opTy = .scalar t → i.retTy = .scalar (.int 1)) ∧ ∀ n t, i.opTy = .vec n t → i.retTy = .vec n (.int 1)

theorem pack_congr (b : Nat) {l l' : List (BitVec 64)} (h : l.map (fun x => x.toNat % 2 ^ b) = l'.map fun x => x.toNat % 2 ^ b) :
    pack b l = pack b l' := by
  induction l generalizing l' with
  | nil =>
    cases l' with
    | nil => rfl
    | cons => cases h
  | cons x xs ih =>
    cases l' with
    | nil => cases h
    | cons y ys =>
      simp only [List.map_cons, List.cons.injEq] at h
      simp only [pack, h.1, ih h.2]

/-- With backends that give the results of the machine for the entries of an instruction, it means what the machine does. -/
theorem source_entries (fl : Flags) (Pr : Nat → Prop) (op1 : Wrapper.OpId → List (BitVec 64) → BitVec 64)
    (rest : Instr → Nat → List Nat → Nat) (bs : List (Wrapper.Backend σ κ)) (ctx : Nat → κ) (i : Instr)
    (ht : ∀ o, (∃ op t, kind i.op = some op ∧ meaning op t = some o) → Wrapper.emitted ⟨fl.fcmp, fl.fma, fl.cast⟩ o = true →
      ∀ x s, (∀ p, o = .cmp p → ∃ v, Pr v ∧ x.head? = some (BitVec.ofNat 64 v)) →
        (Wrapper.scalar bs ctx o x s).1 = some (op1 o x)) (pred : Nat) (vals : List Nat) (p : P) (s : σ)
    (hw : Asked fl i → Supported i.opTy → WellTyped i)
    (hc : i.op = .fcmp → Pr pred ∧ (∀ t, i.opTy = .scalar t → i.retTy = .scalar (.int 1)) ∧
      ∀ n t, i.opTy = .vec n t → i.retTy = .vec n (.int 1)) :
    (source fl (linked op1 rest bs ctx) i pred vals (p, s)).1 = nativeOf op1 rest i pred vals ∧
      (source fl (linked op1 rest bs ctx) i pred vals (p, s)).2.1 = p := by
  unfold source
  by_cases ha : Asked fl i ∧ Supported i.opTy
  swap
  · rw [if_neg ha]; exact ⟨rfl, rfl⟩
  rw [if_pos ha]
  have h1 := (asked_iff fl i).1 ha.1
  have h2 := (supported_iff i).1 ha.2
  obtain ⟨w, hl, ho, hs⟩ := C39_wrapper fl i (hw ha.1 ha.2) h2 h1
  have hwm : w ∈ wrappers := List.mem_of_find?_eq_some hl
  have hk := kind_mustReplace fl i h1
  rw [← ho] at hk
  rw [wrapperFor_eq i w hwm hk hs]
  dsimp only
  have hlk : ∀ w ∈ wrappers, lookup w.name = some w := by decide +kernel
  have hem : ∀ o, meaning w.op w.ty = some o → Wrapper.emitted ⟨fl.fcmp, fl.fma, fl.cast⟩ o = true := by
    intro o e
    have hA := ha.1
    unfold Asked at hA
    rw [hk] at hA
    revert e hA
    cases w.op <;> cases w.ty <;> simp only [meaning, Option.some.injEq, reduceCtorEq, false_imp_iff] <;>
      (rintro rfl hA; first | rfl | exact hA | exact hA.1)
  have hval : ∀ im, (i.op = .fcmp → im = some pred) → ∀ m : P × σ, m = (p, s) → ∃ o, meaning w.op w.ty = some o ∧
      (wrapperFn bs ctx w.name im vals m).1 = pack (resBits w.op w.ty)
        ((List.range (max 1 w.width)).map fun k => op1 o (laneArgs w.ty.bits im vals k)) ∧
      (wrapperFn bs ctx w.name im vals m).2.1 = p := by
    intro im him m hm
    subst hm
    obtain ⟨o, eo, -⟩ := C89_lanes bs ctx w hwm im vals p s
    refine ⟨o, eo, ?_, ?_⟩
    · simp only [wrapperFn, hlk w hwm, entry_eq, eo]
      have e := lanesFrom_eq (scalarWrapper bs ctx o) w.ty.bits im vals s (max 1 w.width) 0
      simp only [before, Nat.zero_add] at e
      rw [e, List.range_eq_range']
      congr 1
      apply List.map_congr_left
      intro k _
      have hx : ∀ q, o = .cmp q → ∃ v, Pr v ∧ (laneArgs w.ty.bits im vals k).head? = some (BitVec.ofNat 64 v) := by
        intro q hq
        subst hq
        have hcmp : w.op = .cmp := by
          revert eo
          cases w.op <;> cases w.ty <;> simp [meaning]
        have hf : i.op = .fcmp := by
          rw [hcmp] at hk
          revert hk
          cases i.op <;> simp [kind]
          rename_i n
          cases n with
          | none => simp
          | some n => simp
        refine ⟨pred, (hc hf).1, ?_⟩
        rw [him hf]
        rfl
      simp only [scalarWrapper, ht o ⟨_, _, hk, eo⟩ (hem o eo) _ _ hx, Option.getD_some]
    · simp only [wrapperFn, hlk w hwm, entry_eq, eo]
  have hnat : ∀ o, meaning w.op w.ty = some o → nativeOf op1 rest i pred vals =
      pack (if i.op = .fcmp then 1 else resBits w.op w.ty)
        ((List.range (max 1 w.width)).map fun k => op1 o (laneArgs w.ty.bits (immediate i pred) vals k)) := by
    intro o eo
    unfold nativeOf
    rw [hk, ← hs]
    simp only [eo, outBits_eq _ _ _ eo]
  by_cases hf : i.op = .fcmp
  · rw [if_pos hf]
    obtain ⟨o, eo, e1, e2⟩ := hval (some pred) (fun _ => rfl) (p, s) rfl
    refine ⟨?_, e2⟩
    show truncLanes i.retTy (wrapperFn bs ctx w.name (some pred) vals (p, s)).1 = _
    rw [e1, hnat o eo, if_pos hf, show immediate i pred = some pred from if_pos hf]
    have hop : w.op = .cmp := by
      rw [hf] at hk
      exact (Option.some.inj hk).symm
    rw [hop, show resBits .cmp w.ty = 32 from rfl]
    generalize hL : ((List.range (max 1 w.width)).map fun k => op1 o (laneArgs w.ty.bits (some pred) vals k)) = L
    have hlen : L.length = max 1 w.width := by rw [← hL]; simp
    obtain ⟨-, c1, c2⟩ := hc hf
    cases hty : i.opTy with
    | scalar t =>
      rw [c1 t hty]
      rw [hty] at hs
      have hw0 : w.width = 0 := (Prod.mk.inj (Option.some.inj hs)).2
      rw [hw0] at hlen
      match L, hlen with
      | [x], _ =>
        simp only [truncLanes, pack, Nat.mul_zero, Nat.add_zero, Nat.pow_one]
        omega
    | vec n t =>
      rw [c2 n t hty]
      rw [hty] at hs
      have hwn : w.width = n := (Prod.mk.inj (Option.some.inj hs)).2
      have hS := ha.2
      rw [hty] at hS
      have hn1 : max 1 w.width = n := by
        rw [hwn]
        have := hS.1
        omega
      rw [hn1] at hlen
      simp only [truncLanes]
      apply pack_congr
      apply List.ext_getElem
      · simp [hlen]
      · intro k hk1 hk2
        simp only [List.length_map, List.length_range] at hk1
        simp only [List.getElem_map, List.getElem_range]
        rw [lane_pack 32 L k (by omega)]
        have hb : (BitVec.ofNat 64 (L[k].toNat % 2 ^ 32)).toNat = L[k].toNat % 2 ^ 32 := by
          rw [BitVec.toNat_ofNat, Nat.mod_eq_of_lt]
          omega
        rw [hb]
        omega
    | svec n t => rw [hty] at ha; exact ha.2.elim
    | ptr => rw [hty] at ha; exact ha.2.elim
  · rw [if_neg hf]
    obtain ⟨o, eo, e1, e2⟩ := hval none (fun h => absurd h hf) (p, s) rfl
    refine ⟨?_, e2⟩
    show (wrapperFn bs ctx w.name none vals (p, s)).1 = _
    rw [e1, hnat o eo, if_neg hf, show immediate i pred = none from if_neg hf]

/-- With transparent backends an instruction means what the machine does. -/
theorem source_native (fl : Flags) (Pr : Nat → Prop) (op1 : Wrapper.OpId → List (BitVec 64) → BitVec 64)
    (rest : Instr → Nat → List Nat → Nat) (bs : List (Wrapper.Backend σ κ)) (ctx : Nat → κ)
    (ht : Transparent fl Pr op1 bs ctx) (i : Instr) (pred : Nat) (vals : List Nat) (p : P) (s : σ)
    (hw : Asked fl i → Supported i.opTy → WellTyped i)
    (hc : i.op = .fcmp → Pr pred ∧ (∀ t, i.opTy = .scalar t → i.retTy = .scalar (.int 1)) ∧
      ∀ n t, i.opTy = .vec n t → i.retTy = .vec n (.int 1)) :
    (source fl (linked op1 rest bs ctx) i pred vals (p, s)).1 = nativeOf op1 rest i pred vals ∧
      (source fl (linked op1 rest bs ctx) i pred vals (p, s)).2.1 = p :=
  source_entries fl Pr op1 rest bs ctx i (fun o _ => ht o) pred vals p s hw hc

/-- Two states a program cannot tell apart. -/
def Alike (s s' : State (P × σ)) : Prop := s.env = s'.env ∧ s.mem.1 = s'.mem.1

theorem run_alike (fl : Flags) (Pr : Nat → Prop) (op1 : Wrapper.OpId → List (BitVec 64) → BitVec 64)
    (rest : Instr → Nat → List Nat → Nat) (bs : List (Wrapper.Backend σ κ)) (ctx : Nat → κ)
    (ht : Transparent fl Pr op1 bs ctx) (F : Func (P × σ)) (hb : Blind F) (hcm : CmpTyped Pr F)
    (hw : ∀ id i pred args, .fp id i pred args ∈ F.all → Asked fl i → Supported i.opTy → WellTyped i) :
    ∀ n s s' cur, Alike s s' →
      Alike (run (sourceExec fl (linked op1 rest bs ctx)) F n (s, cur)).1 (run (exec (linked op1 rest bs ctx)) F n (s', cur)).1 ∧
      (run (sourceExec fl (linked op1 rest bs ctx)) F n (s, cur)).2 = (run (exec (linked op1 rest bs ctx)) F n (s', cur)).2 := by
  have hstep : ∀ ins ∈ F.all, ∀ s s', Alike s s' →
      Alike (sourceExec fl (linked op1 rest bs ctx) s ins) (exec (linked op1 rest bs ctx) s' ins) := by
    rintro ins hi ⟨e, k, p, t⟩ ⟨e', k', p', t'⟩ ⟨h1, h2⟩
    dsimp only at h1 h2
    subst h1 h2
    rcases hb.fresh ins hi with ⟨id, i, pred, args, rfl⟩ | ⟨id, args, f, rfl⟩
    · obtain ⟨k1, k2⟩ := source_native fl Pr op1 rest bs ctx ht i pred (args.map e) p t (hw id i pred args hi)
        (hcm id i pred args hi)
      refine ⟨?_, k2⟩
      funext n
      simp only [sourceExec, exec, State.set, k1]
      rfl
    · obtain ⟨k1, k2⟩ := hb.other id args f hi (args.map e) p t t'
      refine ⟨?_, k2⟩
      funext n
      simp only [sourceExec, exec, State.set, k1]
  have hfold : ∀ l : List (Ins (P × σ)), (∀ ins ∈ l, ins ∈ F.all) → ∀ s s', Alike s s' →
      Alike (l.foldl (sourceExec fl (linked op1 rest bs ctx)) s) (l.foldl (exec (linked op1 rest bs ctx)) s') := by
    intro l
    induction l with
    | nil => intro _ s s' h; exact h
    | cons a l ih =>
      intro hl s s' h
      exact ih (fun b hb => hl b (by simp [hb])) _ _ (hstep a (hl a (by simp)) s s' h)
  intro n
  induction n with
  | zero => intro s s' cur h; exact ⟨h, rfl⟩
  | succ n ih =>
    intro s s' cur h
    simp only [run]
    cases hbb : cur.bind fun b => F.blocks[b]? with
    | none => exact ⟨h, rfl⟩
    | some b =>
      have hbm : b ∈ F.blocks := by
        cases cur with
        | none => cases hbb
        | some k => exact List.mem_of_getElem? hbb
      have hf := hfold b.body (fun ins hi => mem_all hbm hi) s s' h
      dsimp only
      simp only [runBlock]
      generalize b.body.foldl (sourceExec fl (linked op1 rest bs ctx)) s = s₁ at *
      generalize b.body.foldl (exec (linked op1 rest bs ctx)) s' = s₂ at *
      obtain ⟨e, k, p, t⟩ := s₁
      obtain ⟨e', k', p', t'⟩ := s₂
      obtain ⟨h1, h2⟩ := hf
      dsimp only at h1 h2
      subst h1 h2
      obtain ⟨k1, k2⟩ := hb.next b hbm (b.uses.map e) p t t'
      dsimp only
      rw [k1]
      exact ih _ _ _ ⟨rfl, k2⟩

/-- **C89** With backends that give the results of the machine, an instrumented function does to the
memory of the program what the function did before instrumentation, and takes the same branches,
whatever the states of the backends.  Partial as `C89_refines_partial`. -/
theorem C89_transparent_partial (sig : String → Sig) (fl : Flags) (Pr : Nat → Prop)
    (op1 : Wrapper.OpId → List (BitVec 64) → BitVec 64)
    (rest : Instr → Nat → List Nat → Nat) (bs : List (Wrapper.Backend σ κ)) (ctx : Nat → κ)
    (ht : Transparent fl Pr op1 bs ctx) (F F' : Func (P × σ)) (order : List Nat) (hF : Source sig fl F) (hb : Blind F)
    (hcm : CmpTyped Pr F) (hp : order.Perm (workList fl F)) (h : replaceAll sig fl F order = .ok F')
    (k : Nat) (hk : ∀ ins ∈ F.all, k ≤ ins.name) (hkF : k ≤ F.fresh) (param : Nat → Nat) (p : P) (s s' : σ) (n : Nat)
    (cur : Option Nat) :
    let S := linked op1 rest bs ctx
    (run (exec S) F' n (enter k param (p, s), cur)).1.mem.1 = (run (exec S) F n (enter k param (p, s'), cur)).1.mem.1 ∧
      (run (exec S) F' n (enter k param (p, s), cur)).2 = (run (exec S) F n (enter k param (p, s'), cur)).2 := by
  obtain ⟨a1, a2⟩ := C89_observed_partial sig fl (linked op1 rest bs ctx) F F' order hF hp h k hk hkF param (p, s) n cur
  obtain ⟨b1, b2⟩ := run_alike fl Pr op1 rest bs ctx ht F hb hcm (fun id i pred args h1 h2 h3 => (hF.typed id i pred args h1 h2 h3).1)
    n (enter k param (p, s)) (enter k param (p, s')) cur ⟨rfl, rfl⟩
  exact ⟨by rw [a1]; exact b1.2, by rw [a2]; exact b2⟩

/-! ## MCA in ieee mode -/

open Fp Mca

/-- IEEE-754 arithmetic on bit patterns. -/
def ieee : Wrapper.OpId → List (BitVec 64) → BitVec 64
  | .arith .add p, x => image (mcaTy p).fmt (fadd (mcaTy p).fmt (operand (mcaTy p).fmt x 0) (operand (mcaTy p).fmt x 1))
  | .arith .sub p, x =>
    image (mcaTy p).fmt (fadd (mcaTy p).fmt (operand (mcaTy p).fmt x 0) (fneg (operand (mcaTy p).fmt x 1)))
  | .arith .mul p, x => image (mcaTy p).fmt (fmul (mcaTy p).fmt (operand (mcaTy p).fmt x 0) (operand (mcaTy p).fmt x 1))
  | .arith .div p, x => image (mcaTy p).fmt (fdiv (mcaTy p).fmt (operand (mcaTy p).fmt x 0) (operand (mcaTy p).fmt x 1))
  | .cast, x => image b32 (fconv b64 b32 (operand b64 x 0))
  | .fma p, x => image (mcaTy p).fmt
      (ffma (mcaTy p).fmt (operand (mcaTy p).fmt x 0) (operand (mcaTy p).fmt x 1) (operand (mcaTy p).fmt x 2))
  | .cmp _, _ => 0

theorem operand_wf (F : Fmt) (x : List (BitVec 64)) (k : Nat) : (operand F x k).WF F :=
  ⟨Nat.mod_lt _ (Nat.two_pow_pos _), Nat.mod_lt _ (Nat.two_pow_pos _)⟩

/-- MCA in ieee mode, loaded last, gives the results of IEEE-754 arithmetic, whatever the other
backends. -/
theorem mca_transparent (noise : Fmt → Ctx → Int → σ → Bits → Outcome (Bits × σ)) (g : Gen σ) (c : Ctx)
    (hm : c.mode = .ieee) (hd : c.daz = false) (hf : c.ftz = false) (bs : List (Wrapper.Backend σ κ)) (ctx : Nat → κ)
    (fl : Flags) (h1 : fl.fcmp = false) (h2 : fl.fma = false) :
    Transparent fl (fun _ => True) ieee (bs ++ [mcaBackend noise g c]) ctx := by
  intro o ho x s _
  have wf := fun F k => operand_wf F x k
  rcases o with ⟨a, p⟩ | p | p | _
  · have key : ∀ (cc : Option (BitVec 64)) (s : σ),
        (store (mcaTy p).fmt cc s (opN (mcaTy p) (inexact noise g (mcaTy p).wide c (c.prec (mcaTy p)))
          (mcaFun a (mcaTy p).wide) c s [operand (mcaTy p).fmt x 0, operand (mcaTy p).fmt x 1])) =
          (some (ieee (.arith a p) x), s) := by
      intro cc s
      cases a
      · simp only [mcaFun, C57_add noise g (mcaTy p) c hm hd hf s _ _ (wf _ _) (wf _ _)]; rfl
      · simp only [mcaFun, C57_sub noise g (mcaTy p) c hm hd hf s _ _ (wf _ _) (wf _ _)]; rfl
      · simp only [mcaFun, C57_mul noise g (mcaTy p) c hm hd hf s _ _ (wf _ _) (wf _ _)]; rfl
      · simp only [mcaFun, C57_div noise g (mcaTy p) c hm hd hf s _ _ (wf _ _) (wf _ _)]; rfl
    rw [Wrapper.C30_last bs [] _ ctx _ x s _ rfl (fun c1 c2 s => by simp only [key]) (by simp)]
    rw [key]
  · simp [Wrapper.emitted, h1] at ho
  · simp [Wrapper.emitted, h2] at ho
  · have key : ∀ (cc : Option (BitVec 64)) (s : σ),
        store b32 cc s (castOp (inexact noise g b128 c (c.prec .f64)) c s (operand b64 x 0)) = (some (ieee .cast x), s) := by
      intro cc s
      rw [C57_cast noise g c hm hd hf s _ (wf _ _)]; rfl
    rw [Wrapper.C30_last bs [] _ ctx _ x s _ rfl (fun c1 c2 s => by simp only [key]) (by simp)]
    rw [key]

/-- **C89** A function compiled with Verificarlo, with or without `--inst-cast`, and run with MCA in ieee
mode computes what the function compiled without Verificarlo computes on a machine with IEEE-754
arithmetic. -/
theorem C89_ieee_partial (sig : String → Sig) (cast : Bool) (rest : Instr → Nat → List Nat → Nat)
    (noise : Fmt → Ctx → Int → σ → Bits → Outcome (Bits × σ)) (g : Gen σ) (c : Ctx)
    (hm : c.mode = .ieee) (hd : c.daz = false) (hf : c.ftz = false) (ctx : Nat → κ)
    (F F' : Func (P × σ)) (order : List Nat) (hF : Source sig ⟨false, false, cast⟩ F) (hb : Blind F)
    (hcm : CmpTyped (fun _ => True) F) (hp : order.Perm (workList ⟨false, false, cast⟩ F))
    (h : replaceAll sig ⟨false, false, cast⟩ F order = .ok F')
    (k : Nat) (hk : ∀ ins ∈ F.all, k ≤ ins.name) (hkF : k ≤ F.fresh) (param : Nat → Nat) (p : P) (s s' : σ) (n : Nat)
    (cur : Option Nat) :
    let S : Sem (P × σ) := linked ieee rest [mcaBackend noise g c] ctx
    (run (exec S) F' n (enter k param (p, s), cur)).1.mem.1 = (run (exec S) F n (enter k param (p, s'), cur)).1.mem.1 ∧
      (run (exec S) F' n (enter k param (p, s), cur)).2 = (run (exec S) F n (enter k param (p, s'), cur)).2 :=
  C89_transparent_partial sig ⟨false, false, cast⟩ (fun _ => True) ieee rest [mcaBackend noise g c] ctx
    (mca_transparent noise g c hm hd hf [] ctx _ rfl rfl) F F' order hF hb hcm hp h k hk hkF param p s s' n cur

/-! ## A function -/

/-- `(a + b) * (a + b)`, returned through the memory. -/
def squareOfSum : Func (Nat × Nat) :=
  { blocks := [{ body := [.fp 2 ⟨.fadd, .scalar .double, .scalar .double⟩ 0 [0, 1],
                          .fp 3 ⟨.fmul, .scalar .double, .scalar .double⟩ 0 [2, 2]]
                 uses := [3]
                 next := fun vals m => ((vals.headD 0, m.2), none) }]
    fresh := 4 }

/-- Wrappers of doubles. -/
def doubles : String → Sig := fun _ => ⟨[(.scalar .double, false), (.scalar .double, false)], .scalar .double⟩

theorem squareOfSum_source : Source doubles ⟨false, false, false⟩ squareOfSum where
  named := by
    constructor <;> decide
  ssa := by decide
  arity := by
    intro id i pred args h
    simp only [squareOfSum, Func.all, List.flatMap_cons, List.flatMap_nil, List.append_nil, List.mem_cons,
      Ins.fp.injEq, List.not_mem_nil, or_false] at h
    have h1 : instrument doubles ⟨false, false, false⟩ ⟨.fadd, .scalar .double, .scalar .double⟩ =
        .ok (.replaced "_doubleadd" [.direct, .direct] .call) := by decide +kernel
    have h2 : instrument doubles ⟨false, false, false⟩ ⟨.fmul, .scalar .double, .scalar .double⟩ =
        .ok (.replaced "_doublemul" [.direct, .direct] .call) := by decide +kernel
    rcases h with ⟨-, rfl, -, rfl⟩ | ⟨-, rfl, -, rfl⟩
    · refine ⟨by decide, fun r hr _ => ?_⟩
      rw [h1] at hr; obtain rfl := Outcome.ok.inj hr; rfl
    · refine ⟨by decide, fun r hr _ => ?_⟩
      rw [h2] at hr; obtain rfl := Outcome.ok.inj hr; rfl
  typed := by
    intro id i pred args h _ _
    simp only [squareOfSum, Func.all, List.flatMap_cons, List.flatMap_nil, List.append_nil, List.mem_cons,
      Ins.fp.injEq, List.not_mem_nil, or_false] at h
    rcases h with ⟨-, rfl, -, -⟩ | ⟨-, rfl, -, -⟩
    · exact ⟨rfl, by simp [ReturnsNaturally, doubles]⟩
    · exact ⟨rfl, by simp [ReturnsNaturally, doubles]⟩

theorem squareOfSum_blind : Blind squareOfSum where
  other := by intro id args f h; simp [squareOfSum, Func.all] at h
  next := by
    intro b h vals p s s'
    simp only [squareOfSum, List.mem_singleton] at h
    subst h
    exact ⟨rfl, rfl⟩
  fresh := by
    intro ins h
    simp only [squareOfSum, Func.all, List.flatMap_cons, List.flatMap_nil, List.append_nil, List.mem_cons,
      List.not_mem_nil, or_false] at h
    rcases h with rfl | rfl
    · exact .inl ⟨_, _, _, _, rfl⟩
    · exact .inl ⟨_, _, _, _, rfl⟩

/-- A backend that counts operations, and whose only operations are addition, which gives the first
operand plus 1, and multiplication, which gives the second plus 2. -/
def counting : Wrapper.Backend Nat Unit
  | .arith .add _ => some fun x _ _ s => (some (x.getD 0 0 + 1), s + 1)
  | .arith .mul _ => some fun x _ _ s => (some (x.getD 1 0 + 2), s + 1)
  | _ => none

/-- Replacing the multiplication first: `(a + b)²` becomes `(a + 1) + 2`, with two calls. -/
example : workList ⟨false, false, false⟩ squareOfSum = [2, 3] ∧
    (match replaceAll doubles ⟨false, false, false⟩ squareOfSum [3, 2] with
      | .ok F' => some (run (exec (linked (fun _ _ => 0) (fun _ _ _ => 0) [counting] (fun _ => ()))) F' 1
          (enter 2 (fun n => 10 * n + 7) (0, 0), some 0)).1.mem
      | _ => none) = some (10, 2) ∧
    (run (sourceExec ⟨false, false, false⟩ (linked (fun _ _ => 0) (fun _ _ _ => 0) [counting] (fun _ => ()))) squareOfSum 1
          (enter 2 (fun n => 10 * n + 7) (0, 0), some 0)).1.mem = (10, 2) := by
  decide +kernel

/-- `C89_ieee_partial` on this function: `(1 + 2)² = 9`. -/
example : (run (exec (linked ieee (fun _ _ _ => 0) ([] : List (Wrapper.Backend Nat Unit)) (fun _ => ()))) squareOfSum 1
    (enter 2 (fun n => if n = 0 then 0x3ff0000000000000 else 0x4000000000000000) (0, 0), some 0)).1.mem.1 =
      0x4022000000000000 := by decide +kernel

/-- Lanes of a vector of two floats. -/
example : (wrapperFn (P := Unit) [counting] (fun _ => ()) "_2xfloatadd" none [0x500000003, 0] ((), 0)) =
    (0x600000004, ((), 2)) := by decide +kernel

/-! ## Where it fails -/

/-- A function with one addition of `<2 x float>`, its result returned through the memory. -/
def pairSum : Func Nat :=
  { blocks := [{ body := [.fp 2 ⟨.fadd, .vec 2 .float, .vec 2 .float⟩ 0 [0, 1]]
                 uses := [2]
                 next := fun vals _ => (vals.headD 0, none) }]
    fresh := 3 }

/-- **C89** is false of small vectors on x86-64, where a `<2 x float>` is passed and returned as a `double`:
whatever the wrapper answers, the instrumented function returns the result of the machine. -/
theorem C89_coerced_wrong (fl : Flags) : ∃ F', replaceAll doubles fl pairSum (workList fl pairSum) = .ok F' ∧
    ∀ (S : Sem Nat) (param : Nat → Nat) (m : Nat),
      (run (exec S) F' 1 (enter 2 param m, some 0)).1.mem =
        S.native ⟨.fadd, .vec 2 .float, .vec 2 .float⟩ 0 [param 0, param 1] ∧
      (run (sourceExec fl S) pairSum 1 (enter 2 param m, some 0)).1.mem =
        (S.wrapper "_2xfloatadd" none [param 0, param 1] m).1 := by
  have hi : ∀ a b c, instrument doubles ⟨a, b, c⟩ ⟨.fadd, .vec 2 .float, .vec 2 .float⟩ =
      .ok (.dead "_2xfloatadd" [.bitcast, .bitcast]) := by decide +kernel
  have hw : wrapperFor ⟨.fadd, .vec 2 .float, .vec 2 .float⟩ = some ⟨"_2xfloatadd", .add, .float, 2⟩ := by decide +kernel
  have hfl := hi fl.fcmp fl.fma fl.cast
  have hl : workList fl pairSum = [2] := rfl
  rw [hl]
  simp only [replaceAll, replaceOne, findFp, pairSum, List.flatMap_cons, List.flatMap_nil, List.append_nil,
    List.findSome?_cons, if_true, hfl, Outcome.bind_ok, expand]
  refine ⟨_, rfl, ?_⟩
  intro S param m
  refine ⟨rfl, ?_⟩
  have ha : Asked fl ⟨.fadd, .vec 2 .float, .vec 2 .float⟩ ∧ Supported (.vec 2 .float) := by
    refine ⟨trivial, ?_⟩; decide
  simp only [run, runBlock, sourceExec, source, hw, if_pos ha, Option.bind_some, List.getElem?_cons_zero,
    List.foldl_cons, List.foldl_nil]
  rfl

/-- A loop with one multiplication of `<8 x double>`. -/
def productLoop : Func Nat :=
  { blocks := [{ body := [.fp 2 ⟨.fmul, .vec 8 .double, .vec 8 .double⟩ 0 [0, 1]]
                 uses := [2]
                 next := fun vals _ => (vals.headD 0, some 0) }]
    fresh := 3 }

/-- Wrappers of large vectors where the registers are too small: operands are passed by reference to a
copy. -/
def byReference : String → Sig := fun _ => ⟨[(.ptr, true), (.ptr, true)], .vec 8 .double⟩

/-- **C89** does not extend to the stack: copies of operands are allocated where the operation is and not at
the entry of the function, so that every execution of the operation takes 128 bytes more, released
only when the function returns. -/
theorem C89_stack_wrong (fl : Flags) : ∃ F', replaceAll byReference fl productLoop (workList fl productLoop) = .ok F' ∧
    ∀ (S : Sem Nat) (s : State Nat) (n : Nat),
      (run (exec S) productLoop n (s, some 0)).1.stack = s.stack ∧
      (run (exec S) F' n (s, some 0)).1.stack = s.stack + 1024 * n := by
  have hi : ∀ a b c, instrument byReference ⟨a, b, c⟩ ⟨.fmul, .vec 8 .double, .vec 8 .double⟩ =
      .ok (.replaced "_8xdoublemul" [.byval, .byval] .call) := by decide +kernel
  have hfl := hi fl.fcmp fl.fma fl.cast
  have hl : workList fl productLoop = [2] := rfl
  rw [hl]
  simp only [replaceAll, replaceOne, findFp, productLoop, List.flatMap_cons, List.flatMap_nil, List.append_nil,
    List.findSome?_cons, if_true, hfl, Outcome.bind_ok, expand]
  refine ⟨_, rfl, ?_⟩
  intro S s n
  induction n generalizing s with
  | zero => exact ⟨rfl, rfl⟩
  | succ n ih =>
    simp only [run, Option.bind_some, List.getElem?_cons_zero, List.map_cons, List.map_nil]
    refine ⟨(ih _).1, ?_⟩
    refine ((ih _).2).trans ?_
    show s.stack + 512 + 512 + 1024 * n = _
    omega

end Verif.Pass
