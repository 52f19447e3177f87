import Verif.Pass.Replace
import Mathlib.Tactic.Tauto
import Mathlib.Tactic.Cases

/-!
# Replacement of instructions: C39, C59
-/

namespace Verif.Pass

/-- What LLVM's verifier guarantees of an instruction: comparisons give an integer of one bit per
element, the fused multiply-add intrinsics work on the type of their name, arithmetic keeps the
type. -/
def WellTyped (i : Instr) : Prop :=
  match i.op with
  | .call (some "llvm.fmuladd.f32") => i.opTy = .scalar .float ∧ i.retTy = .scalar .float
  | .call (some "llvm.fma.f32") => i.opTy = .scalar .float ∧ i.retTy = .scalar .float
  | .call (some "llvm.fmuladd.f64") => i.opTy = .scalar .double ∧ i.retTy = .scalar .double
  | .call (some "llvm.fma.f64") => i.opTy = .scalar .double ∧ i.retTy = .scalar .double
  | .fadd => i.retTy = i.opTy
  | .fsub => i.retTy = i.opTy
  | .fmul => i.retTy = i.opTy
  | .fdiv => i.retTy = i.opTy
  | _ => True

/-- Element type and number of elements (0 for a scalar) of a type. -/
def Ty.shape : Ty → Option (STy × Nat)
  | .scalar t => some (t, 0)
  | .vec n t => some (t, n)
  | _ => none

theorem valid_shape (i : Instr) (h : isValidInstruction i = some true) :
    ∃ t w, i.opTy.shape = some (t, w) ∧ (t = .float ∨ t = .double) ∧ (w = 0 ∨ w = 2 ∨ w = 4 ∨ w = 8 ∨ w = 16) ∧
      (w = 0 → i.opTy = .scalar t) ∧ (w ≠ 0 → i.opTy = .vec w t) := by
  unfold isValidInstruction at h
  have hs : ∀ t, isValidScalar t = true → t = .float ∨ t = .double := by
    intro t; cases t <;> simp [isValidScalar, validTypesMap]
  split at h
  · next t ht =>
    simp only [Option.some.injEq] at h
    exact ⟨t, 0, by simp [ht, Ty.shape], hs t h, by simp, fun _ => ht, fun h => absurd rfl h⟩
  · next n t ht =>
    simp only [Option.some.injEq, Bool.and_eq_true] at h
    have hn : n = 2 ∨ n = 4 ∨ n = 8 ∨ n = 16 := by simpa [validVectorSizes] using h.1
    exact ⟨t, n, by simp [ht, Ty.shape], hs t h.2, by simp [hn], by rintro rfl; simp at hn, fun _ => ht⟩
  · cases h
  · cases h

/-- **C39** Every instruction the pass decides to replace, whatever the options, has a wrapper for
its operation, element type and number of elements. -/
theorem C39_wrapper (fl : Flags) (i : Instr) (hw : WellTyped i)
    (hv : isValidInstruction i = some true) (hr : mustReplace fl i ≠ .ignore) :
    ∃ w, lookup (mcaName i (mustReplace fl i)) = some w ∧ w.op = mustReplace fl i ∧
      some (w.ty, w.width) = i.opTy.shape := by
  obtain ⟨op, opTy, retTy⟩ := i
  obtain ⟨t, w, hs, ht, hwd, h0, h1⟩ := valid_shape _ hv
  have hty : opTy = .scalar t ∧ w = 0 ∨ opTy = .vec w t ∧ w ≠ 0 := by
    by_cases h : w = 0
    · exact .inl ⟨h0 h, h⟩
    · exact .inr ⟨h1 h, h⟩
  clear h0 h1 hs
  have arithCase : ∀ o : FPOp, o = .add ∨ o = .sub ∨ o = .mul ∨ o = .div ∨ o = .cmp →
      ∃ v, lookup (mcaName ⟨op, opTy, retTy⟩ o) = some v ∧ v.op = o ∧
        some (v.ty, v.width) = opTy.shape := by
    intro o ho
    rcases hty with ⟨rfl, rfl⟩ | ⟨rfl, hne⟩
    · rcases ht with rfl | rfl <;> rcases ho with rfl | rfl | rfl | rfl | rfl <;>
        exact ⟨_, rfl, rfl, rfl⟩
    · rcases hwd with rfl | rfl | rfl | rfl | rfl
      · exact absurd rfl hne
      all_goals
        rcases ht with rfl | rfl <;> rcases ho with rfl | rfl | rfl | rfl | rfl <;>
          exact ⟨_, rfl, rfl, rfl⟩
  cases op with
  | other => exact absurd rfl hr
  | fadd => exact arithCase .add (by simp)
  | fsub => exact arithCase .sub (by simp)
  | fmul => exact arithCase .mul (by simp)
  | fdiv => exact arithCase .div (by simp)
  | fcmp =>
    have hm : mustReplace fl ⟨.fcmp, opTy, retTy⟩ = .cmp := by
      simp only [mustReplace] at hr ⊢; split at hr <;> simp_all
    rw [hm]; exact arithCase .cmp (by simp)
  | fptrunc =>
    have hm : mustReplace fl ⟨.fptrunc, opTy, retTy⟩ = .cast ∧
        isValidCastOperation ⟨.fptrunc, opTy, retTy⟩ = true := by
      simp only [mustReplace] at hr ⊢; split at hr <;> simp_all
    rw [hm.1]
    have hc := hm.2
    simp only [isValidCastOperation, Bool.and_eq_true, beq_iff_eq] at hc
    obtain ⟨rfl, rfl⟩ := hc
    exact ⟨_, rfl, rfl, rfl⟩
  | call callee =>
    have hm : mustReplace fl ⟨.call callee, opTy, retTy⟩ = .fma ∧ isFMAOperation callee = true := by
      simp only [mustReplace] at hr ⊢; split at hr <;> simp_all
    rw [hm.1]
    have hc := hm.2
    cases callee with
    | none => cases hc
    | some name =>
      simp only [isFMAOperation, Bool.or_eq_true, beq_iff_eq] at hc
      rcases hc with ((rfl | rfl) | rfl) | rfl <;>
        (obtain ⟨rfl, rfl⟩ := hw; exact ⟨_, rfl, rfl, rfl⟩)

/-- The wrapper found is the only one of that name. -/
theorem C39_unique : (wrappers.map (·.name)).Nodup := by decide +kernel

example : lookup (mcaName ⟨.fcmp, .vec 16 .double, .vec 16 (.int 1)⟩ .cmp)
    = some ⟨"_16xdoublecmp", .cmp, .double, 16⟩ := by decide +kernel

/-! ## Replacement -/

/-- The wrapper returns what the instruction does; for a comparison, `int`s. -/
def ReturnsNaturally (sig : String → Sig) (fl : Flags) (i : Instr) : Prop :=
  let s := sig (mcaName i (mustReplace fl i))
  if i.op = .fcmp then
    (i.retTy = .scalar (.int 1) ∧ s.ret = .scalar (.int 32)) ∨
      ∃ n, i.retTy = .vec n (.int 1) ∧ s.ret = .vec n (.int 32)
  else s.ret = i.retTy

/-- **C59** An instruction of a supported type that the options ask for is replaced by the
value of a call to its wrapper, if the wrapper returns the type of the instruction. -/
theorem C59_replaced_partial (sig : String → Sig) (fl : Flags) (i : Instr) (hw : WellTyped i)
    (hv : isValidInstruction i = some true) (hr : mustReplace fl i ≠ .ignore)
    (hs : ReturnsNaturally sig fl i) :
    ∃ ops v, instrument sig fl i = .ok (.replaced (mcaName i (mustReplace fl i)) ops v) ∧
      (v = .trunc ↔ i.op = .fcmp) ∧ v ≠ .bitcast := by
  obtain ⟨w, hl, hop, -⟩ := C39_wrapper fl i hw hv hr
  unfold instrument
  simp only [if_neg hr]
  unfold replace
  rw [hv]
  simp only [hl]
  by_cases hc : mustReplace fl i = .cmp
  · have hi : i.op = .fcmp := by
      unfold mustReplace at hc
      split at hc <;> first | assumption | (first | cases hc | (split at hc <;> cases hc))
    have hs' := hs
    unfold ReturnsNaturally at hs'
    simp only [if_pos hi] at hs'
    rw [hc] at hs' ⊢
    have hcast : intCastable (sig (mcaName i .cmp)).ret i.retTy = true := by
      rcases hs' with ⟨h1, h2⟩ | ⟨n, h1, h2⟩ <;> rw [h1, h2] <;> simp [intCastable]
    simp only [hcast, if_true]
    exact ⟨_, _, rfl, by simp [hi], by simp⟩
  · have hi : i.op ≠ .fcmp := by
      intro hi
      apply hc
      unfold mustReplace at hr ⊢
      rw [hi] at hr ⊢
      simp only at hr ⊢
      split at hr
      · rw [if_pos (by assumption)]
      · exact absurd rfl hr
    have hs' := hs
    unfold ReturnsNaturally at hs'
    simp only [if_neg hi] at hs'
    have hu : updateReturn (sig (mcaName i (mustReplace fl i))).ret i.retTy = .call := by
      simp [updateReturn, hs']
    generalize mustReplace fl i = o at *
    cases o with
    | cmp => exact absurd rfl hc
    | _ => simp only [hu, dynCastCall]; exact ⟨_, _, rfl, by simp [hi], by simp⟩

/-- **C59** Everything else is left alone. -/
theorem C59_kept (sig : String → Sig) (fl : Flags) (i : Instr)
    (h : mustReplace fl i = .ignore ∨ isValidInstruction i = some false) :
    instrument sig fl i = .ok .kept := by
  unfold instrument
  simp only []
  split
  · rfl
  · next hne =>
    rcases h with h | h
    · exact absurd h hne
    · unfold replace; rw [h]

/-- **C59** is false when the compiler returns a small vector in a register of another type
(on x86-64 `<2 x float>` is returned as `double`): the wrapper is called but its result is not
used, and the original instruction is kept. -/
theorem C59_coerced_wrong (sig : String → Sig) (fl : Flags) (ty : STy) (n : Nat) (op : Opcode)
    (hop : op = .fadd ∨ op = .fsub ∨ op = .fmul ∨ op = .fdiv)
    (hv : isValidInstruction ⟨op, .vec n ty, .vec n ty⟩ = some true)
    (hs : ∀ name, (sig name).ret ≠ .vec n ty ∧ (sig name).ret.bits = some (n * ty.bits)) :
    ∃ ops, instrument sig fl ⟨op, .vec n ty, .vec n ty⟩
      = .ok (.dead (mcaName ⟨op, .vec n ty, .vec n ty⟩ (mustReplace fl ⟨op, .vec n ty, .vec n ty⟩)) ops) := by
  have hw : WellTyped ⟨op, .vec n ty, .vec n ty⟩ := by
    rcases hop with rfl | rfl | rfl | rfl <;> rfl
  have hr : mustReplace fl ⟨op, .vec n ty, .vec n ty⟩ ≠ .ignore := by
    rcases hop with rfl | rfl | rfl | rfl <;> simp [mustReplace]
  have hc : mustReplace fl ⟨op, .vec n ty, .vec n ty⟩ ≠ .cmp := by
    rcases hop with rfl | rfl | rfl | rfl <;> simp [mustReplace]
  obtain ⟨w, hl, -, -⟩ := C39_wrapper fl _ hw hv hr
  unfold instrument
  simp only [if_neg hr]
  unfold replace
  rw [hv]
  simp only [hl]
  have hu : updateReturn (sig (mcaName ⟨op, .vec n ty, .vec n ty⟩
      (mustReplace fl ⟨op, .vec n ty, .vec n ty⟩))).ret (.vec n ty) = .bitcast := by
    obtain ⟨h1, h2⟩ := hs (mcaName ⟨op, .vec n ty, .vec n ty⟩
      (mustReplace fl ⟨op, .vec n ty, .vec n ty⟩))
    unfold updateReturn isBitCastable
    rw [if_pos (Ne.symm h1), h2]
    simp [Ty.bits]
  generalize mustReplace fl ⟨op, .vec n ty, .vec n ty⟩ = o at *
  cases o with
  | cmp => exact absurd rfl hc
  | _ => simp only [hu, dynCastCall]; exact ⟨_, rfl⟩

/-- The case of x86-64. -/
example : instrument (fun _ => ⟨[(.scalar .double, false), (.scalar .double, false)], .scalar .double⟩)
    ⟨false, false, false⟩ ⟨.fadd, .vec 2 .float, .vec 2 .float⟩
      = .ok (.dead "_2xfloatadd" [.bitcast, .bitcast]) := by decide +kernel

/-- **C59** is false of comparisons of such vectors: the result of the wrapper is not an
integer. -/
theorem C59_cmp_wrong (sig : String → Sig) (fl : Flags) (hf : fl.fcmp = true)
    (hs : (sig "_2xfloatcmp").ret = .scalar .double) :
    instrument sig fl ⟨.fcmp, .vec 2 .float, .vec 2 (.int 1)⟩ = .ub := by
  have hm : mustReplace fl ⟨.fcmp, .vec 2 .float, .vec 2 (.int 1)⟩ = .cmp := by
    simp [mustReplace, hf]
  have hn : mcaName ⟨.fcmp, .vec 2 .float, .vec 2 (.int 1)⟩ .cmp = "_2xfloatcmp" := by
    decide +kernel
  have hl : lookup "_2xfloatcmp" = some ⟨"_2xfloatcmp", .cmp, .float, 2⟩ := by decide +kernel
  have hv : isValidInstruction ⟨.fcmp, .vec 2 .float, .vec 2 (.int 1)⟩ = some true := by
    decide
  unfold instrument
  simp only [hm]
  unfold replace
  simp only [hv, hn, hl, hs]
  rfl

/-- Type of the value passed for an operand. -/
def Operand.ty (opTy : Ty) (arg : Ty × Bool) : Operand → Ty
  | .direct => opTy
  | .bitcast => arg.1
  | .byval => .ptr

/-- **C59** Operands are passed with the type of the parameter, for every parameter that has the
type of the operand, its size, or is a pointer to a copy. -/
theorem C59_operands (opTy : Ty) (arg : Ty × Bool)
    (h : arg.1 = opTy ∨ (∃ b, opTy.bits = some b ∧ arg.1.bits = some b) ∨
      (arg.1 = .ptr ∧ arg.2 = true)) :
    (updateOperand opTy arg).ty opTy arg = arg.1 := by
  unfold updateOperand
  split
  · next hne =>
    split
    · rfl
    · next hb =>
      rcases h with h | ⟨b, h1, h2⟩ | ⟨h1, h2⟩
      · exact absurd h.symm hne
      · exact absurd (by simp [isBitCastable, h1, h2]) hb
      · rw [if_pos (by simp [h1, h2])]; simp [Operand.ty, h1]
  · next he => simp only [ne_eq, Decidable.not_not] at he; simp [Operand.ty, he]

example : (updateOperand (.vec 8 .double) (.ptr, true)).ty (.vec 8 .double) (.ptr, true) = .ptr := by
  decide

example : instrument (fun _ => ⟨[(.vec 4 .double, false), (.vec 4 .double, false)], .vec 4 .double⟩)
    ⟨false, false, false⟩ ⟨.fmul, .vec 4 .double, .vec 4 .double⟩
      = .ok (.replaced "_4xdoublemul" [.direct, .direct] .call) := by decide +kernel

/-- Three elements: not replaced. -/
example : instrument (fun _ => ⟨[], .scalar .double⟩) ⟨true, true, true⟩
    ⟨.fmul, .vec 3 .double, .vec 3 .double⟩ = .ok .kept := by decide +kernel

/-- **C59** Which instructions are candidates: the four arithmetic operations always; comparisons
with `--inst-fcmp` only; calls with `--inst-fma` and a fused multiply-add intrinsic as callee
only; conversions with `--inst-cast` and from double to float only. -/
theorem C59_candidates (fl : Flags) (i : Instr) :
    mustReplace fl i ≠ .ignore ↔
      i.op = .fadd ∨ i.op = .fsub ∨ i.op = .fmul ∨ i.op = .fdiv ∨
      (fl.fcmp = true ∧ i.op = .fcmp) ∨
      (fl.fma = true ∧ (i.op = .call (some "llvm.fmuladd.f32") ∨ i.op = .call (some "llvm.fmuladd.f64") ∨
        i.op = .call (some "llvm.fma.f32") ∨ i.op = .call (some "llvm.fma.f64"))) ∨
      (fl.cast = true ∧ i.op = .fptrunc ∧ i.opTy = .scalar .double ∧ i.retTy = .scalar .float) := by
  obtain ⟨op, opTy, retTy⟩ := i
  obtain ⟨a, b, c⟩ := fl
  cases op with
  | call callee =>
    cases callee with
    | none => simp [mustReplace, isFMAOperation]
    | some n =>
      cases b <;> simp [mustReplace, isFMAOperation]
      all_goals tauto
  | fcmp => simp [mustReplace]
  | fptrunc => simp [mustReplace, isValidCastOperation]
  | _ => simp [mustReplace]

example : mustReplace ⟨true, false, true⟩ ⟨.call (some "llvm.fma.f64"), .scalar .double, .scalar .double⟩
    = .ignore := by decide

end Verif.Pass
