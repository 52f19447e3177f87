import Verif.Prism.ChoiceProps

/-!
# C80: types of the calls

* `C80_typed_partial`: when the function of the library has the type the pass expects, the call is
  well typed and its value has the type of the instruction.
* `C80_f32x2_wrong`, `C80_byval_wrong`: it is not when the compiler of the library passes two
  `float`s as a vector, or a vector through memory.
-/

namespace Verif.Prism
open Verif.Pass (STy Ty Opcode Instr)

/-- Type of the argument for an operand of type `ty`. -/
def passedType (ty : Ty) : Operand → Ty
  | .direct => ty
  | .cast => .scalar .double
  | .slot => .ptr

/-- The call is well typed, for an instruction whose operands and result have type `ty`: arguments
are parameters, casts are between types of the same size, and the result has type `ty`. -/
structure CallTyped (ty : Ty) (p : Plan) : Prop where
  args : p.operands.map (passedType ty) ++ (if p.ret = .slot then [.ptr] else []) = p.sig.params
  casts : Operand.cast ∈ p.operands ∨ p.ret = .cast → ty = .vec 2 .float
  result : match p.ret with
    | .direct => p.sig.ret = some ty
    | .cast => p.sig.ret = some (.scalar .double)
    | .slot => True

/-- How the compiler of the library passes a value: two `float`s as one `double`
(the convention of x86-64). -/
def coerced (ty : Ty) : Ty := if ty = .vec 2 .float then .scalar .double else ty

/-- The type the pass expects. -/
def Expected (op : FOp) (ty : Ty) (p : Passing) (s : Sig) : Prop :=
  match p with
  | .byValue => s.params = List.replicate (operandCount op) (coerced ty) ∧ s.ret = some (coerced ty)
  | .byPointer => isVector ty = true ∧ s.params = List.replicate (operandCount op + 1) .ptr

theorem take_replicate_succ (n : Nat) (t : Ty) : (List.replicate (n + 1) t).take n = List.replicate n t := by
  rw [List.take_replicate]
  congr 1
  omega

/-- C80.  The call is well typed if the function has the type expected.  Missing: other types. -/
theorem C80_typed_partial (op : FOp) (ty : Ty) (F : PrismFunction) (h : Expected op ty F.passing F.fn.sig) :
    ∃ p, planCall op ty F = .ok p ∧ CallTyped ty p := by
  obtain ⟨fn, p⟩ := F
  unfold planCall
  unfold Expected at h
  rw [← arity_eq] at h
  dsimp only at h ⊢
  cases p with
  | byPointer =>
    obtain ⟨hv, hp⟩ := h
    have hl : fn.sig.params.length = arity op + 1 := by rw [hp, List.length_replicate]
    rw [if_neg (by omega), hv, if_pos rfl, if_neg (by omega)]
    have hops : (fn.sig.params.take (arity op)).map (operandVector .byPointer ty) =
        List.replicate (arity op) .slot := by
      rw [hp, take_replicate_succ, List.map_replicate]
      rfl
    refine ⟨_, rfl, ?_, ?_, trivial⟩
    · dsimp only
      rw [hops, List.map_replicate, if_pos rfl, hp, List.replicate_succ']
      rfl
    · dsimp only
      rw [hops]
      rintro (h | h)
      · cases (List.mem_replicate.mp h).2
      · cases h
  | byValue =>
    obtain ⟨hp, hr⟩ := h
    have hl : fn.sig.params.length = arity op := by rw [hp, List.length_replicate]
    rw [if_neg (by omega)]
    cases hv : isVector ty with
    | false =>
      have hc : coerced ty = ty := by
        unfold coerced
        rw [if_neg]
        rintro rfl
        cases hv
      rw [if_neg (by decide)]
      refine ⟨_, rfl, ?_, ?_, ?_⟩
      · dsimp only
        rw [List.map_replicate, if_neg (by decide), List.append_nil, hp, hc]
        rfl
      · dsimp only
        rintro (h | h)
        · cases (List.mem_replicate.mp h).2
        · cases h
      · dsimp only
        rw [hr, hc]
    | true =>
      rw [if_pos rfl]
      by_cases hf : ty = .vec 2 .float
      · subst hf
        have hc : coerced (.vec 2 .float) = .scalar .double := by decide
        rw [hc] at hp hr
        have hret : returnVector .byValue (.vec 2 .float) fn.sig.ret = .cast := by rw [hr]; rfl
        have hops : (fn.sig.params.take (arity op)).map (operandVector .byValue (.vec 2 .float)) =
            List.replicate (arity op) .cast := by
          rw [List.take_of_length_le (by omega), hp, List.map_replicate]
          rfl
        refine ⟨_, rfl, ?_, fun _ => rfl, ?_⟩
        · dsimp only
          rw [hops, hret, List.map_replicate, if_neg (by decide), List.append_nil, hp]
          rfl
        · dsimp only
          rw [hret]
          exact hr
      · have hc : coerced ty = ty := by unfold coerced; rw [if_neg hf]
        rw [hc] at hp hr
        have hb : isF32x2 ty = false := by
          unfold isF32x2
          rw [beq_eq_false_iff_ne]
          exact hf
        have hret : returnVector .byValue ty fn.sig.ret = .direct := by
          unfold returnVector
          dsimp only
          rw [hb, if_neg (by rintro ⟨h, -⟩; cases h)]
        have hop : ∀ t, operandVector .byValue ty t = .direct := by
          intro t
          unfold operandVector
          rw [hb, if_neg (by rintro ⟨h, -⟩; cases h), if_neg (by decide)]
        have hops : (fn.sig.params.take (arity op)).map (operandVector .byValue ty) =
            List.replicate (arity op) .direct := by
          rw [List.take_of_length_le (by omega), hp, List.map_replicate, hop]
        refine ⟨_, rfl, ?_, ?_, ?_⟩
        · dsimp only
          rw [hops, hret, List.map_replicate, if_neg (by decide), List.append_nil, hp]
          rfl
        · dsimp only
          rw [hops, hret]
          rintro (h | h)
          · cases (List.mem_replicate.mp h).2
          · cases h
        · dsimp only
          rw [hret]
          exact hr

example : (planCall .fma (.vec 2 .float)
      ⟨⟨['f'], false, ⟨[.scalar .double, .scalar .double, .scalar .double], some (.scalar .double)⟩, none⟩, .byValue⟩
      = .ok ⟨['f'], ⟨[.scalar .double, .scalar .double, .scalar .double], some (.scalar .double)⟩,
        [.cast, .cast, .cast], .cast⟩) ∧
    (planCall .add (.vec 8 .double) ⟨⟨['f'], false, ⟨[.ptr, .ptr, .ptr], none⟩, none⟩, .byPointer⟩
      = .ok ⟨['f'], ⟨[.ptr, .ptr, .ptr], none⟩, [.slot, .slot], .slot⟩) := by decide

/-- C80 is false of a function by value that takes two `float`s as a vector, as on other machines than
x86-64: the operands are passed as `double`s all the same. -/
theorem C80_f32x2_wrong (op : FOp) (hop : op ≠ .ignore) (f : Fn)
    (h : f.sig = ⟨List.replicate (arity op) (.vec 2 .float), some (.vec 2 .float)⟩) :
    ∃ p, planCall op (.vec 2 .float) ⟨f, .byValue⟩ = .ok p ∧ ¬ CallTyped (.vec 2 .float) p := by
  unfold planCall
  dsimp only
  have hl : f.sig.params.length = arity op := by rw [h, List.length_replicate]
  rw [if_neg (by omega), if_pos (by decide)]
  refine ⟨_, rfl, fun ⟨ha, _, _⟩ => ?_⟩
  dsimp only at ha
  rw [h] at ha
  dsimp only at ha
  rw [if_neg (by decide), List.append_nil] at ha
  clear h hl
  cases op <;> first | exact absurd rfl hop | (revert ha; decide)

/-- C80 is false of a function by value that takes and returns its vectors through memory, as on x86-64
for vectors larger than the registers: the vector is passed where an address is expected. -/
theorem C80_byval_wrong (op : FOp) (f : Fn) (ty : Ty) (hv : isVector ty = true)
    (h : f.sig = ⟨List.replicate (arity op + 1) .ptr, none⟩) :
    ∃ p, planCall op ty ⟨f, .byValue⟩ = .ok p ∧ ¬ CallTyped ty p := by
  unfold planCall
  dsimp only
  have hl : f.sig.params.length = arity op + 1 := by rw [h, List.length_replicate]
  rw [if_neg (by omega), hv, if_pos rfl]
  refine ⟨_, rfl, fun ⟨ha, _, _⟩ => ?_⟩
  dsimp only at ha
  have hl2 := congrArg List.length ha
  rw [List.length_append, List.length_map, List.length_map, List.length_take, hl] at hl2
  have hr : returnVector .byValue ty f.sig.ret ≠ .slot := by
    unfold returnVector
    dsimp only
    split_ifs <;> intro e <;> cases e
  rw [if_neg hr, List.length_nil] at hl2
  omega

example : planCall .add (.vec 4 .double)
      ⟨⟨['f'], false, ⟨[.ptr, .ptr, .ptr], none⟩, none⟩, .byValue⟩ =
    .ok ⟨['f'], ⟨[.ptr, .ptr, .ptr], none⟩, [.direct, .direct], .direct⟩ := by decide

end Verif.Prism
