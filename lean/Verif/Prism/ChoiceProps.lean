import Verif.Prism.NameProps
import Verif.Prism.Operands

/-!
# C79 and C81: the instructions replaced, the functions instrumented

* `C79_replaced_partial`: an operation of a supported type is replaced by the function of the
  library made for it, when there is one and the two functions have the same features.
* `C79_only`: nothing else is replaced.
* `C79_fmuladd_wrong`, `C79_option_wrong`: the multiply-adds the compiler produces by default are
  never replaced, and the calls to `fma` are replaced whatever the option for them.
* `C79_strict_wrong`: in strict mode too, an operation may be left alone without a word.
* `C81_same`, `C81_excluded_wrong`: functions.
-/

namespace Verif.Prism
open Verif.Pass (STy Ty Opcode Instr)

/-- The instruction is that operation. -/
def Asks (i : Instr) (op : FOp) : Prop :=
  (i.op = .fadd ∧ op = .add) ∨ (i.op = .fsub ∧ op = .sub) ∨ (i.op = .fmul ∧ op = .mul) ∨
  (i.op = .fdiv ∧ op = .div) ∨
  (∃ s rest, i.op = .call (some s) ∧ s.toList = "llvm.fma".toList ++ rest ∧ op = .fma)

/-- Types the library is for. -/
def Supported (ty : Ty) : Prop :=
  ∃ t, (t = .float ∨ t = .double) ∧ (ty = .scalar t ∨ ∃ n ∈ [2, 4, 8, 16, 32, 64], ty = .vec n t)

theorem asks_iff (i : Instr) (op : FOp) : Asks i op ↔ getOpCode i.op = op ∧ op ≠ .ignore := by
  unfold Asks
  constructor
  · rintro (⟨h, rfl⟩ | ⟨h, rfl⟩ | ⟨h, rfl⟩ | ⟨h, rfl⟩ | ⟨s, rest, h, e, rfl⟩)
    · rw [h]; exact ⟨rfl, by decide⟩
    · rw [h]; exact ⟨rfl, by decide⟩
    · rw [h]; exact ⟨rfl, by decide⟩
    · rw [h]; exact ⟨rfl, by decide⟩
    · rw [h]
      refine ⟨?_, by decide⟩
      have : isFMA (some s) = true := by
        unfold isFMA
        rw [List.isPrefixOf_iff_prefix, e]
        exact List.prefix_append _ _
      unfold getOpCode
      dsimp only
      rw [this, if_pos rfl]
  · rintro ⟨rfl, h⟩
    cases ho : i.op with
    | fadd => exact .inl ⟨rfl, rfl⟩
    | fsub => exact .inr (.inl ⟨rfl, rfl⟩)
    | fmul => exact .inr (.inr (.inl ⟨rfl, rfl⟩))
    | fdiv => exact .inr (.inr (.inr (.inl ⟨rfl, rfl⟩)))
    | fcmp => rw [ho] at h; exact absurd rfl h
    | fptrunc => rw [ho] at h; exact absurd rfl h
    | other => rw [ho] at h; exact absurd rfl h
    | call callee =>
      rw [ho] at h
      unfold getOpCode at h ⊢
      dsimp only at h ⊢
      cases hf : isFMA callee with
      | false => rw [hf] at h; exact absurd rfl h
      | true =>
        cases callee with
        | none => cases hf
        | some s =>
          unfold isFMA at hf
          rw [List.isPrefixOf_iff_prefix] at hf
          obtain ⟨rest, e⟩ := hf
          exact .inr (.inr (.inr (.inr ⟨s, rest, rfl, e.symm, rfl⟩)))

theorem supported_iff (ty : Ty) : Supported ty ↔ isValidInstruction ty = .ok true := by
  unfold Supported
  constructor
  · rintro ⟨t, ht, rfl | ⟨n, hn, rfl⟩⟩
    · rcases ht with rfl | rfl <;> rfl
    · simp only [List.mem_cons, List.not_mem_nil, or_false] at hn
      rcases ht with rfl | rfl <;> rcases hn with rfl | rfl | rfl | rfl | rfl | rfl <;> rfl
  · intro h
    cases ty with
    | svec => cases h
    | ptr => cases h
    | scalar t =>
      have h := Outcome.ok.inj h
      simp only [isValidFpType, Bool.or_eq_true, beq_iff_eq] at h
      exact ⟨t, h, .inl rfl⟩
    | vec n t =>
      have h := Outcome.ok.inj h
      simp only [isValidFpType, isValidVectorSize, Bool.and_eq_true, Bool.or_eq_true, beq_iff_eq] at h
      refine ⟨t, h.2, .inr ⟨n, ?_, rfl⟩⟩
      simp only [List.mem_cons, List.not_mem_nil, or_false]
      omega

/-- The library of the dispatch asked for. -/
def Library (c : Config) (lib : List Fn) : Prop :=
  (c.dispatch = .static ∧ lib = c.staticLib) ∨ (c.dispatch = .dynamic ∧ lib = c.dynamicLib)

theorem library_iff (c : Config) (lib : List Fn) : Library c lib ↔ lib = c.lib := by
  unfold Library Config.lib
  cases c.dispatch <;> simp

/-- The function of the library for an operation and how its vectors are passed: by value if there
is one that takes values. -/
def Chosen (c : Config) (op : FOp) (ty : Ty) (f : Fn) (p : Passing) : Prop :=
  ∃ lib fixed, Library c lib ∧ functionName c.rounding c.dispatch op ty .byValue = .ok fixed ∧
    match p with
    | .byValue => getFunction c.demangle lib fixed = some f
    | .byPointer => getFunction c.demangle lib fixed = none ∧
      ∃ name, functionName c.rounding c.dispatch op ty .byPointer = .ok name ∧
        getFunction c.demangle lib name = some f

theorem getPrismFunction_some (c : Config) (op : FOp) (ty : Ty) (F : PrismFunction) :
    c.getPrismFunction op ty = .ok (some F) ↔ ∃ f, Chosen c op ty f F.passing ∧ F.fn = c.copy f := by
  unfold Config.getPrismFunction
  constructor
  · intro h
    cases h1 : functionName c.rounding c.dispatch op ty .byValue with
    | exit => rw [h1] at h; cases h
    | ub => rw [h1] at h; cases h
    | ok fixed =>
      rw [h1] at h
      simp only [Outcome.bind_ok] at h
      cases h2 : getFunction c.demangle c.lib fixed with
      | some f =>
        rw [h2] at h
        obtain rfl := Option.some.inj (Outcome.ok.inj h)
        exact ⟨f, ⟨c.lib, fixed, (library_iff c _).mpr rfl, h1, h2⟩, rfl⟩
      | none =>
        rw [h2] at h
        dsimp only at h
        cases h3 : functionName c.rounding c.dispatch op ty .byPointer with
        | exit => rw [h3] at h; cases h
        | ub => rw [h3] at h; cases h
        | ok name =>
          rw [h3] at h
          simp only [Outcome.bind_ok] at h
          cases h4 : getFunction c.demangle c.lib name with
          | some f =>
            rw [h4] at h
            obtain rfl := Option.some.inj (Outcome.ok.inj h)
            exact ⟨f, ⟨c.lib, fixed, (library_iff c _).mpr rfl, h1, h2, name, h3, h4⟩, rfl⟩
          | none =>
            rw [h4] at h
            dsimp only at h
            split_ifs at h <;> cases h
  · rintro ⟨f, ⟨lib, fixed, hlib, h1, h2⟩, e⟩
    obtain rfl := (library_iff c lib).mp hlib
    obtain ⟨fn, p⟩ := F
    dsimp only at e h2
    subst e
    rw [h1]
    simp only [Outcome.bind_ok]
    cases p with
    | byValue => dsimp only at h2; rw [h2]
    | byPointer =>
      obtain ⟨h2, name, h3, h4⟩ := h2
      rw [h2]
      dsimp only
      rw [h3]
      simp only [Outcome.bind_ok]
      rw [h4]

theorem copy_mangled (c : Config) (f : Fn) : (c.copy f).mangled = f.mangled := by
  unfold Config.copy
  cases h : c.userModule.find? fun g => decide (g.mangled = f.mangled) with
  | none => rfl
  | some g =>
    have := List.find?_some h
    exact of_decide_eq_true this

theorem copy_new (c : Config) (f : Fn) (h : ∀ g ∈ c.userModule, g.mangled ≠ f.mangled) :
    c.copy f = { f with declaration := true } := by
  unfold Config.copy
  have : (c.userModule.find? fun g => decide (g.mangled = f.mangled)) = none := by
    rw [List.find?_eq_none]
    intro g hg
    rw [decide_eq_true_eq]
    exact h g hg
  rw [this]

/-- C79.  An operation of a supported type is replaced by the function of the library made for it,
if there is one.  Missing: operations of other types, functions with other features. -/
theorem C79_replaced_partial (c : Config) (caller : Option Str) (i : Instr) (op : FOp) (ha : Asks i op)
    (hty : Supported i.opTy) (hsame : i.retTy = i.opTy) (f : Fn) (p : Passing)
    (hf : Chosen c op i.opTy f p) (huser : ∀ g ∈ c.userModule, g.mangled ≠ f.mangled)
    (hfeat : areABICompatible caller f.features = true)
    (hargs : f.sig.params.length = operandCount op + if p = .byPointer then 1 else 0) :
    ∃ plan, c.plan caller i = .ok (some plan) ∧ plan.callee = f.mangled ∧ plan.sig = f.sig ∧
      plan.operands.length = operandCount op := by
  rw [← arity_eq] at hargs ⊢
  obtain ⟨ho, hni⟩ := (asks_iff i op).mp ha
  have hm : mustReplace i = true := by
    unfold mustReplace
    rw [ho, bne_iff_ne]
    exact hni
  have hF : c.getPrismFunction (getOpCode i.op) i.retTy = .ok (some ⟨c.copy f, p⟩) := by
    rw [ho, hsame]
    exact (getPrismFunction_some c op i.opTy ⟨c.copy f, p⟩).mpr ⟨f, hf, rfl⟩
  unfold Config.plan
  rw [hm, if_neg (by decide), (supported_iff i.opTy).mp hty]
  simp only [Outcome.bind_ok]
  rw [if_neg (by decide), hF]
  simp only [Outcome.bind_ok]
  rw [copy_new c f huser]
  dsimp only
  rw [hfeat, if_neg (by decide), ho]
  unfold planCall
  dsimp only
  rw [if_neg (by omega)]
  cases hv : isVector i.retTy with
  | false =>
    rw [if_neg (by decide)]
    exact ⟨_, rfl, rfl, rfl, by simp⟩
  | true =>
    rw [if_pos rfl]
    cases p with
    | byValue =>
      refine ⟨_, rfl, rfl, rfl, ?_⟩
      rw [List.length_map, List.length_take]
      omega
    | byPointer =>
      rw [if_pos rfl] at hargs
      dsimp only
      rw [if_neg (by omega)]
      refine ⟨_, rfl, rfl, rfl, ?_⟩
      rw [List.length_map, List.length_take]
      omega

/-- C79, the other way.  What is replaced is an operation of a supported type, by the function of the
library made for it. -/
theorem C79_only (c : Config) (caller : Option Str) (i : Instr) (plan : Plan)
    (h : c.plan caller i = .ok (some plan)) :
    ∃ op f p, Asks i op ∧ Supported i.opTy ∧ Chosen c op i.retTy f p ∧ plan.callee = f.mangled ∧
      areABICompatible caller (c.copy f).features = true := by
  unfold Config.plan at h
  cases hm : mustReplace i with
  | false => rw [hm, if_pos (by decide)] at h; cases h
  | true =>
    rw [hm, if_neg (by decide)] at h
    have hop : getOpCode i.op ≠ .ignore := by
      unfold mustReplace at hm
      exact bne_iff_ne.mp hm
    cases hv : isValidInstruction i.opTy with
    | exit => rw [hv] at h; cases h
    | ub => rw [hv] at h; cases h
    | ok b =>
      rw [hv] at h
      simp only [Outcome.bind_ok] at h
      cases b with
      | false => rw [if_pos (by decide)] at h; cases h
      | true =>
        rw [if_neg (by decide)] at h
        cases hF : c.getPrismFunction (getOpCode i.op) i.retTy with
        | exit => rw [hF] at h; cases h
        | ub => rw [hF] at h; cases h
        | ok F =>
          rw [hF] at h
          simp only [Outcome.bind_ok] at h
          cases F with
          | none => cases h
          | some F =>
            dsimp only at h
            cases hc : areABICompatible caller F.fn.features with
            | false => rw [hc, if_pos (by decide)] at h; cases h
            | true =>
              rw [hc, if_neg (by decide)] at h
              obtain ⟨f, hf, e⟩ := (getPrismFunction_some c _ _ F).mp hF
              refine ⟨_, f, F.passing, (asks_iff i _).mpr ⟨rfl, hop⟩, (supported_iff _).mpr hv, hf, ?_,
                e ▸ hc⟩
              cases hp : planCall (getOpCode i.op) i.retTy F with
              | exit => rw [hp] at h; cases h
              | ub => rw [hp] at h; cases h
              | ok q =>
                rw [hp] at h
                obtain rfl := Option.some.inj (Outcome.ok.inj h)
                have hcallee : q.callee = F.fn.mangled := by
                  unfold planCall at hp
                  dsimp only at hp
                  repeat' split at hp
                  all_goals first
                    | (obtain rfl := Outcome.ok.inj hp; rfl)
                    | cases hp
                rw [hcallee, e, copy_mangled]

/-- An instruction that is not one of the operations is left alone. -/
theorem C79_kept (c : Config) (caller : Option Str) (i : Instr) (h : ∀ op, ¬ Asks i op) :
    c.plan caller i = .ok none := by
  have hm : mustReplace i = false := by
    cases hm : mustReplace i with
    | false => rfl
    | true =>
      exact absurd ((asks_iff i _).mpr ⟨rfl, by unfold mustReplace at hm; exact bne_iff_ne.mp hm⟩) (h _)
  unfold Config.plan
  rw [hm, if_pos (by decide)]

/-- An operation on vectors whose length is not known stops the compilation. -/
theorem C79_scalable (c : Config) (caller : Option Str) (i : Instr) (op : FOp) (ha : Asks i op) (n : Nat) (t : STy)
    (h : i.opTy = .svec n t) : c.plan caller i = .exit := by
  obtain ⟨ho, hni⟩ := (asks_iff i op).mp ha
  have hm : mustReplace i = true := by
    unfold mustReplace
    rw [ho, bne_iff_ne]
    exact hni
  unfold Config.plan
  rw [hm, if_neg (by decide), h]
  rfl

/-- C79 is false of the multiply-adds the compiler makes of `a * b + c` by default. -/
theorem C79_fmuladd_wrong (c : Config) (caller : Option Str) (s : String) (rest : Str)
    (hs : s.toList = "llvm.fmuladd".toList ++ rest) (opTy retTy : Ty) :
    c.plan caller ⟨.call (some s), opTy, retTy⟩ = .ok none := by
  apply C79_kept
  intro op h
  have e8 : "llvm.fma".toList = ['l', 'l', 'v', 'm', '.', 'f', 'm', 'a'] := by decide
  have e12 : "llvm.fmuladd".toList = ['l', 'l', 'v', 'm', '.', 'f', 'm', 'u', 'l', 'a', 'd', 'd'] := by
    decide
  rcases h with ⟨h, _⟩ | ⟨h, _⟩ | ⟨h, _⟩ | ⟨h, _⟩ | ⟨s', rest', h, e, _⟩
  · cases h
  · cases h
  · cases h
  · cases h
  · cases h
    rw [hs, e8, e12] at e
    simp at e

/-- C79 is false of the option for fused multiply-adds: nothing depends on it. -/
theorem C79_option_wrong (c : Config) (b : Bool) (caller : Option Str) (i : Instr) :
    ({ c with instFMA := b } : Config).plan caller i = c.plan caller i := rfl

/-- The strict mode says when a function is missing. -/
theorem C79_missing (c : Config) (caller : Option Str) (i : Instr) (op : FOp) (ha : Asks i op)
    (hty : Supported i.opTy) (hsame : i.retTy = i.opTy) (h : ∀ f p, ¬ Chosen c op i.opTy f p) :
    c.plan caller i = if c.strictABI then .exit else .ok none := by
  obtain ⟨ho, hni⟩ := (asks_iff i op).mp ha
  have hm : mustReplace i = true := by
    unfold mustReplace
    rw [ho, bne_iff_ne]
    exact hni
  have hnamed : ∀ p, ∃ s, functionName c.rounding c.dispatch op i.opTy p = .ok s := by
    intro p
    obtain ⟨t, ht, e⟩ := hty
    obtain ⟨h1, -⟩ := C78_named c.rounding c.dispatch op t ht p hni 0
    rcases e with e | ⟨n, -, e⟩
    · rw [e]; exact h1
    · rw [e]; exact (C78_named c.rounding c.dispatch op t ht p hni n).2
  obtain ⟨s1, h1⟩ := hnamed .byValue
  obtain ⟨s2, h2⟩ := hnamed .byPointer
  have g1 : getFunction c.demangle c.lib s1 = none := by
    cases hg : getFunction c.demangle c.lib s1 with
    | none => rfl
    | some f => exact absurd ⟨c.lib, s1, (library_iff c _).mpr rfl, h1, hg⟩ (h f .byValue)
  have g2 : getFunction c.demangle c.lib s2 = none := by
    cases hg : getFunction c.demangle c.lib s2 with
    | none => rfl
    | some f => exact absurd ⟨c.lib, s1, (library_iff c _).mpr rfl, h1, g1, s2, h2, hg⟩ (h f .byPointer)
  unfold Config.plan
  rw [hm, if_neg (by decide), (supported_iff i.opTy).mp hty]
  simp only [Outcome.bind_ok]
  rw [if_neg (by decide), ho, hsame]
  unfold Config.getPrismFunction
  rw [h1]
  simp only [Outcome.bind_ok]
  rw [g1]
  dsimp only
  rw [h2]
  simp only [Outcome.bind_ok]
  rw [g2]
  dsimp only
  split_ifs <;> rfl

/-- C79 is false of the strict mode: an operation whose function has other features is left alone
without a word, strict or not. -/
theorem C79_strict_wrong (c : Config) (caller : Option Str) (i : Instr) (op : FOp) (ha : Asks i op)
    (hty : Supported i.opTy) (hsame : i.retTy = i.opTy) (f : Fn) (p : Passing)
    (hf : Chosen c op i.opTy f p) (hfeat : areABICompatible caller (c.copy f).features = false) :
    c.plan caller i = .ok none := by
  obtain ⟨ho, hni⟩ := (asks_iff i op).mp ha
  have hm : mustReplace i = true := by
    unfold mustReplace
    rw [ho, bne_iff_ne]
    exact hni
  have hF : c.getPrismFunction (getOpCode i.op) i.retTy = .ok (some ⟨c.copy f, p⟩) := by
    rw [ho, hsame]
    exact (getPrismFunction_some c op i.opTy ⟨c.copy f, p⟩).mpr ⟨f, hf, rfl⟩
  unfold Config.plan
  rw [hm, if_neg (by decide), (supported_iff i.opTy).mp hty]
  simp only [Outcome.bind_ok]
  rw [if_neg (by decide), hF]
  simp only [Outcome.bind_ok]
  rw [hfeat, if_pos (by decide)]

/-! ## Cases -/

/-- A strict configuration with two functions. -/
def strictConfig : Config where
  rounding := .upDown
  dispatch := .static
  strictABI := true
  instFMA := false
  demangle := fun
    | ['A'] => "prism::ud::scalar::static_dispatch::mulf32(float, float)".toList
    | ['B'] => "prism::ud::vector::static_dispatch::variable::fmaf64x8(double*)".toList
    | s => s
  staticLib := [⟨['A'], false, ⟨[.scalar .float, .scalar .float], some (.scalar .float)⟩, some "+sse".toList⟩,
    ⟨['B'], false, ⟨[.ptr, .ptr, .ptr, .ptr], none⟩, some "+avx".toList⟩]
  dynamicLib := [⟨"helper".toList, false, ⟨[], none⟩, none⟩]
  userModule := []

example : strictConfig.plan (some "+sse".toList) ⟨.fmul, .scalar .float, .scalar .float⟩ =
      .ok (some ⟨['A'], ⟨[.scalar .float, .scalar .float], some (.scalar .float)⟩, [.direct, .direct], .direct⟩) ∧
    strictConfig.plan (some "+avx".toList) ⟨.call (some "llvm.fma.v8f64"), .vec 8 .double, .vec 8 .double⟩ =
      .ok (some ⟨['B'], ⟨[.ptr, .ptr, .ptr, .ptr], none⟩, [.slot, .slot, .slot], .slot⟩) ∧
    -- another name, another type, other features, no function
    strictConfig.plan (some "+avx".toList) ⟨.call (some "llvm.fmuladd.v8f64"), .vec 8 .double, .vec 8 .double⟩ =
      .ok none ∧
    strictConfig.plan (some "+sse".toList) ⟨.fmul, .scalar .half, .scalar .half⟩ = .ok none ∧
    strictConfig.plan (some "+sse".toList) ⟨.call (some "llvm.fma.v8f64"), .vec 8 .double, .vec 8 .double⟩ =
      .ok none ∧
    strictConfig.plan (some "+sse".toList) ⟨.fmul, .scalar .double, .scalar .double⟩ = .exit := by
  refine ⟨?_, ?_, ?_, ?_, ?_, ?_⟩ <;> decide +kernel

/-! ## C81 -/

/-- C81.  The selection is that of the other pass, on the functions that neither library defines. -/
theorem C81_same (c : Config) (moduleName : Str) (inc exc : Pass.File) (function : Str) (names : List Str)
    (h : ∀ n ∈ names, ∀ f ∈ c.staticLib ++ c.dynamicLib, f.declaration = false → f.mangled ≠ n) :
    c.select moduleName inc exc function names = Pass.select moduleName inc exc function names := by
  unfold Config.select
  congr 1
  rw [List.filter_eq_self]
  intro n hn
  rw [decide_eq_true_eq]
  intro hd
  unfold defined at hd
  rw [← List.map_append, ← List.filter_append] at hd
  obtain ⟨f, hf, e⟩ := List.mem_map.mp hd
  obtain ⟨hf, hdecl⟩ := List.mem_filter.mp hf
  exact h n hn f hf (by simpa using hdecl) e

/-- C81 is false of functions with the name of one of the functions of either library, the library
that is not used included: they are not instrumented, even if asked for by name. -/
theorem C81_excluded_wrong (c : Config) (moduleName : Str) (inc exc : Pass.File) (function : Str)
    (names out : List Str) (f : Fn) (hf : f ∈ c.staticLib ++ c.dynamicLib) (hd : f.declaration = false)
    (h : c.select moduleName inc exc function names = .ok out) : f.mangled ∉ out := by
  have key : ∀ ns out : List Str, Pass.select moduleName inc exc function ns = .ok out →
      ∀ n ∈ out, n ∈ ns := by
    intro ns out h
    unfold Pass.select at h
    simp only [bind, Except.bind] at h
    repeat' split at h
    all_goals first
      | (cases h; exact fun n hn => List.mem_of_mem_filter hn)
      | cases h
  intro hm
  have := key _ _ h _ hm
  obtain ⟨-, hn⟩ := List.mem_filter.mp this
  rw [decide_eq_true_eq] at hn
  apply hn
  unfold defined
  rw [← List.map_append, ← List.filter_append]
  exact List.mem_map.mpr ⟨f, List.mem_filter.mpr ⟨hf, by rw [hd]; rfl⟩, rfl⟩

example : strictConfig.select "/a.c".toList .absent .absent "helper".toList
      ["helper".toList, "main".toList] = .ok [] ∧
    Pass.select "/a.c".toList .absent .absent "helper".toList
      ["helper".toList, "main".toList] = .ok ["helper".toList] ∧
    strictConfig.select "/a.c".toList .absent .absent [] ["f".toList, "main".toList] =
      .ok ["f".toList, "main".toList] := by decide +kernel

end Verif.Prism
