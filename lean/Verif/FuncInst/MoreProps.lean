import Verif.FuncInst.Props

/-!
# Properties C66, C67, C68, continued: hooks as the runtime sees them, examples, failures
-/

namespace Verif.FuncInst
open Verif

/-! ## C67: every hook of a module -/

/-- The two lists of arguments of a hook are read to their ends. -/
def WellRead (h : Hook) : Prop :=
  ∃ qi qo, readArgs h.nIn h.enter = .ok (qi, []) ∧ readArgs h.nOut h.exit = .ok (qo, []) ∧
    qi.length = h.nIn ∧ qo.length = h.nOut

theorem readArgs_length : ∀ (n : Nat) (l : List VA) (qs : List Quad) (r : List VA),
    readArgs n l = .ok (qs, r) → qs.length = n := by
  intro n l
  induction n, l using readArgs.induct with
  | case1 l => intro qs r h; cases h; rfl
  | case2 n t s k p rest ih =>
    intro qs r h
    rw [readArgs] at h
    obtain ⟨⟨q, r'⟩, e, h⟩ := bind_inv h
    cases h
    rw [List.length_cons, ih _ _ e]
  | case3 n l hn =>
    intro qs r h
    rw [readArgs] at h
    · cases h
    · exact hn

theorem hookCall_wellRead {m : Module} {fuel ci pos gi cpt cpt' : Nat} {F g : Func} {parent : Str} {c : Call} {l : Loc}
    {hs : List Hook} (h : hookCall m fuel ci F parent pos c gi g l cpt = .ok (hs, cpt')) : ∀ x ∈ hs, WellRead x := by
  unfold hookCall at h
  simp only at h
  split at h
  · cases h; simp
  · obtain ⟨e, e1, h⟩ := bind_inv h
    obtain ⟨x, e2, h⟩ := bind_inv h
    cases h
    intro k hk
    rw [List.mem_singleton] at hk
    subst hk
    obtain ⟨qi, r1, -, -⟩ := C67_enter _ _ _ _ _ _ e1
    obtain ⟨r, qo, r2, -, -, -, -⟩ := C67_exit _ _ _ _ _ _ _ e2
    exact ⟨qi, r ++ qo, r1, r2, readArgs_length _ _ _ _ r1, readArgs_length _ _ _ _ r2⟩

theorem walkBody_wellRead {m : Module} {fuel ci : Nat} {F : Func} {parent : Str} : ∀ (l : List Instr) (pos cpt cpt' : Nat)
    (hs : List Hook), walkBody m fuel ci F parent l pos cpt = .ok (hs, cpt') → ∀ x ∈ hs, WellRead x := by
  intro l
  induction l with
  | nil => intro pos cpt cpt' hs h; cases h; simp
  | cons i l ih =>
    intro pos cpt cpt' hs h
    cases i with
    | call c =>
      rw [walkBody] at h
      obtain ⟨⟨h1, c1⟩, e1, h⟩ := bind_inv h
      obtain ⟨⟨h2, c2⟩, e2, h⟩ := bind_inv h
      cases h
      intro x hx
      rcases List.mem_append.1 hx with hx | hx
      · split at e1
        · cases e1; cases hx
        · split at e1
          · cases e1; cases hx
          · split at e1
            · cases e1; cases hx
            · exact hookCall_wellRead e1 x hx
      · exact ih _ _ _ _ e2 x hx
    | alloca a => exact ih _ _ _ _ h
    | gep b o => exact ih _ _ _ _ h
    | other o => exact ih _ _ _ _ h

theorem walkFuncs_wellRead {m : Module} {fuel : Nat} : ∀ (l : List (Nat × Func)) (cpt cpt' : Nat) (hs : List Hook),
    walkFuncs m fuel l cpt = .ok (hs, cpt') → ∀ x ∈ hs, WellRead x := by
  intro l
  induction l with
  | nil => intro cpt cpt' hs h; cases h; simp
  | cons p l ih =>
    intro cpt cpt' hs h
    obtain ⟨ci, F⟩ := p
    rw [walkFuncs] at h
    obtain ⟨⟨h1, c1⟩, e1, h⟩ := bind_inv h
    obtain ⟨⟨h2, c2⟩, e2, h⟩ := bind_inv h
    cases h
    intro x hx
    rcases List.mem_append.1 hx with hx | hx
    · split at e1
      · cases e1; cases hx
      · exact walkBody_wellRead _ _ _ _ _ e1 x hx
    · exact ih _ _ _ e2 x hx

/-- **C67**: every hook put in place of a call passes argument lists that the runtime reads
exactly to their ends, on entry and on exit. -/
theorem C67_hooks (m : Module) (fuel : Nat) (main : Option Hook) (hs : List Hook)
    (h : runOnModule m fuel = .ok (main, hs)) : ∀ x ∈ hs, WellRead x := by
  obtain ⟨_, e1, h⟩ := bind_inv h
  obtain ⟨⟨_, c2⟩, e2, h⟩ := bind_inv h
  cases h
  exact walkFuncs_wellRead _ _ _ _ e2

/-- **C67**: `main` without floating point parameters: the runtime reads nothing on entry,
whatever pointers `main` has. -/
theorem C67_main (m : Module) (fuel mi : Nat) (F : Func) (h : Hook) (hF : ∀ t ∈ F.params, isFp t = false)
    (hr : isFp F.ret = false) (e : hookMain m fuel mi F = .ok h) :
    readArgs h.nIn h.enter = .ok ([], h.enter) ∧ readArgs h.nOut h.exit = .ok ([], h.exit) := by
  unfold hookMain at e
  split at e
  · cases e
  · obtain ⟨y, -, e⟩ := bind_inv e
    obtain ⟨z, -, e⟩ := bind_inv e
    cases e
    have h1 : countIn false F.params = 0 := by
      unfold countIn
      rw [List.countP_eq_zero]
      intro t ht
      simp [hF t ht]
    have h2 : countOut false F.ret F.params = 0 := by
      unfold countOut
      simp [hr]
    simp only [h1, h2]
    exact ⟨rfl, rfl⟩

/-! ## C67: values -/

theorem loads_stores {α : Type} : ∀ (ts : List Ty) (as : List α), as.length = ts.length →
    loads ts as (stores ts as) = as := by
  intro ts
  induction ts with
  | nil => intro as h; rw [List.eq_nil_of_length_eq_zero h]; rfl
  | cons t ts ih =>
    intro as h
    cases as with
    | nil => cases h
    | cons a as =>
      have h : as.length + 1 = ts.length + 1 := h
      by_cases hf : isFp t = true
      · simp only [loads, stores, if_pos hf]
        rw [ih as (by omega)]
      · simp only [loads, stores, if_neg hf]
        rw [ih as (by omega)]

theorem stores_get {α : Type} : ∀ (ts : List Ty) (as : List α), as.length = ts.length →
    (stores ts as).length = ts.countP isFp ∧
    ∀ j t, ts[j]? = some t → isFp t = true → (stores ts as)[(ts.take j).countP isFp]? = as[j]? := by
  intro ts
  induction ts with
  | nil => intro as h; simp [stores]
  | cons t ts ih =>
    intro as h
    cases as with
    | nil => cases h
    | cons a as =>
      have h : as.length + 1 = ts.length + 1 := h
      obtain ⟨i1, i2⟩ := ih as (by omega)
      by_cases hf : isFp t = true
      · simp only [stores, if_pos hf]
        refine ⟨by rw [List.length_cons, i1, List.countP_cons_of_pos hf], ?_⟩
        intro j t' hj ht'
        cases j with
        | zero => simp
        | succ j =>
          rw [List.take_succ_cons, List.countP_cons_of_pos hf, List.getElem?_cons_succ, List.getElem?_cons_succ]
          exact i2 j t' (by simpa using hj) ht'
      · simp only [stores, if_neg hf]
        refine ⟨by rw [i1, List.countP_cons_of_neg hf], ?_⟩
        intro j t' hj ht'
        cases j with
        | zero =>
          simp only [List.getElem?_cons_zero, Option.some.injEq] at hj
          subst hj
          exact absurd ht' hf
        | succ j =>
          rw [List.take_succ_cons, List.countP_cons_of_neg hf, List.getElem?_cons_succ]
          exact i2 j t' (by simpa using hj) ht'

theorem loads_get {α : Type} : ∀ (ts : List Ty) (as slots : List α), as.length = ts.length →
    slots.length = ts.countP isFp →
    (loads ts as slots).length = as.length ∧
    ∀ j t, ts[j]? = some t →
      (loads ts as slots)[j]? = if isFp t then slots[(ts.take j).countP isFp]? else as[j]? := by
  intro ts
  induction ts with
  | nil =>
    intro as slots h _
    rw [List.eq_nil_of_length_eq_zero h]
    simp [loads]
  | cons t ts ih =>
    intro as slots h hs
    cases as with
    | nil => cases h
    | cons a as =>
      have h : as.length + 1 = ts.length + 1 := h
      by_cases hf : isFp t = true
      · rw [List.countP_cons_of_pos hf] at hs
        cases slots with
        | nil => cases hs
        | cons s slots =>
          have hs : slots.length + 1 = ts.countP isFp + 1 := hs
          obtain ⟨i1, i2⟩ := ih as slots (by omega) (by omega)
          simp only [loads, if_pos hf]
          refine ⟨by rw [List.length_cons, i1, List.length_cons], ?_⟩
          intro j t' hj
          cases j with
          | zero =>
            simp only [List.getElem?_cons_zero, Option.some.injEq] at hj
            subst hj
            simp [hf]
          | succ j =>
            rw [List.take_succ_cons, List.countP_cons_of_pos hf, List.getElem?_cons_succ, List.getElem?_cons_succ,
              List.getElem?_cons_succ]
            exact i2 j t' (by simpa using hj)
      · rw [List.countP_cons_of_neg hf] at hs
        obtain ⟨i1, i2⟩ := ih as slots (by omega) hs
        simp only [loads, if_neg hf]
        refine ⟨by rw [List.length_cons, i1, List.length_cons], ?_⟩
        intro j t' hj
        cases j with
        | zero =>
          simp only [List.getElem?_cons_zero, Option.some.injEq] at hj
          subst hj
          simp [hf]
        | succ j =>
          rw [List.take_succ_cons, List.countP_cons_of_neg hf, List.getElem?_cons_succ, List.getElem?_cons_succ]
          exact i2 j t' (by simpa using hj)

/-- **C67**: the runtime sees each floating point argument in the slot of its entry, and
the called function receives the contents of that slot; every other argument reaches it
unchanged. -/
theorem C67_arguments {α : Type} (params : List Ty) (args slots : List α) (hl : args.length = params.length)
    (hs : slots.length = params.countP isFp) (j : Nat) (t : Ty) (hj : params[j]? = some t) :
    (isFp t = true → (stores params args)[(params.take j).countP isFp]? = args[j]? ∧
      (loads params args slots)[j]? = slots[(params.take j).countP isFp]?) ∧
    (isFp t = false → (loads params args slots)[j]? = args[j]?) ∧
    (loads params args slots).length = args.length := by
  obtain ⟨l1, l2⟩ := loads_get params args slots hl hs
  refine ⟨?_, ?_, l1⟩
  · intro hf
    refine ⟨(stores_get params args hl).2 j t hj hf, ?_⟩
    rw [l2 j t hj, if_pos hf]
  · intro hf
    rw [l2 j t hj, hf]
    rfl

/-- **C67**: a hook whose runtime leaves the slots alone is the original call: same
arguments, same result, same state. -/
theorem C67_transparent {σ α : Type} (params : List Ty) (ret : Ty)
    (enter : σ → List α → Outcome (σ × List α)) (callee : σ → List α → Outcome (σ × α))
    (exit : σ → Option α → Outcome (σ × Option α))
    (he : ∀ s l, enter s l = .ok (s, l)) (hx : ∀ s r, exit s r = .ok (s, r))
    (s : σ) (args : List α) (hl : args.length = params.length) :
    hookRun params ret enter callee exit s args = callee s args := by
  unfold hookRun
  rw [he, Outcome.bind_ok]
  simp only [loads_stores params args hl]
  cases hc : callee s args with
  | ok p =>
    obtain ⟨s', r⟩ := p
    rw [Outcome.bind_ok]
    simp only [hx, Outcome.bind_ok]
    by_cases hr : isFp ret = true
    · rw [if_pos hr]; rfl
    · rw [if_neg hr]; rfl
  | exit => rfl
  | ub => rfl

/-- **C67**: the result of the hook is what the runtime left in the result slot for a
floating point result, and the result of the called function otherwise. -/
theorem C67_result {σ α : Type} (params : List Ty) (ret : Ty)
    (enter : σ → List α → Outcome (σ × List α)) (callee : σ → List α → Outcome (σ × α))
    (exit : σ → Option α → Outcome (σ × Option α)) (s s1 s2 s3 : σ) (args slots : List α) (r r' : α)
    (h1 : enter s (stores params args) = .ok (s1, slots)) (h2 : callee s1 (loads params args slots) = .ok (s2, r)) :
    (isFp ret = true → exit s2 (some r) = .ok (s3, some r') →
      hookRun params ret enter callee exit s args = .ok (s3, r')) ∧
    (isFp ret = false → exit s2 none = .ok (s3, none) →
      hookRun params ret enter callee exit s args = .ok (s3, r)) := by
  unfold hookRun
  rw [h1, Outcome.bind_ok]
  simp only [h2, Outcome.bind_ok]
  refine ⟨?_, ?_⟩
  · intro hr hx
    rw [if_pos hr, hx]; rfl
  · intro hr hx
    rw [hr, hx]; rfl

/-! ## C67: several backends -/

/-- **C67**: one backend that implements the call reads what the hook passed. -/
theorem C67_one_backend (h : Hook) (hw : WellRead h) : ∃ q, readAll 1 h.nIn h.enter = .ok [q] ∧
    readArgs h.nIn h.enter = .ok (q, []) := by
  obtain ⟨qi, -, r1, -, -, -⟩ := hw
  exact ⟨qi, by simp only [readAll, r1, Outcome.bind_ok, Outcome.pure_eq], r1⟩

/-- **C67 fails for two backends**: both read the same `va_list`, so the second reads past
its end as soon as there is one argument, for every hook of every module. -/
theorem C67_two_backends_wrong (h : Hook) (hw : WellRead h) (hn : h.nIn ≠ 0) (k : Nat) :
    readAll (k + 2) h.nIn h.enter = .ub := by
  obtain ⟨qi, -, r1, -, -, -⟩ := hw
  obtain ⟨n, hn⟩ : ∃ n, h.nIn = n + 1 := ⟨h.nIn - 1, by omega⟩
  rw [hn] at r1 ⊢
  simp only [readAll, r1, Outcome.bind_ok, readArgs, Outcome.bind_ub]

/-! ## C68: pointers -/

/-- `v` is the address of a local array of `n` elements, or one computed from it through
`getelementptr` whose offsets add up to `off`, after `d` steps. -/
inductive Base (F : Func) : V → Nat → Nat → Nat → Prop
  | array {k n} : F.body[k]? = some (Instr.alloca (.array n)) → Base F (.inst k) n 0 1
  | single {k} : F.body[k]? = some (Instr.alloca .single) → Base F (.inst k) 1 0 1
  | gep {k b o n off d} : F.body[k]? = some (Instr.gep b o) → Base F b n off d → Base F (.inst k) n (off + o) (d + 1)

theorem getSizeOf_base {F : Func} {v : V} {n off d : Nat} (h : Base F v n off d) :
    ∀ fuel, d ≤ fuel → getSizeOf F fuel v = .ok n := by
  induction h with
  | array hk =>
    intro fuel hf
    obtain ⟨f, rfl⟩ : ∃ f, fuel = f + 1 := ⟨fuel - 1, by omega⟩
    simp only [getSizeOf, hk]
  | single hk =>
    intro fuel hf
    obtain ⟨f, rfl⟩ : ∃ f, fuel = f + 1 := ⟨fuel - 1, by omega⟩
    simp only [getSizeOf, hk]
  | gep hk _ ih =>
    intro fuel hf
    obtain ⟨f, rfl⟩ : ∃ f, fuel = f + 1 := ⟨fuel - 1, by omega⟩
    simp only [getSizeOf, hk]
    exact ih f (by omega)

/-- **C68, partial**: a pointer to the start of a local array or variable is described with
the number of its elements.  Missing: any other pointer, see the theorems below. -/
theorem C68_array_partial (F : Func) (v : V) (n d : Nat) (h : Base F v n 0 d) (fuel : Nat) (hf : d ≤ fuel) :
    getSizeOf F fuel v = .ok n := getSizeOf_base h fuel hf

/-- **C68 is false for the size**: the offset of a pointer into an array is not subtracted:
past the first element, fewer elements remain than the size passed to the backends. -/
theorem C68_offset_wrong (F : Func) (v : V) (n off d : Nat) (h : Base F v n off d) (h0 : 0 < off) (hn : off ≤ n)
    (fuel : Nat) (hf : d ≤ fuel) :
    ∃ size, getSizeOf F fuel v = .ok size ∧ n - off < size := ⟨n, getSizeOf_base h fuel hf, by omega⟩

/-- **C68 is false for the type**: no argument is ever described as a pointer to `double`;
every pointer, to whatever, is described as a pointer to `float`. -/
theorem C68_type_wrong : (∀ t, ftype t ≠ some 4) ∧ ftype .ptr = some 3 := by
  refine ⟨?_, rfl⟩
  intro t
  cases t <;> simp [ftype, floatPtrTy, doublePtrTy]

/-- A function that passes its parameter `i` on as argument `i` of the first call that uses it. -/
def Forwards (F : Func) (i : Nat) : Prop :=
  i < F.params.length ∧ ∃ c rest, callUsers F i = c :: rest ∧ (c.args[i]?.map (·.1)) = some (.param i)

/-- **C68 is false for parameters**: when a function passes a parameter on at its own
position, the pass never ends computing the size, whatever the stack. -/
theorem C68_forward_wrong (F : Func) (i : Nat) (h : Forwards F i) : ∀ fuel, getSizeOf F fuel (.param i) = .ub := by
  obtain ⟨hi, c, rest, hc, ha⟩ := h
  intro fuel
  induction fuel with
  | zero => rfl
  | succ f ih =>
    rw [getSizeOf, if_pos hi, hc]
    simp only
    have hl : i < c.args.length := by
      by_contra hl
      rw [List.getElem?_eq_none (by omega)] at ha
      cases ha
    rw [dif_pos hl]
    rw [List.getElem?_eq_getElem hl] at ha
    simp only [Option.map_some, Option.some.injEq] at ha
    rw [ha]
    exact ih

/-- **C68 is false for intrinsics**: an intrinsic with a pointer argument counts as floating
point, both in `float` and in `double`, whatever it does: `llvm.memset`, `llvm.memcpy`. -/
theorem C68_pointer_is_fp_wrong (g : Func) (c : Call) (hb : g.body = []) (v : V) (h : (v, Ty.ptr) ∈ c.args) :
    useFloat (some c) g = true ∧ useDouble (some c) g = true := by
  unfold useFloat useDouble uses
  rw [hb]
  simp only [ne_eq, not_true_eq_false, if_false, Bool.or_eq_true, List.any_eq_true, decide_eq_true_eq]
  exact ⟨Or.inr ⟨_, h, Or.inr rfl⟩, Or.inr ⟨_, h, Or.inr rfl⟩⟩

/-! ## Examples -/

/-- `int main(int argc, char **argv)` at line 20 calls `double norm(double *a, int n, double s)`
of line 3 at line 22 with a local array of four elements, and `sqrt` is called in `norm`. -/
def exFile : Str := "n.c".toList

def exMain : Func := {
  name := mainName, ret := .other 32, params := [.other 32, .ptr]
  body := [.alloca (.array 4), .gep (.inst 0) 0,
    .call { callee := some 1, args := [(.inst 1, .ptr), (.other, .other 32), (.other, .double)], loc := some ⟨exFile, 22⟩ },
    .gep (.inst 0) 2,
    .call { callee := some 1, args := [(.inst 3, .ptr), (.other, .other 32), (.other, .double)], loc := some ⟨exFile, 23⟩ },
    .call { callee := some 3, args := [], loc := some ⟨exFile, 24⟩ }]
  sub := some ⟨mainName, ⟨exFile, 20⟩⟩ }

def exNorm : Func := {
  name := "norm".toList, ret := .double, params := [.ptr, .other 32, .double]
  body := [.call { callee := some 4, args := [], loc := some ⟨exFile, 3⟩, dbgVar := some (1, "a".toList) },
    .call { callee := some 4, args := [], loc := some ⟨exFile, 3⟩, dbgVar := some (3, "s".toList) },
    .other [.double, .double],
    .call { callee := some 2, args := [(.inst 2, .double)], loc := some ⟨exFile, 5⟩ },
    .call { callee := none, args := [], loc := some ⟨exFile, 6⟩ }]
  sub := some ⟨"norm".toList, ⟨exFile, 3⟩⟩ }

def exModule : Module := [exMain, exNorm,
  { name := "llvm.sqrt.f64".toList, ret := .double, params := [.double], intrinsic := true },
  { name := "llvm.trap".toList, ret := .void, params := [], intrinsic := true },
  { name := "llvm.dbg.declare".toList, ret := .void, params := [], intrinsic := true }]

/-- The module without the indirect call, for which the pass ends. -/
def exModule' : Module := exModule.set 1 { exNorm with body := exNorm.body.take 4 }

/-- The pass has three hooks beside that of `main`, in the order of the functions with
`main` last; the numbers go on past the intrinsic without floating point. -/
example : (match runOnModule exModule' 10 with
    | .ok (some mh, hs) => (mh :: hs).map fun h => (String.ofList h.id, h.caller, h.pos, h.callee)
    | _ => []) =
  [("n.c//main/20/1", 0, 0, 0), ("n.c/norm/llvm.sqrt.f64/5/2", 1, 3, 2), ("n.c/main/norm/22/3", 0, 2, 1),
   ("n.c/main/norm/23/4", 0, 4, 1)] := by decide +kernel

/-- What the runtime reads on entry of the first call of `norm`: the array of four elements,
then the number. -/
example : (match runOnModule exModule' 10 with
    | .ok (_, [_, h, _]) => (readArgs h.nIn h.enter, readArgs h.nOut h.exit, h.float, h.double)
    | _ => (.ub, .ub, false, false)) =
  (.ok ([⟨3, "a".toList, 4, .param 0⟩, ⟨1, "s".toList, 1, .slot 0⟩], []),
   .ok ([⟨1, "return_value".toList, 1, .retSlot⟩, ⟨3, "a".toList, 4, .param 0⟩], []), false, true) := by
  decide +kernel

/-- C66, the condition: the calls of `norm` and of the square root, not `llvm.trap`. -/
example : Hookable exModule' { callee := some 2, args := [(.inst 2, .double)], loc := some ⟨exFile, 5⟩ } 2 ∧
    ¬ Hookable exModule' { callee := some 3, args := [], loc := some ⟨exFile, 24⟩ } 3 := by
  refine ⟨⟨rfl, rfl, _, rfl, by decide, by decide, fun _ => Or.inr (Or.inl rfl)⟩, ?_⟩
  rintro ⟨-, -, g, hg, -, -, h⟩
  have : g = { name := "llvm.trap".toList, ret := .void, params := [], intrinsic := true } := (Option.some.inj hg).symm
  subst this
  rcases h rfl with (h | ⟨i, h, -⟩ | ⟨-, a, h, -⟩) | (h | ⟨i, h, -⟩ | ⟨-, a, h, -⟩) <;> cases h

/-- The values: `g(double, int, float)` whose runtime doubles the slots. -/
example : hookRun (σ := Nat) (α := Nat) [.double, .other 32, .float] .double
    (fun s l => .ok (s + 1, l.map (2 * ·))) (fun s l => .ok (s, l.sum)) (fun s r => .ok (s, r.map (· + 1))) 0 [3, 5, 7] =
    .ok (1, 26) := by decide

example : stores [Ty.double, .other 32, .float] [3, 5, 7] = [3, 7] ∧
    loads [Ty.double, .other 32, .float] [3, 5, 7] [30, 70] = [30, 5, 70] := by decide

/-- Two of the pointers of the example: the whole array, and its second half, both of size 4. -/
example : Base exMain (.inst 1) 4 0 2 ∧ Base exMain (.inst 3) 4 2 2 :=
  ⟨.gep (off := 0) (o := 0) rfl (.array rfl), .gep (off := 0) (o := 2) rfl (.array rfl)⟩

example : getSizeOf exMain 2 (.inst 3) = .ok 4 := by decide

/-! ## Failures -/

/-- **C66 fails for calls through a pointer in the function called**: naming the parameters
of `norm` reaches the indirect call, whose function is not checked, for the second
argument or any parameter without debug information. -/
theorem C66_indirect_wrong (m : Module) (i : Nat) (pre post : List Instr) (c : Call) (hc : c.callee = none)
    (hp : ∀ x ∈ pre, ∀ d, x ≠ Instr.call d) : getArgName m i (pre ++ Instr.call c :: post) = .ub := by
  induction pre with
  | nil => simp [getArgName, hc]
  | cons x pre ih =>
    have ih := ih (fun y hy => hp y (List.mem_cons_of_mem _ hy))
    cases x with
    | call d => exact absurd rfl (hp _ (List.mem_cons_self ..) d)
    | alloca a => exact ih
    | gep b o => exact ih
    | other o => exact ih

/-- `double apply(double (*f)(double), double x)` compiled with optimisation, without a
description of `x` before the call of `f`: the pass crashes on its callers. -/
example : runOnModule [{ name := mainName, ret := .other 32, params := []
                         body := [.call { callee := some 1, args := [(.other, .ptr), (.other, .double)], loc := some ⟨exFile, 9⟩ }]
                         sub := some ⟨mainName, ⟨exFile, 8⟩⟩ },
    { name := "apply".toList, ret := .double, params := [.ptr, .double]
      body := [.call { callee := none, args := [(.param 1, .double)], loc := some ⟨exFile, 2⟩ }] }] 10 = .ub := by
  decide +kernel

/-- **C66 fails for a `main` without debug information**: its subprogram is used unchecked. -/
theorem C66_main_debug_wrong (m : Module) (fuel mi : Nat) (F : Func)
    (hf : (indexed m).find? (fun p => p.2.name = mainName) = some (mi, F)) (hs : F.sub = none) :
    runOnModule m fuel = .ub := by
  unfold runOnModule
  rw [hf]
  simp only [hookMain, hs, Outcome.bind_ub]

/-- A `static inline` function of a header, which calls `f` at line 4 of the header. -/
def hdr : Func := {
  name := "twice".toList, ret := .double, params := [.double]
  body := [.call { callee := some 1, args := [(.param 0, .double)], loc := some ⟨"h.h".toList, 4⟩ }]
  sub := some ⟨"twice".toList, ⟨"h.h".toList, 3⟩⟩ }

def unitA : Module := [hdr, { name := "f".toList, ret := .double, params := [.double] },
  { name := "a".toList, ret := .void, params := [], body := [.other []], sub := some ⟨"a".toList, ⟨"a.c".toList, 1⟩⟩ }]
def unitB : Module := [hdr, { name := "f".toList, ret := .double, params := [.double] },
  { name := "b".toList, ret := .void, params := [], body := [.other []], sub := some ⟨"b".toList, ⟨"b.c".toList, 1⟩⟩ }]

/-- **C66 is false across modules**: two compilation units that include the same header
have hooks of the same symbol, and the numbers start again in each module. -/
theorem C66_modules_wrong : ∃ a b h k, runOnModule a 10 = .ok (none, [h]) ∧ runOnModule b 10 = .ok (none, [k]) ∧
    (∀ f ∈ a, ∀ g ∈ b, f.name = g.name → f.body ≠ [] → f.name = "twice".toList) ∧ h.symbol = k.symbol ∧ h.id = k.id := by
  refine ⟨unitA, unitB, ⟨"h.h/twice/f/4/1".toList, symbolOf "h.h/twice/f/4/1".toList, 0, 0, 1, false, false, false, true, 1,
      [.int 1, .str "parameter_1".toList, .int 1, .ptr (.slot 0)], 1, [.int 1, .str "return_value".toList, .int 1, .ptr .retSlot]⟩,
    ⟨"h.h/twice/f/4/1".toList, symbolOf "h.h/twice/f/4/1".toList, 0, 0, 1, false, false, false, true, 1,
      [.int 1, .str "parameter_1".toList, .int 1, .ptr (.slot 0)], 1, [.int 1, .str "return_value".toList, .int 1, .ptr .retSlot]⟩,
    by decide +kernel, by decide +kernel, ?_, rfl, rfl⟩
  intro f hf g hg hn hb
  simp only [unitA, unitB, List.mem_cons, List.not_mem_nil, or_false] at hf hg
  rcases hf with rfl | rfl | rfl
  · rfl
  · exact absurd rfl hb
  · rcases hg with rfl | rfl | rfl <;> exact absurd hn (by decide)

/-- **C67 fails for a `main` with a pointer before a number**: the type and name of the
pointer are passed, its size and address are not. -/
theorem C67_main_wrong : ∃ m F h, hookMain m 10 0 F = .ok h ∧ F.params = [.ptr, .double] ∧ h.nIn = 1 ∧
    readArgs h.nIn h.enter = .ub :=
  ⟨[], { name := mainName, ret := .void, params := [.ptr, .double], sub := some ⟨mainName, ⟨exFile, 1⟩⟩ },
    ⟨"n.c//main/1/1".toList, symbolOf "n.c//main/1/1".toList, 0, 0, 0, false, false, false, false, 1,
      [.int 3, .str "parameter_1".toList, .int 1, .str "parameter_2".toList, .int 1, .ptr (.slot 0)], 0, []⟩,
    by decide +kernel, rfl, rfl, by decide⟩

/-- `f(double *a) { g(a); }` after optimisation. -/
def fwd : Func := {
  name := "f".toList, ret := .void, params := [.ptr], uses := fun _ => [0]
  body := [.call { callee := some 1, args := [(.param 0, .ptr)], loc := some ⟨exFile, 2⟩ }]
  sub := some ⟨"f".toList, ⟨exFile, 1⟩⟩ }

/-- The hypothesis of `C68_forward_wrong` holds of it, and the pass does not end. -/
example : Forwards fwd 0 := ⟨by decide, _, [], rfl, rfl⟩

example : runOnModule [fwd, { name := "g".toList, ret := .void, params := [.ptr] }] 100 = .ub := by decide +kernel

/-- **C68 is false for vectors**: the size of a local vector is asked of an array type. -/
theorem C68_vector_wrong (F : Func) (k n fuel : Nat) (h : F.body[k]? = some (Instr.alloca (.vector n))) :
    getSizeOf F fuel (.inst k) = .ub := by
  cases fuel with
  | zero => rfl
  | succ f => simp only [getSizeOf, h]

/-- `void z(int *p) { memset(p, 0, 64); }`. -/
def exMemset : Module := [
  { name := "z".toList, ret := .void, params := [.ptr]
    body := [.call { callee := some 1, args := [(.other, .ptr), (.other, .other 8), (.other, .other 64), (.other, .other 1)]
                     loc := some ⟨exFile, 1⟩ }]
    sub := some ⟨"z".toList, ⟨exFile, 1⟩⟩ },
  { name := "llvm.memset.p0.i64".toList, ret := .void, params := [.ptr, .other 8, .other 64, .other 1]
    intrinsic := true, imm := [3] }]

/-- **C68 is false for `memset`**: the call is hooked although no floating point is involved,
and the hook passes its own parameter where LLVM wants a constant. -/
theorem C68_immarg_wrong : ∃ m h g i, runOnModule m 10 = .ok (none, [h]) ∧ m[h.callee]? = some g ∧ g.intrinsic = true ∧
    i ∈ g.imm ∧ h.float = true ∧ h.double = true := by
  refine ⟨exMemset, ⟨"n.c/z/llvm.memset.p0.i64/1/1".toList, symbolOf "n.c/z/llvm.memset.p0.i64/1/1".toList, 0, 0, 1, false,
    true, true, true, 1, [.int 3, .str "parameter_1".toList, .int 0, .ptr (.param 0)], 1,
    [.int 3, .str "parameter_1".toList, .int 0, .ptr (.param 0)]⟩, _, 3, by decide +kernel, rfl, rfl, by decide, rfl, rfl⟩

end Verif.FuncInst
