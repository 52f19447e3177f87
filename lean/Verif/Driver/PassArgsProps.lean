import Verif.Driver.PassArgs
import Verif.Driver.Props
import Mathlib.Data.List.Nodup
import Mathlib.Tactic.SplitIfs

/-!
# C83: the options of the instrumentation reach the pass

* `C83_std`: the options of the driver are read by the pass as they were given.
* `C83_prism_partial`: the same for the PRISM pass, without `--inst-fcmp` and `--inst-cast`.
* `C83_prism_wrong`: with one of these, `opt` fails.
* `C83_space_wrong`: so it does when a file to include or exclude has a space in its name.
* `C83_debug_wrong`: two of the three debug modes do nothing.
* `C83_mode`: the four names of the modes.
-/

namespace Verif.Driver

/-! ## Words -/

/-- A word the shell leaves as it is. -/
def Plain (w : List Char) : Prop :=
  w ≠ [] ∧ ∀ c ∈ w, isSpace c = false ∧ isSpecial c = false ∧ c ≠ '\''

instance (w : List Char) : Decidable (Plain w) := inferInstanceAs (Decidable (_ ∧ _))

theorem lex_plain {w : List Char} (h : Plain w) : Lex w [w] := by
  have key : ∀ (w cur : List Char), (∀ c ∈ w, isSpace c = false ∧ isSpecial c = false ∧ c ≠ '\'') →
      shOut (some cur) w = .words [cur.reverse ++ w] := by
    intro w
    induction w with
    | nil => intro cur _; simp [shOut]
    | cons c w ih =>
      intro cur hw
      obtain ⟨h1, h2, h3⟩ := hw c List.mem_cons_self
      rw [shOut, h1, h2, if_neg (by decide), if_neg h3, if_neg (by decide)]
      rw [ih _ (fun d hd => hw d (List.mem_cons_of_mem _ hd))]
      simp
  obtain ⟨hne, hw⟩ := h
  cases w with
  | nil => exact absurd rfl hne
  | cons c w =>
    obtain ⟨h1, h2, h3⟩ := hw c List.mem_cons_self
    unfold Lex shWords
    rw [shOut, h1, h2, if_neg (by decide), if_neg h3, if_neg (by decide)]
    rw [key _ _ (fun d hd => hw d (List.mem_cons_of_mem _ hd))]
    rfl

/-! ## Items -/

/-- A flag, or an option and its value. -/
inductive Item where
  | flag (w : List Char)
  | value (w v : List Char)
deriving DecidableEq, Repr

def Item.key : Item → List Char
  | .flag w => w
  | .value w _ => w

def Item.kind : Item → OptKind
  | .flag _ => .flag
  | .value _ _ => .value

def Item.words : Item → List (List Char)
  | .flag w => [w]
  | .value w v => [w, v]

/-- Items are read in order, if those that may not be repeated are not. -/
theorem optParse_items (table : List (List Char × OptKind)) (many : List (List Char))
    (items : List Item) (rest : List (List Char)) (hrest : rest ≠ []) (r : Read)
    (htab : ∀ it ∈ items, table.lookup it.key = some it.kind)
    (hmany : ∀ w v, Item.value w v ∈ items → w ∉ many)
    (hnodup : ((items.map Item.key).filter (fun k => decide (k ∉ many))).Nodup)
    (hfresh : ∀ it ∈ items, it.key ∉ many → it.key ∉ r.flags ∧ r.values.lookup it.key = none) :
    ∃ r', optParse table many r (items.flatMap Item.words ++ rest) = optParse table many r' rest ∧
      r'.inputs = r.inputs ∧ (∀ w, w ∈ r'.flags ↔ w ∈ r.flags ∨ .flag w ∈ items) ∧
      (∀ w v, .value w v ∈ items → r'.values.lookup w = some v) ∧
      (∀ w, (∀ v, .value w v ∉ items) → r'.values.lookup w = r.values.lookup w) := by
  induction items generalizing r with
  | nil =>
    exact ⟨r, rfl, rfl, fun w => by simp, fun w v h => absurd h List.not_mem_nil, fun _ _ => rfl⟩
  | cons it items ih =>
    have htab' : ∀ it ∈ items, table.lookup it.key = some it.kind :=
      fun x hx => htab x (List.mem_cons_of_mem _ hx)
    have hmany' : ∀ w v, Item.value w v ∈ items → w ∉ many :=
      fun w v h => hmany w v (List.mem_cons_of_mem _ h)
    have hnodup' : ((items.map Item.key).filter (fun k => decide (k ∉ many))).Nodup := by
      rw [List.map_cons, List.filter_cons] at hnodup
      split_ifs at hnodup
      · exact (List.nodup_cons.mp hnodup).2
      · exact hnodup
    have hnot : it.key ∉ many → ∀ x ∈ items, x.key ≠ it.key := by
      intro h x hx e
      rw [List.map_cons, List.filter_cons, if_pos (by simpa using h)] at hnodup
      apply (List.nodup_cons.mp hnodup).1
      rw [List.mem_filter]
      exact ⟨List.mem_map.mpr ⟨x, hx, e⟩, by simpa using h⟩
    obtain ⟨v0, ws0, hw⟩ : ∃ v0 ws0, items.flatMap Item.words ++ rest = v0 :: ws0 := by
      cases h : items.flatMap Item.words ++ rest with
      | nil => exact absurd (List.append_eq_nil_iff.mp h).2 hrest
      | cons a l => exact ⟨a, l, rfl⟩
    cases it with
    | flag w =>
      have hl := htab (.flag w) List.mem_cons_self
      have hf := hfresh (.flag w) List.mem_cons_self
      dsimp only [Item.key, Item.kind] at hl hf
      obtain ⟨r', e, hi, h1, h2, h3⟩ := ih { r with flags := w :: r.flags } htab' hmany' hnodup' (by
        intro x hx hk
        obtain ⟨a, b⟩ := hfresh x (List.mem_cons_of_mem _ hx) hk
        refine ⟨fun hm => ?_, b⟩
        rcases List.mem_cons.mp hm with e | hm
        · exact hnot (show w ∉ many from e ▸ hk) x hx e
        · exact a hm)
      refine ⟨r', ?_, hi, ?_, ?_, ?_⟩
      · rw [← e, List.flatMap_cons, List.append_assoc]
        show optParse table many r (w :: (items.flatMap Item.words ++ rest)) = _
        rw [hw, optParse, hl]
        dsimp only
        rw [if_neg (fun h => (hf h.2).1 h.1)]
      · intro x
        rw [h1 x, List.mem_cons, List.mem_cons]
        constructor
        · rintro ((rfl | h) | h)
          · exact .inr (.inl rfl)
          · exact .inl h
          · exact .inr (.inr h)
        · rintro (h | h | h)
          · exact .inl (.inr h)
          · cases h; exact .inl (.inl rfl)
          · exact .inr h
      · intro x v h
        rcases List.mem_cons.mp h with h | h
        · cases h
        · exact h2 x v h
      · intro x h
        exact h3 x (fun v hv => h v (List.mem_cons_of_mem _ hv))
    | value w v =>
      have hl := htab (.value w v) List.mem_cons_self
      have hm := hmany w v List.mem_cons_self
      have hf := hfresh (.value w v) List.mem_cons_self hm
      dsimp only [Item.key, Item.kind] at hl hf hnot
      obtain ⟨r', e, hi, h1, h2, h3⟩ := ih { r with values := (w, v) :: r.values } htab' hmany' hnodup' (by
        intro x hx hk
        obtain ⟨a, b⟩ := hfresh x (List.mem_cons_of_mem _ hx) hk
        refine ⟨a, ?_⟩
        dsimp only
        rw [List.lookup_cons, show (x.key == w) = false from beq_eq_false_iff_ne.mpr (hnot hm x hx)]
        exact b)
      refine ⟨r', ?_, hi, ?_, ?_, ?_⟩
      · rw [← e, List.flatMap_cons, List.append_assoc]
        show optParse table many r (w :: v :: (items.flatMap Item.words ++ rest)) = _
        rw [optParse, hl]
        dsimp only
        rw [hf.2, if_neg (by decide)]
      · intro x
        rw [h1 x, List.mem_cons]
        constructor
        · rintro (h | h)
          · exact .inl h
          · exact .inr (.inr h)
        · rintro (h | h | h)
          · exact .inl h
          · cases h
          · exact .inr h
      · intro x y h
        rcases List.mem_cons.mp h with h | h
        · cases h
          rw [h3 w (fun v' hv' => hnot hm _ hv' rfl)]
          dsimp only
          rw [List.lookup_cons, beq_self_eq_true]
        · exact h2 x y h
      · intro x h
        rw [h3 x (fun y hy => h y (List.mem_cons_of_mem _ hy))]
        dsimp only
        rw [List.lookup_cons, show (x == w) = false from beq_eq_false_iff_ne.mpr (by
          rintro rfl
          exact h v List.mem_cons_self)]

/-- The end of the command. -/
theorem optParse_end (table : List (List Char × OptKind)) (many : List (List Char)) (r : Read)
    (ir ins : List Char) (hir : ir.head? = some '/') (htab : table.lookup ir = none)
    (ho : table.lookup "-o".toList = some .value) (hi : r.inputs = [])
    (hv : r.values.lookup "-o".toList = none) :
    optParse table many r [ir, "-o".toList, ins] =
      .ok ⟨r.flags, ("-o".toList, ins) :: r.values, [ir]⟩ := by
  rw [optParse, htab]
  dsimp only
  rw [hir, if_neg (by decide), hi, if_neg (by decide), optParse, ho]
  dsimp only
  rw [hv, if_neg (by decide), optParse]

/-! ## The items of a command -/

/-- The options asked for. -/
def flagItems (a : InstArgs) : List Item :=
  (if a.verbose then [.flag "-vfclibinst-verbose".toList] else []) ++
  ((if a.fcmp then [.flag "-vfclibinst-inst-fcmp".toList] else []) ++
  ((if a.fma then [.flag "-vfclibinst-inst-fma".toList] else []) ++
  (if a.cast then [.flag "-vfclibinst-inst-cast".toList] else [])))

def selectItems (a : InstArgs) : List Item :=
  if a.function ≠ [] then [.value "-vfclibinst-function".toList a.function]
  else (if a.includeFile ≠ [] then [.value "-vfclibinst-include-file".toList a.includeFile] else []) ++
    (if a.excludeFile ≠ [] then [.value "-vfclibinst-exclude-file".toList a.excludeFile] else [])

def debugItems (ds : List (List Char)) : List Item :=
  (ds.filter fun d => decide (d ≠ [])).map fun d => .flag ("-vfclibinst-debug-".toList ++ d)

def backendItems (p : Paths) (a : InstArgs) : List Item :=
  match a.prism with
  | none => [.value "-vfclibinst-vfcwrapper-file".toList p.wrapper]
  | some q =>
    [.value "-vfclibinst-mode".toList q.mode, .value "-vfclibinst-dispatch".toList q.dispatch,
     .value "-vfclibinst-prism-static-ir-file".toList p.staticLl,
     .value "-vfclibinst-prism-dynamic-ir-file".toList p.dynamicLl] ++
    ((if q.strict then [.flag "-vfclibinst-strict-abi".toList] else []) ++
    (if q.debug ≠ [] then .flag "-vfclibinst-debug".toList :: debugItems q.debug else []))

theorem lex_flag {name rest : List Char} {ws : List (List Char)} (hn : Plain name) (h : Lex rest ws) :
    Lex ((' ' :: name ++ [' ']) ++ rest) (name :: ws) := by
  have := (lex_plain hn).space h |>.lead
  simpa using this

theorem lex_value {name v rest : List Char} {ws : List (List Char)} (hn : Plain name) (hv : Plain v)
    (h : Lex rest ws) : Lex ((' ' :: name ++ [' ']) ++ (v ++ ' ' :: rest)) (name :: v :: ws) :=
  lex_flag hn ((lex_plain hv).space h)

theorem lex_flag_if (b : Bool) {text name rest : List Char} {ws : List (List Char)}
    (ht : text = ' ' :: name ++ [' ']) (hn : Plain name) (h : Lex rest ws) :
    Lex ((if b then text else []) ++ rest)
      ((if b then [Item.flag name] else []).flatMap Item.words ++ ws) := by
  cases b with
  | false => exact h
  | true => rw [if_pos rfl, if_pos rfl, ht]; exact lex_flag hn h

theorem lex_flags (a : InstArgs) {rest : List Char} {ws : List (List Char)} (h : Lex rest ws) :
    Lex (flagText a ++ rest) ((flagItems a).flatMap Item.words ++ ws) := by
  unfold flagText flagItems
  simp only [List.flatMap_append, List.append_assoc]
  exact lex_flag_if _ (by decide) (by decide +kernel) (lex_flag_if _ (by decide) (by decide +kernel)
    (lex_flag_if _ (by decide) (by decide +kernel) (lex_flag_if _ (by decide) (by decide +kernel) h)))

theorem plain_append {a b : List Char} (ha : Plain a) (hb : ∀ c ∈ b, isSpace c = false ∧ isSpecial c = false ∧ c ≠ '\'') :
    Plain (a ++ b) := by
  refine ⟨fun h => ha.1 (List.append_eq_nil_iff.mp h).1, fun c hc => ?_⟩
  rcases List.mem_append.mp hc with h | h
  · exact ha.2 c h
  · exact hb c h

theorem lex_debug (ds : List (List Char)) (hd : ∀ d ∈ ds, d = [] ∨ Plain d) {rest : List Char}
    {ws : List (List Char)} (h : Lex rest ws) :
    Lex (debugText ds ++ rest) ((debugItems ds).flatMap Item.words ++ ws) := by
  induction ds with
  | nil => exact h
  | cons d ds ih =>
    have ih' := ih (fun x hx => hd x (List.mem_cons_of_mem _ hx))
    rw [debugText]
    unfold debugItems at ih' ⊢
    by_cases e : d = []
    · subst e
      rw [if_neg (by simp), List.nil_append, List.filter_cons_of_neg (by simp)]
      exact ih'
    · have hp : Plain d := (hd d List.mem_cons_self).resolve_left e
      rw [if_pos e, List.filter_cons_of_pos (by simpa using e), List.map_cons, List.flatMap_cons]
      have e1 : " -vfclibinst-debug-".toList = ' ' :: "-vfclibinst-debug-".toList := by decide
      have e2 : " ".toList = [' '] := by decide
      have := lex_flag (plain_append (a := "-vfclibinst-debug-".toList) (by decide +kernel) hp.2) ih'
      rw [e1, e2]
      simp only [List.append_assoc, List.cons_append, List.nil_append, Item.words] at this ⊢
      exact this

/-- The words given are plain. -/
structure PlainArgs (p : Paths) (a : InstArgs) : Prop where
  ir : Plain p.ir
  ins : Plain p.ins
  function : a.function = [] ∨ Plain a.function
  includeFile : a.includeFile = [] ∨ Plain a.includeFile
  excludeFile : a.excludeFile = [] ∨ Plain a.excludeFile
  wrapper : Plain p.wrapper
  staticLl : Plain p.staticLl
  dynamicLl : Plain p.dynamicLl
  mode : ∀ q, a.prism = some q → Plain q.mode
  dispatch : ∀ q, a.prism = some q → Plain q.dispatch
  debug : ∀ q, a.prism = some q → ∀ d ∈ q.debug, d = [] ∨ Plain d

theorem lex_backend {p : Paths} {a : InstArgs} (hp : PlainArgs p a) {rest : List Char}
    {ws : List (List Char)} (h : Lex rest ws) :
    Lex (backendText p a ++ rest) ((backendItems p a).flatMap Item.words ++ ws) := by
  have e2 : " ".toList = [' '] := by decide
  unfold backendText backendItems
  cases hq : a.prism with
  | none =>
    dsimp only
    have e1 : " -vfclibinst-vfcwrapper-file ".toList = ' ' :: "-vfclibinst-vfcwrapper-file".toList ++ [' '] := by
      decide
    rw [e1, e2]
    have := lex_value (name := "-vfclibinst-vfcwrapper-file".toList) (by decide +kernel) hp.wrapper h
    simpa [Item.words] using this
  | some q =>
    dsimp only
    have m1 : " -vfclibinst-mode ".toList = ' ' :: "-vfclibinst-mode".toList ++ [' '] := by decide
    have m2 : " -vfclibinst-dispatch ".toList = ' ' :: "-vfclibinst-dispatch".toList ++ [' '] := by decide
    have m3 : " -vfclibinst-prism-static-ir-file ".toList =
        ' ' :: "-vfclibinst-prism-static-ir-file".toList ++ [' '] := by decide
    have m4 : " -vfclibinst-prism-dynamic-ir-file ".toList =
        ' ' :: "-vfclibinst-prism-dynamic-ir-file".toList ++ [' '] := by decide
    have m5 : " -vfclibinst-debug ".toList = ' ' :: "-vfclibinst-debug".toList ++ [' '] := by decide
    have hdbg : Lex ((if q.debug ≠ [] then " -vfclibinst-debug ".toList ++ debugText q.debug else []) ++ rest)
        ((if q.debug ≠ [] then Item.flag "-vfclibinst-debug".toList :: debugItems q.debug else []).flatMap
          Item.words ++ ws) := by
      by_cases e : q.debug = []
      · have e0 : ¬ q.debug ≠ [] := fun h => h e
        rw [if_neg e0, if_neg e0]
        exact h
      · rw [if_pos e, if_pos e, m5, List.append_assoc, List.flatMap_cons, List.append_assoc]
        exact lex_flag (name := "-vfclibinst-debug".toList) (by decide +kernel) (lex_debug _ (hp.debug q hq) h)
    have hstrict := lex_flag_if q.strict (text := " -vfclibinst-strict-abi ".toList)
      (name := "-vfclibinst-strict-abi".toList) (by decide) (by decide +kernel) hdbg
    have h4 := lex_value (name := "-vfclibinst-prism-dynamic-ir-file".toList) (by decide +kernel) hp.dynamicLl hstrict
    have h3 := lex_value (name := "-vfclibinst-prism-static-ir-file".toList) (by decide +kernel) hp.staticLl h4
    have h2 := lex_value (name := "-vfclibinst-dispatch".toList) (by decide +kernel) (hp.dispatch q hq) h3
    have h1 := lex_value (name := "-vfclibinst-mode".toList) (by decide +kernel) (hp.mode q hq) h2
    rw [m1, m2, m3, m4, e2]
    simp only [List.append_assoc, List.cons_append, List.nil_append, List.flatMap_append,
      List.flatMap_cons, List.flatMap_nil, Item.words] at h1 ⊢
    exact h1

theorem lex_select {p : Paths} {a : InstArgs} (hp : PlainArgs p a) {rest : List Char}
    {ws : List (List Char)} (h : Lex rest ws) :
    Lex (selectText a ++ ' ' :: rest) ((selectItems a).flatMap Item.words ++ ws) := by
  have m1 : " -vfclibinst-function ".toList = ' ' :: "-vfclibinst-function".toList ++ [' '] := by decide
  have m2 : " -vfclibinst-include-file ".toList = ' ' :: "-vfclibinst-include-file".toList ++ [' '] := by decide
  have m3 : " -vfclibinst-exclude-file ".toList = ' ' :: "-vfclibinst-exclude-file".toList ++ [' '] := by decide
  unfold selectText selectItems
  by_cases hf : a.function = []
  · have hf' : ¬ a.function ≠ [] := fun h => h hf
    rw [if_neg hf', if_neg hf']
    have hx : Lex ((if a.excludeFile ≠ [] then " -vfclibinst-exclude-file ".toList ++ a.excludeFile else []) ++
          ' ' :: rest)
        ((if a.excludeFile ≠ [] then [Item.value "-vfclibinst-exclude-file".toList a.excludeFile] else []).flatMap
          Item.words ++ ws) := by
      by_cases e : a.excludeFile = []
      · have e0 : ¬ a.excludeFile ≠ [] := fun h => h e
        rw [if_neg e0, if_neg e0]
        exact h.lead
      · rw [if_pos e, if_pos e, m3, List.append_assoc]
        exact lex_value (by decide +kernel) (hp.excludeFile.resolve_left e) h
    by_cases e : a.includeFile = []
    · have e0 : ¬ a.includeFile ≠ [] := fun h => h e
      rw [if_neg e0, if_neg e0]
      exact hx
    · rw [if_pos e, if_pos e, m2]
      have hpl := hp.includeFile.resolve_left e
      by_cases e' : a.excludeFile = []
      · have e0 : ¬ a.excludeFile ≠ [] := fun h => h e'
        rw [if_neg e0, if_neg e0, List.append_nil, List.append_nil,
          List.append_assoc]
        exact lex_value (by decide +kernel) hpl h
      · rw [if_pos e', if_pos e', m3]
        have hpx := hp.excludeFile.resolve_left e'
        have h1 := (lex_plain (w := "-vfclibinst-exclude-file".toList) (by decide +kernel)).space
          ((lex_plain hpx).space h)
        have h2 := lex_value (name := "-vfclibinst-include-file".toList) (by decide +kernel) hpl h1
        simp only [List.append_assoc, List.cons_append, List.nil_append, List.flatMap_append,
          List.flatMap_cons, List.flatMap_nil, Item.words] at h2 ⊢
        exact h2
  · rw [if_pos hf, if_pos hf, m1, List.append_assoc]
    exact lex_value (by decide +kernel) (hp.function.resolve_left hf) h

/-- All the items of a command. -/
def itemsOf (p : Paths) (a : InstArgs) : List Item := flagItems a ++ (backendItems p a ++ selectItems a)

theorem lex_command {p : Paths} {a : InstArgs} (hp : PlainArgs p a) {pre : List (List Char)}
    (ho : Lex p.opt pre) :
    Lex (optCommand p a) (pre ++ ((itemsOf p a).flatMap Item.words ++ [p.ir, "-o".toList, p.ins])) := by
  have e1 : " ".toList = [' '] := by decide
  have e2 : "  ".toList = [' ', ' '] := by decide
  have e3 : " -o ".toList = ' ' :: "-o".toList ++ [' '] := by decide
  have htail : Lex (p.ir ++ ' ' :: ("-o".toList ++ ' ' :: p.ins)) [p.ir, "-o".toList, p.ins] :=
    (lex_plain hp.ir).space ((lex_plain (by decide +kernel)).space (lex_plain hp.ins))
  have h := lex_flags a (lex_backend hp (lex_select hp htail.lead).lead)
  have h := ho.space h
  unfold optCommand itemsOf
  rw [e1, e2, e3]
  simp only [List.append_assoc, List.cons_append, List.nil_append, List.flatMap_append] at h ⊢
  exact h

/-! ## Keys -/

theorem flagItems_keys (a : InstArgs) : ((flagItems a).map Item.key).Sublist
    ["-vfclibinst-verbose".toList, "-vfclibinst-inst-fcmp".toList, "-vfclibinst-inst-fma".toList,
      "-vfclibinst-inst-cast".toList] := by
  unfold flagItems
  cases a.verbose <;> cases a.fcmp <;> cases a.fma <;> cases a.cast <;> decide +kernel

theorem selectItems_keys (a : InstArgs) : ((selectItems a).map Item.key).Sublist
    ["-vfclibinst-function".toList, "-vfclibinst-include-file".toList, "-vfclibinst-exclude-file".toList] := by
  unfold selectItems
  split_ifs <;> simp only [List.map_append, List.map_cons, List.map_nil, Item.key] <;> decide +kernel

/-- What a command asks for, in terms of items. -/
theorem flag_mem (a : InstArgs) (w : List Char) : Item.flag w ∈ flagItems a ↔
    (a.verbose = true ∧ w = "-vfclibinst-verbose".toList) ∨ (a.fcmp = true ∧ w = "-vfclibinst-inst-fcmp".toList) ∨
    (a.fma = true ∧ w = "-vfclibinst-inst-fma".toList) ∨ (a.cast = true ∧ w = "-vfclibinst-inst-cast".toList) := by
  unfold flagItems
  simp only [List.mem_append]
  cases a.verbose <;> cases a.fcmp <;> cases a.fma <;> cases a.cast <;>
    simp only [Bool.false_eq_true, if_false, if_true, List.not_mem_nil, List.mem_singleton, Item.flag.injEq,
      false_and, true_and, or_false, false_or]

theorem value_flagItems (a : InstArgs) (w v : List Char) : Item.value w v ∉ flagItems a := by
  unfold flagItems
  cases a.verbose <;> cases a.fcmp <;> cases a.fma <;> cases a.cast <;> simp

theorem flag_selectItems (a : InstArgs) (w : List Char) : Item.flag w ∉ selectItems a := by
  unfold selectItems
  split_ifs <;> simp

theorem value_select (a : InstArgs) (w v : List Char) : Item.value w v ∈ selectItems a ↔ v ≠ [] ∧
    ((w = "-vfclibinst-function".toList ∧ v = a.function) ∨
    (a.function = [] ∧ w = "-vfclibinst-include-file".toList ∧ v = a.includeFile) ∨
    (a.function = [] ∧ w = "-vfclibinst-exclude-file".toList ∧ v = a.excludeFile)) := by
  unfold selectItems
  have key : ∀ k f : List Char, Item.value w v ∈ (if f ≠ [] then [Item.value k f] else []) ↔
      v ≠ [] ∧ w = k ∧ v = f := by
    intro k f
    by_cases hf : f = []
    · have hf' : ¬ f ≠ [] := fun h => h hf
      rw [if_neg hf']
      constructor
      · intro h; exact absurd h List.not_mem_nil
      · rintro ⟨h1, -, h3⟩; exact absurd (h3.trans hf) h1
    · rw [if_pos hf, List.mem_singleton, Item.value.injEq]
      constructor
      · rintro ⟨h1, h2⟩; exact ⟨h2 ▸ hf, h1, h2⟩
      · rintro ⟨-, h1, h2⟩; exact ⟨h1, h2⟩
  by_cases hf : a.function = []
  · have hf' : ¬ a.function ≠ [] := fun h => h hf
    rw [if_neg hf', List.mem_append, key, key]
    constructor
    · rintro (⟨h1, h2⟩ | ⟨h1, h2⟩)
      · exact ⟨h1, .inr (.inl ⟨hf, h2⟩)⟩
      · exact ⟨h1, .inr (.inr ⟨hf, h2⟩)⟩
    · rintro ⟨h1, ⟨-, h2⟩ | ⟨-, h2⟩ | ⟨-, h2⟩⟩
      · exact absurd (h2.trans hf) h1
      · exact .inl ⟨h1, h2⟩
      · exact .inr ⟨h1, h2⟩
  · have := key "-vfclibinst-function".toList a.function
    rw [if_pos hf] at this
    rw [if_pos hf, this]
    constructor
    · rintro ⟨h1, h2⟩; exact ⟨h1, .inl h2⟩
    · rintro ⟨h1, h2 | ⟨h2, -⟩ | ⟨h2, -⟩⟩
      · exact ⟨h1, h2⟩
      · exact absurd h2 hf
      · exact absurd h2 hf

theorem lookup_slash {table : List (List Char × OptKind)}
    (ht : (table.all fun e => e.1.head? == some '-') = true) {ir : List Char} (h : ir.head? = some '/') :
    table.lookup ir = none := by
  rw [List.lookup_eq_none_iff]
  intro e he
  rw [List.all_eq_true] at ht
  have := ht e he
  rw [beq_iff_eq] at this
  rw [bne_iff_ne]
  intro e
  rw [← e, h] at this
  cases this

/-- What is read of a command whose options the pass has. -/
theorem read_command (prism : Bool) {p : Paths} {a : InstArgs} (hp : PlainArgs p a) {pre : List (List Char)}
    (ho : Lex p.opt pre) (hir : p.ir.head? = some '/')
    (htab : ∀ it ∈ itemsOf p a, (if prism then prismTable else stdTable).lookup it.key = some it.kind)
    (hmany : ∀ w v, Item.value w v ∈ itemsOf p a → w ∉ debugOptions ∧ w ≠ "-o".toList)
    (hnodup : (((itemsOf p a).map Item.key).filter (fun k => decide (k ∉ debugOptions))).Nodup) :
    ∃ ws r, Lex (optCommand p a) (pre ++ ws) ∧ runOpt prism ws = .ok r ∧ r.inputs = [p.ir] ∧
      r.value "-o".toList = p.ins ∧ (∀ w, r.flag w = true ↔ .flag w ∈ itemsOf p a) ∧
      (∀ w v, .value w v ∈ itemsOf p a → r.value w = v) ∧
      (∀ w, w ≠ "-o".toList → (∀ v, .value w v ∉ itemsOf p a) → r.value w = []) := by
  obtain ⟨r', e, hi, h1, h2, h3⟩ := optParse_items (if prism then prismTable else stdTable) debugOptions
    (itemsOf p a) [p.ir, "-o".toList, p.ins] (by simp) ⟨[], [], []⟩ htab (fun w v h => (hmany w v h).1) hnodup
    (fun it _ _ => ⟨List.not_mem_nil, rfl⟩)
  have hend := optParse_end (if prism then prismTable else stdTable) debugOptions r' p.ir p.ins hir
    (lookup_slash (by cases prism <;> decide +kernel) hir) (by cases prism <;> decide +kernel) hi
    (h3 _ (fun v hv => (hmany _ v hv).2 rfl))
  refine ⟨_, _, lex_command hp ho, by unfold runOpt; rw [e, hend], rfl, ?_, ?_, ?_, ?_⟩
  · unfold Read.value
    dsimp only
    rw [List.lookup_cons, beq_self_eq_true]
    rfl
  · intro w
    unfold Read.flag
    rw [decide_eq_true_eq, h1 w]
    exact ⟨fun h => h.resolve_left List.not_mem_nil, .inr⟩
  · intro w v h
    unfold Read.value
    dsimp only
    rw [List.lookup_cons, show (w == "-o".toList) = false from beq_eq_false_iff_ne.mpr (hmany w v h).2]
    dsimp only
    rw [h2 w v h]
    rfl
  · intro w hw h
    unfold Read.value
    dsimp only
    rw [List.lookup_cons, show (w == "-o".toList) = false from beq_eq_false_iff_ne.mpr hw]
    dsimp only
    rw [h3 w h]
    rfl

/-- The common part of what is read. -/
structure CommonRead (p : Paths) (a : InstArgs) (r : Read) : Prop where
  input : r.inputs = [p.ir]
  output : r.value "-o".toList = p.ins
  verbose : r.flag "-vfclibinst-verbose".toList = a.verbose
  fma : r.flag "-vfclibinst-inst-fma".toList = a.fma
  function : r.value "-vfclibinst-function".toList = a.function
  files : a.function = [] → r.value "-vfclibinst-include-file".toList = a.includeFile ∧
    r.value "-vfclibinst-exclude-file".toList = a.excludeFile

theorem iff_bool {b c : Bool} (h : b = true ↔ c = true) : b = c := by
  cases b <;> cases c <;> simp at h ⊢

theorem flag_backend_none {p : Paths} {a : InstArgs} (h : a.prism = none) (w : List Char) :
    Item.flag w ∉ backendItems p a := by
  unfold backendItems
  rw [h]
  simp

theorem value_backend_none {p : Paths} {a : InstArgs} (h : a.prism = none) (w v : List Char) :
    Item.value w v ∈ backendItems p a ↔ w = "-vfclibinst-vfcwrapper-file".toList ∧ v = p.wrapper := by
  unfold backendItems
  rw [h]
  dsimp only
  rw [List.mem_singleton, Item.value.injEq]

/-- C83.  The pass reads the options as they were given to the driver. -/
theorem C83_std (p : Paths) (a : InstArgs) (hn : a.prism = none) (hp : PlainArgs p a)
    (pre : List (List Char)) (ho : Lex p.opt pre) (hir : p.ir.head? = some '/') :
    ∃ ws r, Lex (optCommand p a) (pre ++ ws) ∧ runOpt false ws = .ok r ∧ CommonRead p a r ∧
      r.flag "-vfclibinst-inst-fcmp".toList = a.fcmp ∧ r.flag "-vfclibinst-inst-cast".toList = a.cast ∧
      r.value "-vfclibinst-vfcwrapper-file".toList = p.wrapper := by
  have hmem : ∀ it, it ∈ itemsOf p a ↔ it ∈ flagItems a ∨ it ∈ backendItems p a ∨ it ∈ selectItems a := by
    intro it
    unfold itemsOf
    rw [List.mem_append, List.mem_append]
  have hflag : ∀ w, Item.flag w ∈ itemsOf p a ↔ Item.flag w ∈ flagItems a := by
    intro w
    rw [hmem]
    exact ⟨fun h => h.resolve_right (fun h => h.elim (flag_backend_none hn w) (flag_selectItems a w)), .inl⟩
  have hval : ∀ w v, Item.value w v ∈ itemsOf p a ↔
      (w = "-vfclibinst-vfcwrapper-file".toList ∧ v = p.wrapper) ∨ Item.value w v ∈ selectItems a := by
    intro w v
    rw [hmem, value_backend_none hn]
    exact ⟨fun h => h.resolve_left (value_flagItems a w v), .inr⟩
  have htab : ∀ it ∈ itemsOf p a, (if false then prismTable else stdTable).lookup it.key = some it.kind := by
    intro it hit
    cases it with
    | flag w =>
      rw [hflag, flag_mem] at hit
      rcases hit with ⟨-, rfl⟩ | ⟨-, rfl⟩ | ⟨-, rfl⟩ | ⟨-, rfl⟩ <;> decide +kernel
    | value w v =>
      rw [hval, value_select] at hit
      dsimp only [Item.key, Item.kind]
      rcases hit with ⟨rfl, -⟩ | ⟨-, ⟨rfl, -⟩ | ⟨-, rfl, -⟩ | ⟨-, rfl, -⟩⟩ <;> decide +kernel
  have hmany : ∀ w v, Item.value w v ∈ itemsOf p a → w ∉ debugOptions ∧ w ≠ "-o".toList := by
    intro w v hit
    rw [hval, value_select] at hit
    rcases hit with ⟨rfl, -⟩ | ⟨-, ⟨rfl, -⟩ | ⟨-, rfl, -⟩ | ⟨-, rfl, -⟩⟩ <;> decide +kernel
  have hnodup : (((itemsOf p a).map Item.key).filter (fun k => decide (k ∉ debugOptions))).Nodup := by
    have hb : (backendItems p a).map Item.key = ["-vfclibinst-vfcwrapper-file".toList] := by
      unfold backendItems
      rw [hn]
      rfl
    refine List.Nodup.sublist (List.filter_sublist.trans ?_) (l₂ := ["-vfclibinst-verbose".toList,
      "-vfclibinst-inst-fcmp".toList, "-vfclibinst-inst-fma".toList, "-vfclibinst-inst-cast".toList] ++
      (["-vfclibinst-vfcwrapper-file".toList] ++ ["-vfclibinst-function".toList,
        "-vfclibinst-include-file".toList, "-vfclibinst-exclude-file".toList])) (by decide +kernel)
    unfold itemsOf
    rw [List.map_append, List.map_append, hb]
    exact (flagItems_keys a).append ((List.Sublist.refl _).append (selectItems_keys a))
  obtain ⟨ws, r, hl, hr, h1, h2, h3, h4, h5⟩ := read_command false hp ho hir htab hmany hnodup
  have hf : ∀ w b, (Item.flag w ∈ flagItems a ↔ b = true) → r.flag w = b := by
    intro w b h
    exact iff_bool ((h3 w).trans ((hflag w).trans h))
  have hv : ∀ w v, w ≠ "-o".toList → (∀ u, Item.value w u ∈ itemsOf p a ↔ u ≠ [] ∧ u = v) → r.value w = v := by
    intro w v hw h
    by_cases e : v = []
    · rw [e]
      exact h5 w hw (fun u hu => by
        obtain ⟨h6, h7⟩ := (h u).mp hu
        exact h6 (h7.trans e))
    · exact h4 w v ((h v).mpr ⟨e, rfl⟩)
  have hne : ∀ {x y : List Char}, (x == y) = false → x = y → False := fun h e => by
    rw [beq_eq_false_iff_ne] at h
    exact h e
  refine ⟨ws, r, hl, hr, ⟨h1, h2, hf _ _ ?_, hf _ _ ?_, hv _ _ (by decide +kernel) ?_, ?_⟩, hf _ _ ?_, hf _ _ ?_,
    h4 _ _ ((hval _ _).mpr (.inl ⟨rfl, rfl⟩))⟩
  · rw [flag_mem]
    constructor
    · rintro (⟨h, -⟩ | ⟨-, h⟩ | ⟨-, h⟩ | ⟨-, h⟩)
      · exact h
      all_goals exact absurd h (by decide +kernel)
    · exact fun h => .inl ⟨h, rfl⟩
  · rw [flag_mem]
    constructor
    · rintro (⟨-, h⟩ | ⟨-, h⟩ | ⟨h, -⟩ | ⟨-, h⟩)
      · exact absurd h (by decide +kernel)
      · exact absurd h (by decide +kernel)
      · exact h
      · exact absurd h (by decide +kernel)
    · exact fun h => .inr (.inr (.inl ⟨h, rfl⟩))
  · intro u
    rw [hval, value_select]
    constructor
    · rintro (⟨h, -⟩ | ⟨h0, ⟨-, h⟩ | ⟨-, h, -⟩ | ⟨-, h, -⟩⟩)
      · exact absurd h (by decide +kernel)
      · exact ⟨h0, h⟩
      · exact absurd h (by decide +kernel)
      · exact absurd h (by decide +kernel)
    · rintro ⟨h0, h⟩
      exact .inr ⟨h0, .inl ⟨rfl, h⟩⟩
  · intro hfun
    refine ⟨hv _ _ (by decide +kernel) (fun u => ?_), hv _ _ (by decide +kernel) (fun u => ?_)⟩
    · rw [hval, value_select]
      constructor
      · rintro (⟨h, -⟩ | ⟨h0, ⟨h, -⟩ | ⟨-, -, h⟩ | ⟨-, h, -⟩⟩)
        · exact absurd h (by decide +kernel)
        · exact absurd h (by decide +kernel)
        · exact ⟨h0, h⟩
        · exact absurd h (by decide +kernel)
      · rintro ⟨h0, h⟩
        exact .inr ⟨h0, .inr (.inl ⟨hfun, rfl, h⟩)⟩
    · rw [hval, value_select]
      constructor
      · rintro (⟨h, -⟩ | ⟨h0, ⟨h, -⟩ | ⟨-, h, -⟩ | ⟨-, -, h⟩⟩)
        · exact absurd h (by decide +kernel)
        · exact absurd h (by decide +kernel)
        · exact absurd h (by decide +kernel)
        · exact ⟨h0, h⟩
      · rintro ⟨h0, h⟩
        exact .inr ⟨h0, .inr (.inr ⟨hfun, rfl, h⟩)⟩
  · rw [flag_mem]
    constructor
    · rintro (⟨-, h⟩ | ⟨h, -⟩ | ⟨-, h⟩ | ⟨-, h⟩)
      · exact absurd h (by decide +kernel)
      · exact h
      · exact absurd h (by decide +kernel)
      · exact absurd h (by decide +kernel)
    · exact fun h => .inr (.inl ⟨h, rfl⟩)
  · rw [flag_mem]
    constructor
    · rintro (⟨-, h⟩ | ⟨-, h⟩ | ⟨-, h⟩ | ⟨h, -⟩)
      · exact absurd h (by decide +kernel)
      · exact absurd h (by decide +kernel)
      · exact absurd h (by decide +kernel)
      · exact h
    · exact fun h => .inr (.inr (.inr ⟨h, rfl⟩))

/-! ## PRISM -/

theorem flag_debug (ds : List (List Char)) (w : List Char) : Item.flag w ∈ debugItems ds ↔
    ∃ d ∈ ds, d ≠ [] ∧ w = "-vfclibinst-debug-".toList ++ d := by
  unfold debugItems
  rw [List.mem_map]
  constructor
  · rintro ⟨d, hd, e⟩
    obtain ⟨h1, h2⟩ := List.mem_filter.mp hd
    exact ⟨d, h1, of_decide_eq_true h2, (Item.flag.inj e).symm⟩
  · rintro ⟨d, h1, h2, rfl⟩
    exact ⟨d, List.mem_filter.mpr ⟨h1, decide_eq_true h2⟩, rfl⟩

theorem value_debug (ds : List (List Char)) (w v : List Char) : Item.value w v ∉ debugItems ds := by
  unfold debugItems
  rw [List.mem_map]
  rintro ⟨d, -, e⟩
  cases e

theorem flag_backend_some {p : Paths} {a : InstArgs} {q : PrismArgs} (h : a.prism = some q) (w : List Char) :
    Item.flag w ∈ backendItems p a ↔ (q.strict = true ∧ w = "-vfclibinst-strict-abi".toList) ∨
      (q.debug ≠ [] ∧ w = "-vfclibinst-debug".toList) ∨
      ∃ d ∈ q.debug, d ≠ [] ∧ w = "-vfclibinst-debug-".toList ++ d := by
  unfold backendItems
  rw [h]
  dsimp only
  rw [List.mem_append, List.mem_append]
  constructor
  · rintro (h | h | h)
    · simp only [List.mem_cons, List.not_mem_nil, reduceCtorEq, or_false] at h
    · cases hs : q.strict with
      | false => rw [hs, if_neg (by decide)] at h; exact absurd h List.not_mem_nil
      | true =>
        rw [hs, if_pos rfl, List.mem_singleton] at h
        exact .inl ⟨rfl, Item.flag.inj h⟩
    · by_cases e : q.debug = []
      · have e0 : ¬ q.debug ≠ [] := fun h => h e
        rw [if_neg e0] at h
        exact absurd h List.not_mem_nil
      · rw [if_pos e] at h
        rcases List.mem_cons.mp h with h | h
        · exact .inr (.inl ⟨e, Item.flag.inj h⟩)
        · exact .inr (.inr ((flag_debug _ _).mp h))
  · rintro (⟨h, rfl⟩ | ⟨h, rfl⟩ | h)
    · exact .inr (.inl (by rw [if_pos h]; exact List.mem_singleton.mpr rfl))
    · exact .inr (.inr (by rw [if_pos h]; exact List.mem_cons_self))
    · refine .inr (.inr ?_)
      have e : q.debug ≠ [] := by
        rintro e
        obtain ⟨d, hd, -⟩ := h
        rw [e] at hd
        exact absurd hd List.not_mem_nil
      rw [if_pos e]
      exact List.mem_cons_of_mem _ ((flag_debug _ _).mpr h)

theorem value_backend_some {p : Paths} {a : InstArgs} {q : PrismArgs} (h : a.prism = some q)
    (w v : List Char) : Item.value w v ∈ backendItems p a ↔
      (w = "-vfclibinst-mode".toList ∧ v = q.mode) ∨ (w = "-vfclibinst-dispatch".toList ∧ v = q.dispatch) ∨
      (w = "-vfclibinst-prism-static-ir-file".toList ∧ v = p.staticLl) ∨
      (w = "-vfclibinst-prism-dynamic-ir-file".toList ∧ v = p.dynamicLl) := by
  unfold backendItems
  rw [h]
  dsimp only
  rw [List.mem_append]
  have hno : Item.value w v ∉ (if q.strict then [Item.flag "-vfclibinst-strict-abi".toList] else []) ++
      (if q.debug ≠ [] then Item.flag "-vfclibinst-debug".toList :: debugItems q.debug else []) := by
    rw [List.mem_append]
    rintro (h | h)
    · cases hs : q.strict with
      | false => rw [hs, if_neg (by decide)] at h; exact absurd h List.not_mem_nil
      | true => rw [hs, if_pos rfl, List.mem_singleton] at h; cases h
    · by_cases e : q.debug = []
      · have e0 : ¬ q.debug ≠ [] := fun h => h e
        rw [if_neg e0] at h
        exact absurd h List.not_mem_nil
      · rw [if_pos e] at h
        rcases List.mem_cons.mp h with h | h
        · cases h
        · exact value_debug _ _ _ h
  constructor
  · intro h
    have h := h.resolve_right hno
    simpa only [List.mem_cons, List.not_mem_nil, Item.value.injEq, or_false] using h
  · intro h
    exact .inl (by simpa only [List.mem_cons, List.not_mem_nil, Item.value.injEq, or_false] using h)

/-- The debug modes (`verificarlo.in.in:488`). -/
def debugModes : List (List Char) := ["getoperands".toList, "abi".toList, "targetfeatures".toList, []]

theorem debug_known {d : List Char} (h : d ∈ debugModes) (hne : d ≠ []) :
    "-vfclibinst-debug-".toList ++ d ∈ debugOptions ∧
    prismTable.lookup ("-vfclibinst-debug-".toList ++ d) = some .flag := by
  unfold debugModes at h
  simp only [List.mem_cons, List.not_mem_nil, or_false] at h
  rcases h with rfl | rfl | rfl | rfl
  · decide +kernel
  · decide +kernel
  · decide +kernel
  · exact absurd rfl hne

/-- C83 for the PRISM pass.  Missing: the options `--inst-fcmp` and `--inst-cast`, of which it has
none. -/
theorem C83_prism_partial (p : Paths) (a : InstArgs) (q : PrismArgs) (hq : a.prism = some q)
    (hcmp : a.fcmp = false) (hcast : a.cast = false) (hdbg : ∀ d ∈ q.debug, d ∈ debugModes)
    (hp : PlainArgs p a) (pre : List (List Char)) (ho : Lex p.opt pre) (hir : p.ir.head? = some '/') :
    ∃ ws r, Lex (optCommand p a) (pre ++ ws) ∧ runOpt true ws = .ok r ∧ CommonRead p a r ∧
      r.value "-vfclibinst-mode".toList = q.mode ∧ r.value "-vfclibinst-dispatch".toList = q.dispatch ∧
      r.value "-vfclibinst-prism-static-ir-file".toList = p.staticLl ∧
      r.value "-vfclibinst-prism-dynamic-ir-file".toList = p.dynamicLl ∧
      r.flag "-vfclibinst-strict-abi".toList = q.strict ∧
      (r.flag "-vfclibinst-debug".toList = true ↔ q.debug ≠ []) ∧
      ∀ d ∈ debugModes, d ≠ [] → (r.flag ("-vfclibinst-debug-".toList ++ d) = true ↔ d ∈ q.debug) := by
  have hmem : ∀ it, it ∈ itemsOf p a ↔ it ∈ flagItems a ∨ it ∈ backendItems p a ∨ it ∈ selectItems a := by
    intro it
    unfold itemsOf
    rw [List.mem_append, List.mem_append]
  have hflag : ∀ w, Item.flag w ∈ itemsOf p a ↔
      ((a.verbose = true ∧ w = "-vfclibinst-verbose".toList) ∨ (a.fma = true ∧ w = "-vfclibinst-inst-fma".toList)) ∨
      (q.strict = true ∧ w = "-vfclibinst-strict-abi".toList) ∨
      (q.debug ≠ [] ∧ w = "-vfclibinst-debug".toList) ∨
      ∃ d ∈ q.debug, d ≠ [] ∧ w = "-vfclibinst-debug-".toList ++ d := by
    intro w
    rw [hmem, flag_mem, flag_backend_some hq, hcmp, hcast]
    constructor
    · rintro ((h | ⟨h, -⟩ | h | ⟨h, -⟩) | h | h)
      · exact .inl (.inl h)
      · cases h
      · exact .inl (.inr h)
      · cases h
      · exact .inr h
      · exact absurd h (flag_selectItems a w)
    · rintro ((h | h) | h)
      · exact .inl (.inl h)
      · exact .inl (.inr (.inr (.inl h)))
      · exact .inr (.inl h)
  have hval : ∀ w v, Item.value w v ∈ itemsOf p a ↔
      ((w = "-vfclibinst-mode".toList ∧ v = q.mode) ∨ (w = "-vfclibinst-dispatch".toList ∧ v = q.dispatch) ∨
      (w = "-vfclibinst-prism-static-ir-file".toList ∧ v = p.staticLl) ∨
      (w = "-vfclibinst-prism-dynamic-ir-file".toList ∧ v = p.dynamicLl)) ∨
      Item.value w v ∈ selectItems a := by
    intro w v
    rw [hmem, value_backend_some hq]
    exact ⟨fun h => h.resolve_left (value_flagItems a w v), .inr⟩
  have htab : ∀ it ∈ itemsOf p a, (if true then prismTable else stdTable).lookup it.key = some it.kind := by
    intro it hit
    rw [if_pos rfl]
    cases it with
    | flag w =>
      rw [hflag] at hit
      dsimp only [Item.key, Item.kind]
      rcases hit with (⟨-, rfl⟩ | ⟨-, rfl⟩) | ⟨-, rfl⟩ | ⟨-, rfl⟩ | ⟨d, hd, hne, rfl⟩
      · decide +kernel
      · decide +kernel
      · decide +kernel
      · decide +kernel
      · exact (debug_known (hdbg d hd) hne).2
    | value w v =>
      rw [hval, value_select] at hit
      dsimp only [Item.key, Item.kind]
      rcases hit with (⟨rfl, -⟩ | ⟨rfl, -⟩ | ⟨rfl, -⟩ | ⟨rfl, -⟩) | ⟨-, ⟨rfl, -⟩ | ⟨-, rfl, -⟩ | ⟨-, rfl, -⟩⟩ <;>
        decide +kernel
  have hmany : ∀ w v, Item.value w v ∈ itemsOf p a → w ∉ debugOptions ∧ w ≠ "-o".toList := by
    intro w v hit
    rw [hval, value_select] at hit
    rcases hit with (⟨rfl, -⟩ | ⟨rfl, -⟩ | ⟨rfl, -⟩ | ⟨rfl, -⟩) | ⟨-, ⟨rfl, -⟩ | ⟨-, rfl, -⟩ | ⟨-, rfl, -⟩⟩ <;>
      decide +kernel
  have hnodup : (((itemsOf p a).map Item.key).filter (fun k => decide (k ∉ debugOptions))).Nodup := by
    have hds : ((debugItems q.debug).map Item.key).filter (fun k => decide (k ∉ debugOptions)) = [] := by
      rw [List.filter_eq_nil_iff]
      intro k hk
      obtain ⟨it, hit, rfl⟩ := List.mem_map.mp hk
      cases it with
      | value w v => exact absurd hit (value_debug _ _ _)
      | flag w =>
        obtain ⟨d, hd, hne, rfl⟩ := (flag_debug _ _).mp hit
        have := (debug_known (hdbg d hd) hne).1
        intro hc
        exact of_decide_eq_true hc this
    have hb : (((backendItems p a).map Item.key).filter (fun k => decide (k ∉ debugOptions))).Sublist
        ["-vfclibinst-mode".toList, "-vfclibinst-dispatch".toList, "-vfclibinst-prism-static-ir-file".toList,
          "-vfclibinst-prism-dynamic-ir-file".toList, "-vfclibinst-strict-abi".toList,
          "-vfclibinst-debug".toList] := by
      unfold backendItems
      rw [hq]
      dsimp only
      rw [List.map_append, List.map_append, List.filter_append, List.filter_append]
      have e1 : (List.map Item.key [Item.value "-vfclibinst-mode".toList q.mode,
          .value "-vfclibinst-dispatch".toList q.dispatch,
          .value "-vfclibinst-prism-static-ir-file".toList p.staticLl,
          .value "-vfclibinst-prism-dynamic-ir-file".toList p.dynamicLl]).Sublist
          ["-vfclibinst-mode".toList, "-vfclibinst-dispatch".toList,
            "-vfclibinst-prism-static-ir-file".toList, "-vfclibinst-prism-dynamic-ir-file".toList] :=
        List.Sublist.refl _
      have e2 : ((if q.strict then [Item.flag "-vfclibinst-strict-abi".toList] else []).map Item.key).Sublist
          ["-vfclibinst-strict-abi".toList] := by
        cases q.strict
        · exact List.nil_sublist _
        · exact List.Sublist.refl _
      have e3 : (((if q.debug ≠ [] then Item.flag "-vfclibinst-debug".toList :: debugItems q.debug else []).map
          Item.key).filter (fun k => decide (k ∉ debugOptions))).Sublist ["-vfclibinst-debug".toList] := by
        by_cases e : q.debug = []
        · have e0 : ¬ q.debug ≠ [] := fun h => h e
          rw [if_neg e0]
          exact List.nil_sublist _
        · rw [if_pos e, List.map_cons, List.filter_cons, hds]
          split_ifs
          · exact List.Sublist.refl _
          · exact List.nil_sublist _
      exact (List.filter_sublist.trans e1).append ((List.filter_sublist.trans e2).append e3)
    unfold itemsOf
    rw [List.map_append, List.map_append, List.filter_append, List.filter_append]
    refine List.Nodup.sublist ((List.filter_sublist.trans (flagItems_keys a)).append
      (hb.append (List.filter_sublist.trans (selectItems_keys a)))) (by decide +kernel)
  obtain ⟨ws, r, hl, hr, h1, h2, h3, h4, h5⟩ := read_command true hp ho hir htab hmany hnodup
  have hv : ∀ w v, w ≠ "-o".toList → (∀ u, Item.value w u ∈ itemsOf p a ↔ u ≠ [] ∧ u = v) → r.value w = v := by
    intro w v hw h
    by_cases e : v = []
    · rw [e]
      exact h5 w hw (fun u hu => by
        obtain ⟨h6, h7⟩ := (h u).mp hu
        exact h6 (h7.trans e))
    · exact h4 w v ((h v).mpr ⟨e, rfl⟩)
  have hdash : ∀ (w : List Char), w.take 18 ≠ "-vfclibinst-debug-".toList →
      ¬ ∃ d ∈ q.debug, d ≠ [] ∧ w = "-vfclibinst-debug-".toList ++ d := by
    rintro w hw ⟨d, -, -, rfl⟩
    apply hw
    rw [List.take_append_of_le_length (by decide)]
    decide
  refine ⟨ws, r, hl, hr, ⟨h1, h2, iff_bool ((h3 _).trans ?_), iff_bool ((h3 _).trans ?_), hv _ _ (by decide +kernel) ?_, ?_⟩,
    h4 _ _ ((hval _ _).mpr (.inl (.inl ⟨rfl, rfl⟩))),
    h4 _ _ ((hval _ _).mpr (.inl (.inr (.inl ⟨rfl, rfl⟩)))),
    h4 _ _ ((hval _ _).mpr (.inl (.inr (.inr (.inl ⟨rfl, rfl⟩))))),
    h4 _ _ ((hval _ _).mpr (.inl (.inr (.inr (.inr ⟨rfl, rfl⟩))))),
    iff_bool ((h3 _).trans ?_), (h3 _).trans ?_, ?_⟩
  · rw [hflag]
    constructor
    · rintro ((⟨h, -⟩ | ⟨-, h⟩) | ⟨-, h⟩ | ⟨-, h⟩ | h)
      · exact h
      · exact absurd h (by decide +kernel)
      · exact absurd h (by decide +kernel)
      · exact absurd h (by decide +kernel)
      · exact absurd h (hdash _ (by decide +kernel))
    · exact fun h => .inl (.inl ⟨h, rfl⟩)
  · rw [hflag]
    constructor
    · rintro ((⟨-, h⟩ | ⟨h, -⟩) | ⟨-, h⟩ | ⟨-, h⟩ | h)
      · exact absurd h (by decide +kernel)
      · exact h
      · exact absurd h (by decide +kernel)
      · exact absurd h (by decide +kernel)
      · exact absurd h (hdash _ (by decide +kernel))
    · exact fun h => .inl (.inr ⟨h, rfl⟩)
  · intro u
    rw [hval, value_select]
    constructor
    · rintro ((⟨h, -⟩ | ⟨h, -⟩ | ⟨h, -⟩ | ⟨h, -⟩) | ⟨h0, ⟨-, h⟩ | ⟨-, h, -⟩ | ⟨-, h, -⟩⟩)
      · exact absurd h (by decide +kernel)
      · exact absurd h (by decide +kernel)
      · exact absurd h (by decide +kernel)
      · exact absurd h (by decide +kernel)
      · exact ⟨h0, h⟩
      · exact absurd h (by decide +kernel)
      · exact absurd h (by decide +kernel)
    · rintro ⟨h0, h⟩
      exact .inr ⟨h0, .inl ⟨rfl, h⟩⟩
  · intro hfun
    refine ⟨hv _ _ (by decide +kernel) (fun u => ?_), hv _ _ (by decide +kernel) (fun u => ?_)⟩
    · rw [hval, value_select]
      constructor
      · rintro ((⟨h, -⟩ | ⟨h, -⟩ | ⟨h, -⟩ | ⟨h, -⟩) | ⟨h0, ⟨h, -⟩ | ⟨-, -, h⟩ | ⟨-, h, -⟩⟩)
        · exact absurd h (by decide +kernel)
        · exact absurd h (by decide +kernel)
        · exact absurd h (by decide +kernel)
        · exact absurd h (by decide +kernel)
        · exact absurd h (by decide +kernel)
        · exact ⟨h0, h⟩
        · exact absurd h (by decide +kernel)
      · rintro ⟨h0, h⟩
        exact .inr ⟨h0, .inr (.inl ⟨hfun, rfl, h⟩)⟩
    · rw [hval, value_select]
      constructor
      · rintro ((⟨h, -⟩ | ⟨h, -⟩ | ⟨h, -⟩ | ⟨h, -⟩) | ⟨h0, ⟨h, -⟩ | ⟨-, h, -⟩ | ⟨-, -, h⟩⟩)
        · exact absurd h (by decide +kernel)
        · exact absurd h (by decide +kernel)
        · exact absurd h (by decide +kernel)
        · exact absurd h (by decide +kernel)
        · exact absurd h (by decide +kernel)
        · exact absurd h (by decide +kernel)
        · exact ⟨h0, h⟩
      · rintro ⟨h0, h⟩
        exact .inr ⟨h0, .inr (.inr ⟨hfun, rfl, h⟩)⟩
  · rw [hflag]
    constructor
    · rintro ((⟨-, h⟩ | ⟨-, h⟩) | ⟨h, -⟩ | ⟨-, h⟩ | h)
      · exact absurd h (by decide +kernel)
      · exact absurd h (by decide +kernel)
      · exact h
      · exact absurd h (by decide +kernel)
      · exact absurd h (hdash _ (by decide +kernel))
    · exact fun h => .inr (.inl ⟨h, rfl⟩)
  · rw [hflag]
    constructor
    · rintro ((⟨-, h⟩ | ⟨-, h⟩) | ⟨-, h⟩ | ⟨h, -⟩ | h)
      · exact absurd h (by decide +kernel)
      · exact absurd h (by decide +kernel)
      · exact absurd h (by decide +kernel)
      · exact h
      · exact absurd h (hdash _ (by decide +kernel))
    · exact fun h => .inr (.inr (.inl ⟨h, rfl⟩))
  · intro d hd hne
    rw [h3, hflag]
    have hnot : ∀ w : List Char, w.take 18 ≠ "-vfclibinst-debug-".toList → "-vfclibinst-debug-".toList ++ d ≠ w := by
      rintro w hw rfl
      apply hw
      rw [List.take_append_of_le_length (by decide)]
      decide
    constructor
    · rintro ((⟨-, h⟩ | ⟨-, h⟩) | ⟨-, h⟩ | ⟨-, h⟩ | ⟨d', hd', -, h⟩)
      · exact absurd h (hnot _ (by decide +kernel))
      · exact absurd h (hnot _ (by decide +kernel))
      · exact absurd h (hnot _ (by decide +kernel))
      · exact absurd h (hnot _ (by decide +kernel))
      · rw [List.append_cancel_left h]
        exact hd'
    · exact fun h => .inr (.inr (.inr ⟨d, h, hne, rfl⟩))

theorem optParse_unknown (table : List (List Char × OptKind)) (many : List (List Char)) (r : Read)
    (w : List Char) (ws : List (List Char)) (h1 : table.lookup w = none) (h2 : w.head? = some '-') :
    optParse table many r (w :: ws) = .exit := by
  cases ws with
  | nil => rw [optParse, h1]; dsimp only; rw [if_pos h2]
  | cons v ws => rw [optParse, h1]; dsimp only; rw [if_pos h2]

theorem optParse_flag (table : List (List Char × OptKind)) (many : List (List Char)) (r : Read)
    (w : List Char) (ws : List (List Char)) (hws : ws ≠ []) (h1 : table.lookup w = some .flag)
    (h2 : w ∉ r.flags) :
    optParse table many r (w :: ws) = optParse table many { r with flags := w :: r.flags } ws := by
  cases ws with
  | nil => exact absurd rfl hws
  | cons v ws => rw [optParse, h1]; dsimp only; rw [if_neg (fun h => h2 h.1)]

/-- C83 is false of the PRISM pass with `--inst-fcmp` or `--inst-cast`: `opt` does not know the options
the driver gives it. -/
theorem C83_prism_wrong (p : Paths) (a : InstArgs) (q : PrismArgs) (hq : a.prism = some q)
    (h : a.fcmp = true ∨ a.cast = true) (hp : PlainArgs p a) (pre : List (List Char)) (ho : Lex p.opt pre) :
    ∃ ws, Lex (optCommand p a) (pre ++ ws) ∧ runOpt true ws = .exit := by
  refine ⟨_, lex_command hp ho, ?_⟩
  unfold runOpt itemsOf
  rw [if_pos rfl, List.flatMap_append, List.append_assoc]
  have hrest : ((backendItems p a ++ selectItems a).flatMap Item.words ++ [p.ir, "-o".toList, p.ins]) ≠ [] := by
    simp
  generalize ((backendItems p a ++ selectItems a).flatMap Item.words ++ [p.ir, "-o".toList, p.ins]) = rest at hrest
  unfold flagItems
  clear hp hq
  have unk : ∀ r ws, optParse prismTable debugOptions r ("-vfclibinst-inst-fcmp".toList :: ws) = .exit :=
    fun r ws => optParse_unknown _ _ _ _ _ (by decide +kernel) (by decide +kernel)
  have unk' : ∀ r ws, optParse prismTable debugOptions r ("-vfclibinst-inst-cast".toList :: ws) = .exit :=
    fun r ws => optParse_unknown _ _ _ _ _ (by decide +kernel) (by decide +kernel)
  have vb : ∀ ws, ws ≠ [] → optParse prismTable debugOptions ⟨[], [], []⟩ ("-vfclibinst-verbose".toList :: ws) =
      optParse prismTable debugOptions ⟨["-vfclibinst-verbose".toList], [], []⟩ ws :=
    fun ws hws => optParse_flag _ _ _ _ _ hws (by decide +kernel) (by decide)
  have fm : ∀ r : Read, "-vfclibinst-inst-fma".toList ∉ r.flags → ∀ ws, ws ≠ [] →
      optParse prismTable debugOptions r ("-vfclibinst-inst-fma".toList :: ws) =
      optParse prismTable debugOptions { r with flags := "-vfclibinst-inst-fma".toList :: r.flags } ws :=
    fun r hr ws hws => optParse_flag _ _ _ _ _ hws (by decide +kernel) hr
  have tail : ∀ r : Read, "-vfclibinst-inst-fma".toList ∉ r.flags → optParse prismTable debugOptions r
      (((if a.fcmp then [Item.flag "-vfclibinst-inst-fcmp".toList] else []) ++
        ((if a.fma then [Item.flag "-vfclibinst-inst-fma".toList] else []) ++
        (if a.cast then [Item.flag "-vfclibinst-inst-cast".toList] else []))).flatMap Item.words ++ rest) = .exit := by
    intro r hr
    cases hc : a.fcmp with
    | true => exact unk _ _
    | false =>
      have hc' : a.cast = true := h.resolve_left (by rw [hc]; decide)
      rw [hc', if_neg (by decide), if_pos rfl, List.nil_append]
      cases a.fma with
      | false => exact unk' _ _
      | true =>
        show optParse prismTable debugOptions r ("-vfclibinst-inst-fma".toList ::
          ("-vfclibinst-inst-cast".toList :: rest)) = _
        rw [fm r hr _ (by simp)]
        exact unk' _ _
  rw [List.flatMap_append, List.append_assoc]
  cases a.verbose with
  | false => exact tail _ List.not_mem_nil
  | true =>
    have t := tail ⟨["-vfclibinst-verbose".toList], [], []⟩ (by decide +kernel)
    rw [← vb _ (fun e => hrest (List.append_eq_nil_iff.mp e).2)] at t
    exact t

/-- C83 is false of a file to include with a space in its name: `opt` sees two input files. -/
theorem C83_space_wrong (p : Paths) (a : InstArgs) (x y : List Char) (hn : a.prism = none)
    (hf : a.function = []) (hx : a.excludeFile = []) (hi : a.includeFile = x ++ ' ' :: y)
    (hpx : Plain x) (hpy : Plain y) (hy : y.head? ≠ some '-')
    (hp : PlainArgs p { a with includeFile := x }) (pre : List (List Char)) (ho : Lex p.opt pre)
    (hir : p.ir.head? = some '/') :
    ∃ ws, Lex (optCommand p a) (pre ++ ws) ∧ runOpt false ws = .exit := by
  have hne : x ≠ [] := hpx.1
  have hsel : selectItems { a with includeFile := x } = [.value "-vfclibinst-include-file".toList x] := by
    have e0 : ¬ a.function ≠ [] := fun h => h hf
    have e1 : ¬ a.excludeFile ≠ [] := fun h => h hx
    unfold selectItems
    dsimp only
    rw [if_neg e0, if_pos hne, if_neg e1]
    rfl
  have hlex : Lex (optCommand p a)
      (pre ++ ((itemsOf p { a with includeFile := x }).flatMap Item.words ++ [y, p.ir, "-o".toList, p.ins])) := by
    have e0 : ¬ a.function ≠ [] := fun h => h hf
    have e1 : ¬ a.excludeFile ≠ [] := fun h => h hx
    have e2 : a.includeFile ≠ [] := by rw [hi]; simp
    have es : selectText a = ' ' :: "-vfclibinst-include-file".toList ++ [' '] ++ (x ++ ' ' :: y) := by
      have m2 : " -vfclibinst-include-file ".toList = ' ' :: "-vfclibinst-include-file".toList ++ [' '] := by decide
      unfold selectText
      rw [if_neg e0, if_pos e2, if_neg e1, m2, hi, List.append_nil]
    have k1 : " ".toList = [' '] := by decide
    have k2 : "  ".toList = [' ', ' '] := by decide
    have k3 : " -o ".toList = ' ' :: "-o".toList ++ [' '] := by decide
    have htail : Lex (p.ir ++ ' ' :: ("-o".toList ++ ' ' :: p.ins)) [p.ir, "-o".toList, p.ins] :=
      (lex_plain hp.ir).space ((lex_plain (by decide +kernel)).space (lex_plain hp.ins))
    have hs := lex_value (name := "-vfclibinst-include-file".toList) (by decide +kernel) hpx
      ((lex_plain hpy).space htail.lead)
    have h := ho.space (lex_flags { a with includeFile := x } (lex_backend hp hs.lead))
    have ef : flagText { a with includeFile := x } = flagText a := rfl
    have eb : backendText p { a with includeFile := x } = backendText p a := rfl
    rw [ef, eb] at h
    unfold optCommand itemsOf
    rw [es, hsel, k1, k2, k3]
    simp only [List.append_assoc, List.cons_append, List.nil_append, List.flatMap_append, List.flatMap_cons,
      List.flatMap_nil, Item.words] at h ⊢
    exact h
  refine ⟨_, hlex, ?_⟩
  have hmem : ∀ it, it ∈ itemsOf p { a with includeFile := x } ↔ it ∈ flagItems { a with includeFile := x } ∨
      it ∈ backendItems p { a with includeFile := x } ∨ it ∈ selectItems { a with includeFile := x } := by
    intro it
    unfold itemsOf
    rw [List.mem_append, List.mem_append]
  have hn' : ({ a with includeFile := x } : InstArgs).prism = none := hn
  have hval : ∀ w v, Item.value w v ∈ itemsOf p { a with includeFile := x } →
      w = "-vfclibinst-vfcwrapper-file".toList ∨ w = "-vfclibinst-include-file".toList := by
    intro w v h
    rw [hmem, value_backend_none hn', hsel, List.mem_singleton, Item.value.injEq] at h
    rcases h with h | h | h
    · exact absurd h (value_flagItems _ w v)
    · exact .inl h.1
    · exact .inr h.1
  obtain ⟨r', e, hin, -, -, -⟩ := optParse_items stdTable debugOptions (itemsOf p { a with includeFile := x })
    [y, p.ir, "-o".toList, p.ins] (by simp) ⟨[], [], []⟩ (by
      intro it hit
      cases it with
      | flag w =>
        rw [hmem] at hit
        have := hit.resolve_right (fun h => h.elim (flag_backend_none hn' w) (flag_selectItems _ w))
        rw [flag_mem] at this
        rcases this with ⟨-, rfl⟩ | ⟨-, rfl⟩ | ⟨-, rfl⟩ | ⟨-, rfl⟩ <;> decide +kernel
      | value w v =>
        rcases hval w v hit with rfl | rfl <;> dsimp only [Item.key, Item.kind] <;> decide +kernel) (by
      intro w v hit
      rcases hval w v hit with rfl | rfl <;> decide +kernel) (by
      have hb : (backendItems p { a with includeFile := x }).map Item.key =
          ["-vfclibinst-vfcwrapper-file".toList] := by
        unfold backendItems
        rw [hn']
        rfl
      refine List.Nodup.sublist (List.filter_sublist.trans ?_) (l₂ := ["-vfclibinst-verbose".toList,
        "-vfclibinst-inst-fcmp".toList, "-vfclibinst-inst-fma".toList, "-vfclibinst-inst-cast".toList] ++
        (["-vfclibinst-vfcwrapper-file".toList] ++ ["-vfclibinst-function".toList,
          "-vfclibinst-include-file".toList, "-vfclibinst-exclude-file".toList])) (by decide +kernel)
      unfold itemsOf
      rw [List.map_append, List.map_append, hb]
      exact (flagItems_keys _).append ((List.Sublist.refl _).append (selectItems_keys _)))
    (fun it _ _ => ⟨List.not_mem_nil, rfl⟩)
  unfold runOpt
  rw [if_neg (by decide), e]
  have hly : stdTable.lookup y = none := by
    rw [List.lookup_eq_none_iff]
    have ht : (stdTable.all fun e => e.1.head? == some '-') = true := by decide +kernel
    intro k hk
    rw [List.all_eq_true] at ht
    have := ht k hk
    rw [beq_iff_eq] at this
    rw [bne_iff_ne]
    intro e
    exact hy (e ▸ this)
  rw [optParse, hly]
  dsimp only
  rw [if_neg hy, hin]
  rw [if_neg (by decide)]
  rw [optParse, lookup_slash (by decide +kernel) hir]
  dsimp only
  rw [hir, if_neg (by decide), if_pos (by simp)]

/-! ## Modes -/

/-- C83, modes.  The four names the driver accepts are those of the two modes. -/
theorem C83_mode (arg : List Char) :
    (∀ m, prismMode arg = some m → ∃ r : Prism.Rounding, Prism.Rounding.ofText m = .ok r ∧
      (arg = r.ns ∨ arg = m)) ∧
    (prismMode arg ≠ none ↔ arg ∈ ["ud".toList, "sr".toList, "up-down".toList, "stochastic-rounding".toList]) := by
  unfold prismMode
  constructor
  · intro m h
    split_ifs at h with h1 h2 h3
    · cases h; exact ⟨.upDown, by decide +kernel, .inl h1⟩
    · cases h; exact ⟨.stochasticRounding, by decide +kernel, .inl h2⟩
    · cases h
      rcases h3 with rfl | rfl
      · exact ⟨.upDown, by decide +kernel, .inr rfl⟩
      · exact ⟨.stochasticRounding, by decide +kernel, .inr rfl⟩
  · simp only [List.mem_cons, List.not_mem_nil, or_false]
    split_ifs with h1 h2 h3
    · simp only [h1, true_or, ne_eq, reduceCtorEq, not_false_eq_true]
    · simp only [h2, true_or, or_true, ne_eq, reduceCtorEq, not_false_eq_true]
    · simp only [h3, or_true, ne_eq, reduceCtorEq, not_false_eq_true]
    · simp only [ne_eq, not_true_eq_false, h1, h2, false_or, h3]

example : prismMode "sr".toList = some "stochastic-rounding".toList ∧ prismMode "s".toList = none := by
  decide +kernel

/-- C83 is false of two of the debug modes: the option is read, and has no effect. -/
theorem C83_debug_wrong (p : Paths) (a : InstArgs) (q : PrismArgs) (hq : a.prism = some q)
    (hcmp : a.fcmp = false) (hcast : a.cast = false) (hdbg : q.debug = ["abi".toList, "targetfeatures".toList])
    (hp : PlainArgs p a) (pre : List (List Char)) (ho : Lex p.opt pre) (hir : p.ir.head? = some '/') :
    ∃ ws r, Lex (optCommand p a) (pre ++ ws) ∧ runOpt true ws = .ok r ∧
      r.flag "-vfclibinst-debug-abi".toList = true ∧ r.flag "-vfclibinst-debug-targetfeatures".toList = true ∧
      featureDebug r = (false, false) := by
  obtain ⟨ws, r, hl, hr, -, -, -, -, -, -, -, h⟩ := C83_prism_partial p a q hq hcmp hcast
    (by rw [hdbg]; decide +kernel) hp pre ho hir
  refine ⟨ws, r, hl, hr, ?_, ?_, by unfold featureDebug Read.flag; decide +kernel⟩
  · exact (h "abi".toList (by decide +kernel) (by decide)).mpr (by rw [hdbg]; decide +kernel)
  · exact (h "targetfeatures".toList (by decide +kernel) (by decide)).mpr (by rw [hdbg]; decide +kernel)

/-! ## Cases -/

/-- Files for the cases. -/
def samplePaths : Paths where
  opt := "opt -S -load-pass-plugin /lib/p.so -passes=vfclibinst".toList
  staticLl := "/i/s.ll".toList
  dynamicLl := "/i/d.ll".toList
  wrapper := "/tmp/w.ll".toList
  ir := "/tmp/a.1.ll".toList
  ins := "/tmp/a.2.ll".toList

/-- `--verbose --inst-fma --exclude-file ex.txt`. -/
def sampleArgs : InstArgs where
  verbose := true
  fcmp := false
  fma := true
  cast := false
  function := []
  includeFile := []
  excludeFile := "ex.txt".toList
  prism := none

/-- The same with `--prism-backend=sr --prism-backend-debug abi`. -/
def samplePrism : InstArgs :=
  { sampleArgs with prism := some ⟨"stochastic-rounding".toList, "dynamic".toList, true, ["abi".toList]⟩ }

example : optCommand samplePaths sampleArgs =
    "opt -S -load-pass-plugin /lib/p.so -passes=vfclibinst  -vfclibinst-verbose  -vfclibinst-inst-fma  -vfclibinst-vfcwrapper-file /tmp/w.ll   -vfclibinst-exclude-file ex.txt  /tmp/a.1.ll -o /tmp/a.2.ll".toList := by
  decide +kernel

example : (match shWords (optCommand samplePaths samplePrism) with
    | .words ws => runOpt true (ws.drop 5)
    | _ => .exit) = .ok ⟨["-vfclibinst-debug-abi".toList, "-vfclibinst-debug".toList,
        "-vfclibinst-strict-abi".toList, "-vfclibinst-inst-fma".toList, "-vfclibinst-verbose".toList],
      [("-o".toList, "/tmp/a.2.ll".toList), ("-vfclibinst-exclude-file".toList, "ex.txt".toList),
       ("-vfclibinst-prism-dynamic-ir-file".toList, "/i/d.ll".toList),
       ("-vfclibinst-prism-static-ir-file".toList, "/i/s.ll".toList),
       ("-vfclibinst-dispatch".toList, "dynamic".toList),
       ("-vfclibinst-mode".toList, "stochastic-rounding".toList)], ["/tmp/a.1.ll".toList]⟩ := by
  decide +kernel

theorem samplePrism_plain : PlainArgs samplePaths samplePrism where
  ir := by decide +kernel
  ins := by decide +kernel
  function := by decide +kernel
  includeFile := by decide +kernel
  excludeFile := by decide +kernel
  wrapper := by decide +kernel
  staticLl := by decide +kernel
  dynamicLl := by decide +kernel
  mode := by intro q h; cases h; decide +kernel
  dispatch := by intro q h; cases h; decide +kernel
  debug := by intro q h; cases h; decide +kernel

example : ∃ ws, Lex (optCommand samplePaths { samplePrism with cast := true })
      (["opt".toList, "-S".toList, "-load-pass-plugin".toList, "/lib/p.so".toList, "-passes=vfclibinst".toList] ++ ws) ∧
    runOpt true ws = .exit :=
  C83_prism_wrong samplePaths { samplePrism with cast := true } _ rfl (.inr rfl)
    { samplePrism_plain with } _ (by unfold Lex; decide +kernel)

example : (match shWords (optCommand samplePaths { sampleArgs with includeFile := "my file".toList, excludeFile := [] }) with
    | .words ws => runOpt false (ws.drop 5)
    | _ => .ub) = .exit := by decide +kernel

end Verif.Driver
