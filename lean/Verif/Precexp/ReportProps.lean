import Verif.Precexp.Report
import Verif.Precexp.ProfileProps
import Mathlib.Data.List.Perm.Basic
import Mathlib.Algebra.BigOperators.Group.List.Basic

/-!
# The report of the precision exploration (C85)
-/

namespace Verif.Precexp
open Verif Verif.Vfi

/-! ## Identifiers -/

/-- **C85** (identifiers).  The fields of an identifier written by the function pass
(libVFCFuncInstrument.cpp:479-482, 545-551) are read back, the directory of the file being left out. -/
theorem C85_identifier (dir file parent name : Id) (line nb : Int) (h1 : '/' ∉ file) (h2 : '/' ∉ parent) (h3 : '/' ∉ name) :
    getInfo (dir ++ '/' :: file ++ '/' :: parent ++ '/' :: name ++ '/' :: dec line ++ '/' :: dec nb) =
      some ⟨nb, line, parent, name, file⟩ := by
  simp only [getInfo, afterSlash_append _ _ (dec_slash nb), beforeSlash_append _ _ (dec_slash nb),
    afterSlash_append _ _ (dec_slash line), beforeSlash_append _ _ (dec_slash line),
    afterSlash_append _ _ h3, beforeSlash_append _ _ h3,
    afterSlash_append _ _ h2, beforeSlash_append _ _ h2, afterSlash_append _ _ h1, pyInt_dec]
  rfl

/-- A call in `src/a.c`, and the main function, which has no parent. -/
example : getInfo "src/a.c/main/f/12/3".toList = some ⟨3, 12, "main".toList, "f".toList, "a.c".toList⟩ ∧
    getInfo "src/a.c//main/12/0".toList = some ⟨0, 12, [], "main".toList, "a.c".toList⟩ := by decide +kernel

/-! ## The selection -/

theorem filter_id {α : Type} (id : α → Id) (list : List Id) (rs out : List α)
    (h : filterFunctions id list rs = some out) : out = rs := by
  induction rs generalizing out with
  | nil => exact (Option.some.inj h).symm
  | cons r rs ih =>
    unfold filterFunctions at h
    cases h1 : getInfo (id r) with
    | none => rw [h1] at h; cases h
    | some i =>
      rw [h1] at h
      cases h2 : filterFunctions id list rs with
      | none => rw [h2] at h; cases h
      | some o =>
        rw [h2] at h
        cases h
        rw [ih o h2]

theorem filterTables_id (argv : List Id) (t t' : Tables) (h : filterTables argv t = some t') : t' = t := by
  unfold filterTables at h
  split at h
  · exact (Option.some.inj h).symm
  · cases h1 : filterFunctions ArgRow.id argv t.args with
    | none => rw [h1] at h; cases h
    | some a =>
      cases h2 : filterFunctions OpRow.id argv t.ops with
      | none => rw [h1, h2] at h; cases h
      | some b =>
        cases h3 : filterFunctions OpRow.id argv t.allOps with
        | none => rw [h1, h2, h3] at h; cases h
        | some c =>
          cases h4 : filterFunctions ArgRow.id argv t.allArgs with
          | none => rw [h1, h2, h3, h4] at h; cases h
          | some d =>
            rw [h1, h2, h3, h4] at h
            cases h
            rw [filter_id _ _ _ _ h1, filter_id _ _ _ _ h2, filter_id _ _ _ _ h3, filter_id _ _ _ _ h4]

/-! ## The functions -/

/-- The function a row calls. -/
def callee (r : OpRow) : Option Id := (getInfo r.id).map Info.name

/-- A table of functions in order. -/
structure Good (rows : List OpRow) (ds : List (Id × Int × List OpRow)) : Prop where
  nodup : (ds.map Prod.fst).Nodup
  sum : ∀ d ∈ ds, d.2.1 = (d.2.2.map OpRow.ncalls).sum
  sel : ∀ d ∈ ds, d.2.2 = rows.filter fun r => decide (callee r = some d.1)
  mem : ∀ n, n ∈ ds.map Prod.fst ↔ ∃ r ∈ rows, callee r = some n

theorem addFunction_keys (name : Id) (r : OpRow) (ds : List (Id × Int × List OpRow)) :
    (addFunction name r ds).map Prod.fst = if name ∈ ds.map Prod.fst then ds.map Prod.fst else ds.map Prod.fst ++ [name] := by
  induction ds with
  | nil => simp [addFunction]
  | cons d ds ih =>
    obtain ⟨n, k, rs⟩ := d
    unfold addFunction
    by_cases h : n = name
    · simp [h]
    · rw [if_neg h]
      simp only [List.map_cons, List.mem_cons, ih]
      have h' : ¬ name = n := fun e => h e.symm
      by_cases h2 : name ∈ ds.map Prod.fst <;> simp [h', h2]

theorem addFunction_mem (name : Id) (r : OpRow) (ds : List (Id × Int × List OpRow)) (d : Id × Int × List OpRow)
    (hn : (ds.map Prod.fst).Nodup) (h : d ∈ addFunction name r ds) :
    (d.1 ≠ name ∧ d ∈ ds) ∨ (d.1 = name ∧ ∃ d0 ∈ ds, d0.1 = name ∧ d.2 = (d0.2.1 + r.ncalls, d0.2.2 ++ [r])) ∨
      (name ∉ ds.map Prod.fst ∧ d = (name, r.ncalls, [r])) := by
  induction ds with
  | nil =>
    right; right
    simpa [addFunction] using h
  | cons e ds ih =>
    obtain ⟨n, k, rs⟩ := e
    rw [List.map_cons, List.nodup_cons] at hn
    unfold addFunction at h
    by_cases hh : n = name
    · rw [if_pos hh] at h
      rcases List.mem_cons.mp h with h | h
      · right; left
        exact ⟨by rw [h]; exact hh, (n, k, rs), List.mem_cons_self .., hh, by rw [h]⟩
      · left
        refine ⟨fun e => hn.1 ?_, List.mem_cons_of_mem _ h⟩
        change n ∈ _
        rw [hh, ← e]
        exact List.mem_map_of_mem h
    · rw [if_neg hh] at h
      rcases List.mem_cons.mp h with h | h
      · left
        rw [h]
        exact ⟨hh, List.mem_cons_self ..⟩
      · rcases ih hn.2 h with ⟨h1, h2⟩ | ⟨h1, d0, h2, h3⟩ | ⟨h1, h2⟩
        · exact .inl ⟨h1, List.mem_cons_of_mem _ h2⟩
        · exact .inr (.inl ⟨h1, d0, List.mem_cons_of_mem _ h2, h3⟩)
        · refine .inr (.inr ⟨?_, h2⟩)
          rw [List.map_cons, List.mem_cons, not_or]
          exact ⟨fun e => hh e.symm, h1⟩

theorem good_add (rows : List OpRow) (ds : List (Id × Int × List OpRow)) (h : Good rows ds) (r : OpRow) (name : Id)
    (hr : callee r = some name) : Good (rows ++ [r]) (addFunction name r ds) := by
  constructor
  · rw [addFunction_keys]
    split
    · exact h.nodup
    · next hn =>
      rw [List.nodup_append]
      exact ⟨h.nodup, List.nodup_singleton _, by
        intro a ha b hb e
        rw [List.mem_singleton] at hb
        rw [e, hb] at ha
        exact hn ha⟩
  · intro d hd
    rcases addFunction_mem name r ds d h.nodup hd with ⟨-, h2⟩ | ⟨-, d0, h2, -, h3⟩ | ⟨-, h2⟩
    · exact h.sum d h2
    · rw [h3, List.map_append, List.sum_append, ← h.sum d0 h2]
      simp
    · rw [h2]; simp
  · intro d hd
    rw [List.filter_append]
    rcases addFunction_mem name r ds d h.nodup hd with ⟨h1, h2⟩ | ⟨h1, d0, h2, h4, h3⟩ | ⟨h1, h2⟩
    · rw [← h.sel d h2, List.filter_cons_of_neg, List.filter_nil, List.append_nil]
      rw [hr, decide_eq_true_eq]
      exact fun e => h1 (Option.some.inj e).symm
    · have := h.sel d0 h2
      rw [h4] at this
      rw [h3, h1, this, List.filter_cons_of_pos (by rw [hr]; simp), List.filter_nil]
    · have : rows.filter (fun r => decide (callee r = some d.1)) = [] := by
        rw [List.filter_eq_nil_iff]
        intro x hx
        rw [decide_eq_true_eq, h2]
        exact fun e => h1 ((h.mem name).mpr ⟨x, hx, e⟩)
      rw [this, h2, List.filter_cons_of_pos (by rw [hr]; simp), List.filter_nil]
      rfl
  · intro n
    rw [addFunction_keys]
    split
    · next hn =>
      rw [h.mem]
      constructor
      · rintro ⟨x, h1, h2⟩
        exact ⟨x, List.mem_append_left _ h1, h2⟩
      · rintro ⟨x, h1, h2⟩
        rcases List.mem_append.mp h1 with h1 | h1
        · exact ⟨x, h1, h2⟩
        · rw [List.mem_singleton] at h1
          rw [h1, hr] at h2
          rw [← Option.some.inj h2]
          exact (h.mem name).mp hn
    · rw [List.mem_append, h.mem, List.mem_singleton]
      constructor
      · rintro (⟨x, h1, h2⟩ | h1)
        · exact ⟨x, List.mem_append_left _ h1, h2⟩
        · exact ⟨r, by simp, by rw [h1]; exact hr⟩
      · rintro ⟨x, h1, h2⟩
        rcases List.mem_append.mp h1 with h1 | h1
        · exact .inl ⟨x, h1, h2⟩
        · rw [List.mem_singleton] at h1
          rw [h1, hr] at h2
          exact .inr (Option.some.inj h2).symm

theorem functionTable_good (rs rows : List OpRow) (ds out : List (Id × Int × List OpRow)) (h : Good rows ds)
    (ho : functionTable rs ds = some out) : Good (rows ++ rs) out := by
  induction rs generalizing rows ds with
  | nil =>
    rw [List.append_nil]
    rw [← Option.some.inj ho]
    exact h
  | cons r rs ih =>
    unfold functionTable at ho
    cases hi : getInfo r.id with
    | none => rw [hi] at ho; cases ho
    | some i =>
      rw [hi] at ho
      have := ih (rows ++ [r]) _ (good_add rows ds h r i.name (by unfold callee; rw [hi]; rfl)) ho
      rwa [List.append_assoc] at this

/-! ## The entries -/

/-- What an entry says of a call. -/
def Describes (r : OpRow) (e : Entry) : Prop :=
  ∃ i, getInfo r.id = some i ∧ e.name = upper i.name ∧ e.file = i.file ∧ e.line = i.line ∧ e.ncalls = r.ncalls

theorem callEntry_spec (t : Tables) (r : OpRow) (is : List Image) (e : Entry) (h : callEntry t r = some (is, e)) :
    Describes r e := by
  unfold callEntry at h
  cases hi : getInfo r.id with
  | none => rw [hi] at h; cases h
  | some i =>
    rw [hi] at h
    simp only [Option.bind_eq_bind, Option.bind_some, Option.bind_eq_some_iff] at h
    obtain ⟨k, -, x, -, y, -, h⟩ := h
    cases h
    exact ⟨i, hi, rfl, rfl, rfl, rfl⟩

theorem callEntries_spec (t : Tables) (rs : List OpRow) (is : List Image) (es : List Entry)
    (h : callEntries t rs = some (is, es)) : List.Forall₂ Describes rs es := by
  induction rs generalizing is es with
  | nil => cases h; exact .nil
  | cons r rs ih =>
    unfold callEntries at h
    cases h1 : callEntry t r with
    | none => rw [h1] at h; cases h
    | some p =>
      cases h2 : callEntries t rs with
      | none => rw [h1, h2] at h; cases h
      | some q =>
        rw [h1, h2] at h
        cases h
        exact .cons (callEntry_spec t r p.1 p.2 h1) (ih q.1 q.2 h2)

theorem sections_spec (sortRows : List OpRow → List OpRow) (t : Tables) (ds : List (Id × Int × List OpRow))
    (is : List Image) (ss : List Section) (h : sections sortRows t ds = some (is, ss)) :
    List.Forall₂ (fun d s => s.name = upper d.1 ∧ List.Forall₂ Describes (sortRows d.2.2) s.entries) ds ss := by
  induction ds generalizing is ss with
  | nil => cases h; exact .nil
  | cons d ds ih =>
    obtain ⟨n, k, rs⟩ := d
    unfold sections at h
    cases h1 : callEntries t (sortRows rs) with
    | none => rw [h1] at h; cases h
    | some p =>
      cases h2 : sections sortRows t ds with
      | none => rw [h1, h2] at h; cases h
      | some q =>
        rw [h1, h2] at h
        cases h
        exact .cons ⟨rfl, callEntries_spec t _ p.1 p.2 h1⟩ (ih q.1 q.2 h2)

/-- A descending sort by one column. -/
def Sorts {α : Type} (key : α → Int) (f : List α → List α) : Prop :=
  ∀ l, (f l).Perm l ∧ (f l).Pairwise fun a b => key b ≤ key a

/-- What `build` computes. -/
theorem build_eq {sortTable : List (Id × Int × List OpRow) → List (Id × Int × List OpRow)}
    {sortRows : List OpRow → List OpRow} {argv : List Id} {t : Tables} {imgs : List Image} {p : Page}
    (h : build sortTable sortRows argv t = some (imgs, p)) :
    ∃ table, functionTable t.allOps [] = some table ∧ sections sortRows t (sortTable table) = some (imgs, p.sections) ∧
      p.bars = (sortTable table).map fun d => (upper d.1, d.2.1) := by
  unfold build at h
  cases h1 : filterTables argv t with
  | none => rw [h1] at h; cases h
  | some t' =>
    have := filterTables_id _ _ _ h1
    subst this
    rw [h1] at h
    simp only [Option.bind_eq_bind, Option.bind_some, Option.bind_eq_some_iff] at h
    obtain ⟨table, h2, ⟨is, ss⟩, h3, h⟩ := h
    cases h
    exact ⟨table, h2, h3, rfl⟩

/-- **C85** (the page).  The page prepared has one bar and one section for each function called, with its
total number of calls, by decreasing number; a section has one entry for each call site of its
function, by decreasing number of calls.  (What is missing: the page is not written, and the
selection of functions on the command line has no effect, below.) -/
theorem C85_page_partial (sortTable : List (Id × Int × List OpRow) → List (Id × Int × List OpRow))
    (sortRows : List OpRow → List OpRow) (hT : Sorts (fun d => d.2.1) sortTable) (hR : Sorts OpRow.ncalls sortRows)
    (argv : List Id) (t : Tables) (imgs : List Image) (p : Page)
    (h : build sortTable sortRows argv t = some (imgs, p)) :
    ∃ fns : List (Id × List OpRow), (fns.map Prod.fst).Nodup ∧
      (∀ n, n ∈ fns.map Prod.fst ↔ ∃ r ∈ t.allOps, callee r = some n) ∧
      (∀ f ∈ fns, f.2.Perm (t.allOps.filter fun r => decide (callee r = some f.1)) ∧
        f.2.Pairwise fun a b => b.ncalls ≤ a.ncalls) ∧
      p.bars = fns.map (fun f => (upper f.1, (f.2.map OpRow.ncalls).sum)) ∧
      (p.bars.Pairwise fun a b => b.2 ≤ a.2) ∧
      List.Forall₂ (fun f s => s.name = upper f.1 ∧ List.Forall₂ Describes f.2 s.entries) fns p.sections := by
  obtain ⟨table, h1, h2, h3⟩ := build_eq h
  have hg := functionTable_good t.allOps [] [] table
    ⟨List.nodup_nil, fun d h => absurd h (List.not_mem_nil), fun d h => absurd h (List.not_mem_nil), fun n => by simp⟩ h1
  rw [List.nil_append] at hg
  obtain ⟨pT, sT⟩ := hT table
  refine ⟨(sortTable table).map fun d => (d.1, sortRows d.2.2), ?_, ?_, ?_, ?_, ?_, ?_⟩
  · rw [List.map_map]
    exact ((pT.map Prod.fst).nodup_iff).mpr hg.nodup
  · intro n
    rw [List.map_map, ← hg.mem]
    exact (pT.map Prod.fst).mem_iff
  · intro f hf
    obtain ⟨d, hd, rfl⟩ := List.mem_map.mp hf
    obtain ⟨pR, sR⟩ := hR d.2.2
    refine ⟨?_, sR⟩
    have := hg.sel d (pT.mem_iff.mp hd)
    rw [this] at pR
    rw [← this] at pR ⊢
    exact pR
  · rw [h3, List.map_map]
    apply List.map_congr_left
    intro d hd
    have h5 := hg.sum d (pT.mem_iff.mp hd)
    have h6 := ((hR d.2.2).1.map OpRow.ncalls).sum_eq
    simp only [Function.comp_apply, Prod.mk.injEq, true_and]
    rw [h5, h6]
  · rw [h3, List.pairwise_map]
    exact sT
  · rw [List.forall₂_map_left_iff]
    exact sections_spec sortRows t _ imgs p.sections h2

/-! ## The pictures -/

/-- The four pictures of a call site. -/
inductive Kind | args | ops | argsOnly | opsOnly
deriving DecidableEq, Repr

def Kind.suffix : Kind → List Char
  | .args => "_Args".toList
  | .ops => "_Ops".toList
  | .argsOnly => "_ArgsOnly".toList
  | .opsOnly => "_OpsOnly".toList

theorem suffix_inj (a b : List Char) (k l : Kind) (h : a ++ k.suffix = b ++ l.suffix) : a = b ∧ k = l := by
  have hkl : k = l := by
    have h1 : k.suffix <:+ a ++ k.suffix := List.suffix_append ..
    have h2 : l.suffix <:+ a ++ k.suffix := by rw [h]; exact List.suffix_append ..
    rcases Nat.le_total k.suffix.length l.suffix.length with hl | hl
    · have h3 := List.suffix_of_suffix_length_le h1 h2 hl
      revert h3
      cases k <;> cases l <;> decide +kernel
    · have h3 := List.suffix_of_suffix_length_le h2 h1 hl
      revert h3
      cases k <;> cases l <;> decide +kernel
  subst hkl
  exact ⟨List.append_cancel_right h, rfl⟩

theorem png_inj (a b : List Char) (h : png a = png b) : a = b := by
  unfold png at h
  rw [List.append_assoc, List.append_assoc] at h
  exact List.append_cancel_right (List.append_cancel_left h)

/-- What is drawn. -/
def drawn (t : Tables) (r : OpRow) : Kind → Drawing
  | .args => .args (t.allArgs.filter fun a => a.id == r.id)
  | .ops => .ops r
  | .argsOnly => .args (t.args.filter fun a => a.id == r.id)
  | .opsOnly => .ops r

/-- The link of an entry. -/
def Entry.link (e : Entry) : Kind → Option (List Char)
  | .args => e.args
  | .ops => e.ops
  | .argsOnly => e.argsOnly
  | .opsOnly => e.opsOnly

/-- The pictures are those of the links. -/
theorem callEntry_images (t : Tables) (r : OpRow) (is : List Image) (e : Entry) (i : Info) (hi : getInfo r.id = some i)
    (h : callEntry t r = some (is, e)) :
    (∀ im ∈ is, ∃ k, im = ⟨png (chartId i ++ k.suffix), drawn t r k⟩) ∧
    (∀ k f, e.link k = some f → f = png (chartId i ++ k.suffix) ∧ ⟨f, drawn t r k⟩ ∈ is) := by
  unfold callEntry at h
  rw [hi] at h
  simp only [Option.bind_eq_bind, Option.bind_some, Option.bind_eq_some_iff] at h
  obtain ⟨o, -, x, hx, y, hy, h⟩ := h
  cases h
  have args : ∀ (rows : List ArgRow) (id : List Char) (z : List Image),
      argsImages r rows id = some z →
      (∀ im ∈ z, im = ⟨png id, .args rows⟩) ∧ (r.ninputs + r.noutputs ≠ 0 → (⟨png id, .args rows⟩ : Image) ∈ z) := by
    intro rows id z hz
    unfold argsImages at hz
    split at hz
    · unfold plotArgs at hz
      split at hz
      · cases hz
      · cases hz
        simp
    · next hn => cases hz; exact ⟨by simp, fun h => absurd h hn⟩
  obtain ⟨x1, x2⟩ := args _ _ _ hx
  obtain ⟨y1, y2⟩ := args _ _ _ hy
  constructor
  · intro im him
    simp only [List.mem_append] at him
    rcases him with ((him | him) | him) | him
    · exact ⟨.args, x1 im him⟩
    · split at him
      · rw [List.mem_singleton] at him
        exact ⟨.ops, him⟩
      · cases him
    · exact ⟨.argsOnly, y1 im him⟩
    · split at him
      · rw [List.mem_singleton] at him
        exact ⟨.opsOnly, him⟩
      · cases him
  · intro k f hk
    cases k with
    | args =>
      simp only [Entry.link] at hk
      split at hk
      · next hn => cases hk; exact ⟨rfl, by simp only [List.mem_append]; exact .inl (.inl (.inl (x2 hn)))⟩
      · cases hk
    | argsOnly =>
      simp only [Entry.link] at hk
      split at hk
      · next hn => cases hk; exact ⟨rfl, by simp only [List.mem_append]; exact .inl (.inr (y2 hn))⟩
      · cases hk
    | ops =>
      simp only [Entry.link] at hk
      split at hk
      · next hn =>
        cases hk
        refine ⟨rfl, ?_⟩
        simp only [List.mem_append]
        refine .inl (.inl (.inr ?_))
        rw [if_pos hn]
        exact List.mem_singleton.mpr rfl
      · cases hk
    | opsOnly =>
      simp only [Entry.link] at hk
      split at hk
      · next hn =>
        cases hk
        refine ⟨rfl, ?_⟩
        simp only [List.mem_append]
        refine .inr ?_
        rw [if_pos hn]
        exact List.mem_singleton.mpr rfl
      · cases hk

/-- All the pictures of a list of calls. -/
theorem callEntries_images (t : Tables) (rs : List OpRow) (is : List Image) (es : List Entry)
    (h : callEntries t rs = some (is, es)) :
    (∀ im ∈ is, ∃ r ∈ rs, ∃ i k, getInfo r.id = some i ∧ im = ⟨png (chartId i ++ k.suffix), drawn t r k⟩) ∧
    (∀ e ∈ es, ∃ r ∈ rs, ∃ i, getInfo r.id = some i ∧ Describes r e ∧
      ∀ k f, e.link k = some f → f = png (chartId i ++ k.suffix) ∧ ⟨f, drawn t r k⟩ ∈ is) := by
  induction rs generalizing is es with
  | nil => cases h; exact ⟨fun _ h => absurd h (List.not_mem_nil), fun _ h => absurd h (List.not_mem_nil)⟩
  | cons r rs ih =>
    unfold callEntries at h
    cases h1 : callEntry t r with
    | none => rw [h1] at h; cases h
    | some p =>
      cases h2 : callEntries t rs with
      | none => rw [h1, h2] at h; cases h
      | some q =>
        rw [h1, h2] at h
        cases h
        obtain ⟨a1, a2⟩ := ih q.1 q.2 h2
        have hd := callEntry_spec t r p.1 p.2 h1
        obtain ⟨i, hi, -⟩ := id hd
        obtain ⟨b1, b2⟩ := callEntry_images t r p.1 p.2 i hi h1
        constructor
        · intro im him
          rcases List.mem_append.mp him with him | him
          · obtain ⟨k, hk⟩ := b1 im him
            exact ⟨r, List.mem_cons_self .., i, k, hi, hk⟩
          · obtain ⟨r', hr', x⟩ := a1 im him
            exact ⟨r', List.mem_cons_of_mem _ hr', x⟩
        · intro e he
          rcases List.mem_cons.mp he with he | he
          · subst he
            exact ⟨r, List.mem_cons_self .., i, hi, hd, fun k f hk =>
              ⟨(b2 k f hk).1, List.mem_append_left _ (b2 k f hk).2⟩⟩
          · obtain ⟨r', hr', i', x1, x2, x3⟩ := a2 e he
            exact ⟨r', List.mem_cons_of_mem _ hr', i', x1, x2, fun k f hk =>
              ⟨(x3 k f hk).1, List.mem_append_right _ (x3 k f hk).2⟩⟩

theorem sections_images (sortRows : List OpRow → List OpRow) (t : Tables) (ds : List (Id × Int × List OpRow))
    (is : List Image) (ss : List Section) (h : sections sortRows t ds = some (is, ss)) :
    (∀ im ∈ is, ∃ d ∈ ds, ∃ r ∈ sortRows d.2.2, ∃ i k, getInfo r.id = some i ∧
      im = ⟨png (chartId i ++ k.suffix), drawn t r k⟩) ∧
    (∀ s ∈ ss, ∀ e ∈ s.entries, ∃ d ∈ ds, ∃ r ∈ sortRows d.2.2, ∃ i, getInfo r.id = some i ∧ Describes r e ∧
      ∀ k f, e.link k = some f → f = png (chartId i ++ k.suffix) ∧ ⟨f, drawn t r k⟩ ∈ is) := by
  induction ds generalizing is ss with
  | nil => cases h; exact ⟨fun _ h => absurd h (List.not_mem_nil), fun _ h => absurd h (List.not_mem_nil)⟩
  | cons d ds ih =>
    obtain ⟨n, k, rs⟩ := d
    unfold sections at h
    cases h1 : callEntries t (sortRows rs) with
    | none => rw [h1] at h; cases h
    | some p =>
      cases h2 : sections sortRows t ds with
      | none => rw [h1, h2] at h; cases h
      | some q =>
        rw [h1, h2] at h
        cases h
        obtain ⟨a1, a2⟩ := ih q.1 q.2 h2
        obtain ⟨b1, b2⟩ := callEntries_images t _ p.1 p.2 h1
        constructor
        · intro im him
          rcases List.mem_append.mp him with him | him
          · exact ⟨_, List.mem_cons_self .., b1 im him⟩
          · obtain ⟨d, hd, x⟩ := a1 im him
            exact ⟨d, List.mem_cons_of_mem _ hd, x⟩
        · intro s hs e he
          rcases List.mem_cons.mp hs with hs | hs
          · subst hs
            obtain ⟨r, hr, i, x1, x2, x3⟩ := b2 e he
            exact ⟨_, List.mem_cons_self .., r, hr, i, x1, x2, fun k f hk =>
              ⟨(x3 k f hk).1, List.mem_append_left _ (x3 k f hk).2⟩⟩
          · obtain ⟨d, hd, r, hr, i, x1, x2, x3⟩ := a2 s hs e he
            exact ⟨d, List.mem_cons_of_mem _ hd, r, hr, i, x1, x2, fun k f hk =>
              ⟨(x3 k f hk).1, List.mem_append_right _ (x3 k f hk).2⟩⟩

/-- The file after all pictures have been written: the last one wins. -/
def onDisk (imgs : List Image) (file : List Char) : Option Drawing :=
  (imgs.reverse.find? fun im => im.file == file).map Image.drawing

theorem onDisk_of_unique (imgs : List Image) (im : Image) (h : im ∈ imgs)
    (hu : ∀ im' ∈ imgs, im'.file = im.file → im'.drawing = im.drawing) : onDisk imgs im.file = some im.drawing := by
  unfold onDisk
  cases hf : imgs.reverse.find? fun x => x.file == im.file with
  | none =>
    rw [List.find?_eq_none] at hf
    exact absurd (by simp) (hf im (List.mem_reverse.mpr h))
  | some x =>
    have h1 := List.mem_of_find?_eq_some hf
    have h2 := List.find?_some hf
    rw [List.mem_reverse] at h1
    rw [Option.map_some, hu x h1 (by simpa using h2)]

/-- **C85** (the pictures).  When no two call sites have the same chart name, each link of an entry opens a
picture of that call site: the arguments found by the search on both, the operations found by the
search on both, the arguments found by the search on arguments.  (What is missing: the fourth link
opens the operations of the search on both, and names may coincide, below.) -/
theorem C85_pictures_partial (sortTable : List (Id × Int × List OpRow) → List (Id × Int × List OpRow))
    (sortRows : List OpRow → List OpRow) (hT : Sorts (fun d => d.2.1) sortTable) (hR : Sorts OpRow.ncalls sortRows)
    (argv : List Id) (t : Tables) (imgs : List Image) (p : Page)
    (h : build sortTable sortRows argv t = some (imgs, p))
    (hd : ∀ r ∈ t.allOps, ∀ r' ∈ t.allOps, ∀ i i', getInfo r.id = some i → getInfo r'.id = some i' →
      chartId i = chartId i' → r = r')
    (s : Section) (hs : s ∈ p.sections) (e : Entry) (he : e ∈ s.entries) :
    ∃ r ∈ t.allOps, Describes r e ∧
      (∀ f, e.args = some f → onDisk imgs f = some (.args (t.allArgs.filter fun a => a.id == r.id))) ∧
      (∀ f, e.ops = some f → onDisk imgs f = some (.ops r)) ∧
      (∀ f, e.argsOnly = some f → onDisk imgs f = some (.args (t.args.filter fun a => a.id == r.id))) := by
  obtain ⟨table, h1, h2, h3⟩ := build_eq h
  have hg := functionTable_good t.allOps [] [] table
    ⟨List.nodup_nil, fun d h => absurd h (List.not_mem_nil), fun d h => absurd h (List.not_mem_nil), fun n => by simp⟩ h1
  rw [List.nil_append] at hg
  have hmem : ∀ d ∈ sortTable table, ∀ r ∈ sortRows d.2.2, r ∈ t.allOps := by
    intro d hd r hr
    have h5 := (hR d.2.2).1.mem_iff.mp hr
    rw [hg.sel d ((hT table).1.mem_iff.mp hd)] at h5
    exact (List.mem_filter.mp h5).1
  obtain ⟨a1, a2⟩ := sections_images sortRows t _ imgs p.sections h2
  obtain ⟨d, hdm, r, hr, i, hi, x1, x2⟩ := a2 s hs e he
  have hr0 := hmem d hdm r hr
  have key : ∀ k f, e.link k = some f → onDisk imgs f = some (drawn t r k) := by
    intro k f hk
    obtain ⟨hf, hin⟩ := x2 k f hk
    apply onDisk_of_unique imgs ⟨f, drawn t r k⟩ hin
    intro im' him' hfile
    obtain ⟨d', hd', r', hr', i', k', hi', rfl⟩ := a1 im' him'
    have h7 := png_inj _ _ (hfile.trans hf)
    obtain ⟨h8, h9⟩ := suffix_inj _ _ _ _ h7
    subst h9
    have := hd r' (hmem d' hd' r' hr') r hr0 i' i hi' hi h8
    rw [this]
  exact ⟨r, hr0, x1, key .args, key .ops, key .argsOnly⟩

/-! ## Where it fails -/

/-- **C85** fails: the page is never written, whatever the tables. -/
theorem C85_never_written (sortTable : List (Id × Int × List OpRow) → List (Id × Int × List OpRow))
    (sortRows : List OpRow → List OpRow) (argv : List Id) (t : Tables) : report sortTable sortRows argv t = none := by
  unfold report
  cases build sortTable sortRows argv t with
  | none => rfl
  | some q =>
    change writePage q.2 = none
    unfold writePage readName
    rw [if_pos (by decide)]
    rfl

/-- **C85** fails: the functions named on the command line do not restrict the page. -/
theorem C85_selection_wrong (sortTable : List (Id × Int × List OpRow) → List (Id × Int × List OpRow))
    (sortRows : List OpRow → List OpRow) (argv : List Id) (t : Tables) (out : List Image × Page)
    (h : build sortTable sortRows argv t = some out) : build sortTable sortRows [] t = some out := by
  unfold build at h
  cases h1 : filterTables argv t with
  | none => rw [h1] at h; cases h
  | some t' =>
    have := filterTables_id _ _ _ h1
    subst this
    rw [h1] at h
    exact h

/-- The order that keeps the rows as they are, enough for one row. -/
def row (id : String) (p64 ncalls : Int) : OpRow := ⟨id.toList, 0, 0, 0, 1, p64, 11, 23, 8, 0, 0, ncalls⟩

/-- **C85** fails: the link to the operations of the search on operations opens the result of the search on
both. -/
theorem C85_opsOnly_wrong :
    let t : Tables := ⟨[], [row "a.c//f/1/0" 9 1], [], [row "a.c//f/1/0" 30 1]⟩
    ∃ imgs p s e f, build id id [] t = some (imgs, p) ∧ s ∈ p.sections ∧ e ∈ s.entries ∧ e.opsOnly = some f ∧
      onDisk imgs f = some (.ops (row "a.c//f/1/0" 30 1)) := by
  refine ⟨[⟨png "a_c_f_0_Ops".toList, .ops (row "a.c//f/1/0" 30 1)⟩,
      ⟨png "a_c_f_0_OpsOnly".toList, .ops (row "a.c//f/1/0" 30 1)⟩],
    ⟨[("F".toList, 1)], [⟨"F".toList, [⟨"a_c_f_0".toList, "F".toList, "a.c".toList, 1, 1, none,
      some (png "a_c_f_0_Ops".toList), none, some (png "a_c_f_0_OpsOnly".toList)⟩]⟩]⟩, _, _,
    png "a_c_f_0_OpsOnly".toList, by decide +kernel, List.mem_singleton.mpr rfl, List.mem_singleton.mpr rfl, rfl,
    by decide +kernel⟩

/-- **C85** fails: calls in files of the same name in two directories share their pictures; only those of the last
one are kept. -/
theorem C85_collision_wrong :
    let r1 := row "x/a.c/g/f/1/0" 9 2
    let r2 := row "y/a.c/g/f/1/0" 30 1
    ∃ imgs p, build id id [] ⟨[], [r1, r2], [], [r1, r2]⟩ = some (imgs, p) ∧
      (p.sections.flatMap Section.entries).map Entry.ops =
        [some (png "a_c_f_0_Ops".toList), some (png "a_c_f_0_Ops".toList)] ∧
      onDisk imgs (png "a_c_f_0_Ops".toList) = some (.ops r2) := by
  intro r1 r2
  have h : (build id id [] ⟨[], [r1, r2], [], [r1, r2]⟩).isSome = true := by decide +kernel
  obtain ⟨⟨imgs, p⟩, h⟩ := Option.isSome_iff_exists.mp h
  refine ⟨imgs, p, h, ?_, ?_⟩
  · have : (build id id [] ⟨[], [r1, r2], [], [r1, r2]⟩).map (fun q => (q.2.sections.flatMap Section.entries).map Entry.ops) =
        some [some (png "a_c_f_0_Ops".toList), some (png "a_c_f_0_Ops".toList)] := by decide +kernel
    rw [h] at this
    exact Option.some.inj this
  · have : (build id id [] ⟨[], [r1, r2], [], [r1, r2]⟩).map (fun q => onDisk q.1 (png "a_c_f_0_Ops".toList)) =
        some (some (.ops r2)) := by decide +kernel
    rw [h] at this
    exact Option.some.inj this

/-- **C85** fails: functions whose names differ only by the case have the same section name, by which the page
selects what it shows. -/
theorem C85_case_wrong :
    (build id id [] ⟨[], [row "a.c/g/f/1/0" 9 2, row "a.c/g/F/2/1" 9 1], [],
        [row "a.c/g/f/1/0" 9 2, row "a.c/g/F/2/1" 9 1]⟩).map (fun q => q.2.sections.map Section.name) =
      some ["F".toList, "F".toList] := by decide +kernel

/-- Two functions, three call sites: totals 5 and 2. -/
example : (build id id [] ⟨[], [row "a.c/g/f/1/0" 9 3, row "a.c/g/f/7/1" 9 2, row "a.c/g/h/2/2" 9 2], [],
      [row "a.c/g/f/1/0" 9 3, row "a.c/g/f/7/1" 9 2, row "a.c/g/h/2/2" 9 2]⟩).map (fun q => (q.2.bars, q.1.length)) =
    some ([("F".toList, 5), ("H".toList, 2)], 6) := by decide +kernel

/-- The selection of `h` leaves `f` in. -/
example : (build id id ["h".toList] ⟨[], [row "a.c/g/f/1/0" 9 3, row "a.c/g/h/2/2" 9 2], [],
      [row "a.c/g/f/1/0" 9 3, row "a.c/g/h/2/2" 9 2]⟩).map (fun q => q.2.bars) =
    some [("F".toList, 3), ("H".toList, 2)] := by decide +kernel

end Verif.Precexp
