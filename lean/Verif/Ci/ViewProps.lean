import Verif.Ci.Views
import Mathlib.Data.List.Sort
import Mathlib.Tactic.Linarith
import Mathlib.Tactic.SplitIfs

/-!
# C106: the views of the report that compare runs
-/

namespace Verif.Ci.Views
open Verif Verif.Ci.Report

/-- The row belongs to the selected test, variable and backend. -/
def View.Mine (s : View) (r : Row) : Prop := r.test = s.test ∧ r.probe = s.var ∧ r.backend = s.back

instance (s : View) : DecidablePred s.Mine := fun r => by unfold View.Mine; infer_instance

/-- The plot shows the last `n` rows of the selection, in the order of their runs and under the names of
these; all of them if `n` is 0. -/
structure View.Shows (s : View) : Prop where
  rows : ∀ r ∈ s.plot.rows, r ∈ s.data ∧ s.Mine r
  order : s.plot.rows.Pairwise fun r q => r.timestamp ≤ q.timestamp
  count : s.plot.rows.length = if s.n = 0 then s.data.countP s.Mine else min s.n (s.data.countP s.Mine)
  recent : ∀ r ∈ s.data, s.Mine r → r ∈ s.plot.rows ∨ ∀ q ∈ s.plot.rows, r.timestamp ≤ q.timestamp
  names : s.plot.x.map some = s.plot.rows.map fun r => s.names.lookup r.timestamp

/-- The selection is one of the table, the lists offer what the table has, and the plot shows the selection. -/
structure View.Sound (s : View) : Prop where
  row : ∃ r ∈ s.data, s.Mine r
  tests : ∀ t ∈ s.testOpts, ∃ r ∈ s.data, r.test = t
  vars : ∀ v, v ∈ s.varOpts ↔ ∃ r ∈ s.data, r.test = s.test ∧ r.probe = v
  backs : ∀ b, b ∈ s.backOpts ↔ ∃ r ∈ s.data, r.test = s.test ∧ r.probe = s.var ∧ r.backend = b
  shows_ : s.Shows

/-- Every row is of a run with a name, and no test has the empty name. -/
def Proper (d : List Row) (names : List (Int × Str)) : Prop :=
  ∀ r ∈ d, (names.lookup r.timestamp).isSome = true ∧ r.test ≠ []

instance (d : List Row) (names : List (Int × Str)) : Decidable (Proper d names) := by unfold Proper; infer_instance

/-- The filter of outliers is not used in the view of deterministic backends. -/
def View.Calm (s : View) : Prop := (s.det && s.outliers) = false

/-! ## The table -/

theorem mem_dedup (l : List Str) : ∀ a, a ∈ dedup l ↔ a ∈ l := by
  induction l with
  | nil => simp [dedup]
  | cons b l ih =>
    intro a
    by_cases h : a = b
    · simp [dedup, h]
    · simp [dedup, h, ih]

theorem mem_vars (d : List Row) (t v : Str) : v ∈ varsOf d t ↔ ∃ r ∈ d, r.test = t ∧ r.probe = v := by
  simp [varsOf, mem_dedup, and_assoc]

theorem mem_backs (d : List Row) (t v b : Str) : b ∈ backsOf d t v ↔ ∃ r ∈ d, r.test = t ∧ r.probe = v ∧ r.backend = b := by
  simp [backsOf, mem_dedup, and_assoc]

theorem mem_tests (d : List Row) (t : Str) : t ∈ testsOf d ↔ ∃ r ∈ d, r.test = t := by
  simp [testsOf, mem_dedup]

/-! ## The plots -/

theorem nameAll_ok (names : List (Int × Str)) (ts : List Int) (h : ∀ t ∈ ts, (names.lookup t).isSome = true) :
    ∃ x, nameAll names ts = .ok x ∧ x.map some = ts.map fun t => names.lookup t := by
  induction ts with
  | nil => exact ⟨[], rfl, rfl⟩
  | cons t ts ih =>
    obtain ⟨x, hx, he⟩ := ih fun u hu => h u (List.mem_cons_of_mem _ hu)
    obtain ⟨s, hs⟩ := Option.isSome_iff_exists.1 (h t List.mem_cons_self)
    refine ⟨s :: x, ?_, ?_⟩
    · simp only [nameAll, hs, hx]; rfl
    · simp [hs, he]

theorem lastN_lastN {α : Type} (n : Nat) (l : List α) : lastN n (lastN n l) = lastN n l := by
  unfold lastN
  by_cases h : n = 0
  · simp [h]
  · simp only [h, if_false, List.length_drop]
    have : l.length - (l.length - n) - n = 0 := by omega
    rw [this, List.drop_zero]

theorem lastN_map {α β : Type} (f : α → β) (n : Nat) (l : List α) : lastN n (l.map f) = (lastN n l).map f := by
  unfold lastN
  split_ifs <;> simp

theorem lastN_length {α : Type} (n : Nat) (l : List α) : (lastN n l).length = if n = 0 then l.length else min n l.length := by
  unfold lastN
  split_ifs <;> simp; omega

theorem drop_eq_lastN {α : Type} (n : Nat) (l : List α) :
    l.drop (l.length - if n = 0 ∨ n > l.length then l.length else n) = lastN n l := by
  unfold lastN
  by_cases h : n = 0
  · simp [h]
  · by_cases h' : n > l.length
    · rw [if_pos (Or.inr h'), if_neg h]
      have : l.length - n = 0 := by omega
      simp [this]
    · rw [if_neg (by omega), if_neg h]

theorem byTime_sorted (rows : List Row) : (byTime rows).Pairwise fun r q => r.timestamp ≤ q.timestamp := by
  have : Std.Total fun r s : Row => r.timestamp ≤ s.timestamp := ⟨fun a b => le_total _ _⟩
  have : IsTrans Row fun r s : Row => r.timestamp ≤ s.timestamp := ⟨fun a b c => le_trans⟩
  exact List.pairwise_insertionSort _ _

theorem times_sorted (rows : List Row) :
    ((byTime rows).map Row.timestamp).insertionSort (· ≤ ·) = (byTime rows).map Row.timestamp :=
  List.Pairwise.insertionSort_eq (List.pairwise_map.2 (byTime_sorted rows))

/-- The plots are updated, and show the selection. -/
theorem updatePlots_ok (s : View) (hp : Proper s.data s.names) (hc : s.Calm) (hr : ∃ r ∈ s.data, s.Mine r) :
    ∃ p, updatePlots s = .ok { s with plot := p } ∧ View.Shows { s with plot := p } := by
  obtain ⟨r0, hr0, hm0⟩ := hr
  have hd : s.data ≠ [] := List.ne_nil_of_mem hr0
  have hl : loc s.data s.test s.var s.back = .ok (s.data.filter fun r => decide (s.Mine r)) := by
    unfold loc
    rw [if_pos]
    · rfl
    · exact ⟨List.mem_map.2 ⟨r0, hr0, hm0.1⟩, List.mem_map.2 ⟨r0, hr0, hm0.2.1⟩, List.mem_map.2 ⟨r0, hr0, hm0.2.2⟩⟩
  generalize hmine : (s.data.filter fun r => decide (s.Mine r)) = mine at hl
  have hperm : (byTime mine).Perm mine := List.perm_insertionSort _ _
  have hmem : ∀ r, r ∈ byTime mine ↔ r ∈ s.data ∧ s.Mine r := by
    intro r; rw [hperm.mem_iff, ← hmine]; simp
  obtain ⟨x, hx, hxe⟩ := nameAll_ok s.names ((lastN s.n (byTime mine)).map Row.timestamp) (by
    intro t ht
    obtain ⟨r, hr, rfl⟩ := List.mem_map.1 ht
    have : r ∈ byTime mine := by
      unfold lastN at hr
      split_ifs at hr
      · exact hr
      · exact List.mem_of_mem_drop hr
    exact (hp r ((hmem r).1 this).1).1)
  have hser : xSeries s.names (((byTime mine).map Row.timestamp).insertionSort (· ≤ ·)) s.n = .ok x := by
    rw [times_sorted]
    unfold xSeries
    simp only []
    rw [drop_eq_lastN, lastN_map, hx]
  have hlen : x.length = (lastN s.n (byTime mine)).length := by
    have := congrArg List.length hxe
    simpa using this
  have hxx : lastN s.n x = x := by
    unfold lastN
    split_ifs with h
    · rfl
    · rw [hlen, lastN_length, if_neg h]
      have : min s.n (byTime mine).length - s.n = 0 := by omega
      rw [this, List.drop_zero]
  refine ⟨⟨x, lastN s.n (byTime mine)⟩, ?_, ?_⟩
  · unfold updatePlots
    rw [if_neg hd, hl]
    simp only [Outcome.bind_ok, hser]
    rw [show (s.det && s.outliers) = false from hc, hxx]
    rfl
  · have hsub : (lastN s.n (byTime mine)).Sublist (byTime mine) := by
      unfold lastN
      split_ifs
      · exact List.Sublist.refl _
      · exact List.drop_sublist _ _
    refine ⟨fun r hr => (hmem r).1 (hsub.subset hr), (byTime_sorted mine).sublist hsub, ?_, ?_, ?_⟩
    · show (lastN s.n (byTime mine)).length = _
      have hcnt : (byTime mine).length = s.data.countP s.Mine := by
        rw [hperm.length_eq, ← hmine, List.countP_eq_length_filter]
      rw [lastN_length, hcnt]
      rfl
    · intro r hr hm
      have hin : r ∈ byTime mine := (hmem r).2 ⟨hr, hm⟩
      by_cases h : s.n = 0
      · left; show r ∈ lastN s.n (byTime mine); unfold lastN; rw [if_pos h]; exact hin
      · show r ∈ lastN s.n (byTime mine) ∨ ∀ q ∈ lastN s.n (byTime mine), _
        unfold lastN
        rw [if_neg h]
        have hs := byTime_sorted mine
        rw [← List.take_append_drop ((byTime mine).length - s.n) (byTime mine)] at hin hs
        rcases List.mem_append.1 hin with h1 | h1
        · right
          intro q hq
          exact (List.pairwise_append.1 hs).2.2 r h1 q hq
        · exact Or.inl h1
    · show x.map some = _
      rw [hxe, List.map_map]
      rfl

/-! ## The callbacks -/

/-- The view after `update_var`. -/
theorem refreshVar_ok (s : View) (hp : Proper s.data s.names) (hc : s.Calm) (hr : ∃ r ∈ s.data, r.test = s.test ∧ r.probe = s.var) :
    ∃ p, refreshVar s = .ok { s with
        backOpts := backsOf s.data s.test s.var
        back := if s.back ∈ backsOf s.data s.test s.var then s.back else (backsOf s.data s.test s.var).headD []
        plot := p } ∧
      View.Shows { s with
        backOpts := backsOf s.data s.test s.var
        back := if s.back ∈ backsOf s.data s.test s.var then s.back else (backsOf s.data s.test s.var).headD []
        plot := p } := by
  obtain ⟨r0, hr0, h1, h2⟩ := hr
  have hin : r0.backend ∈ backsOf s.data s.test s.var := (mem_backs _ _ _ _).2 ⟨r0, hr0, h1, h2, rfl⟩
  unfold refreshVar
  generalize hb : backsOf s.data s.test s.var = bs at hin
  cases bs with
  | nil => simp at hin
  | cons b bs =>
    have hall : ∀ c ∈ b :: bs, ∃ r ∈ s.data, r.test = s.test ∧ r.probe = s.var ∧ r.backend = c := by
      intro c hc'; rw [← hb] at hc'; exact (mem_backs _ _ _ _).1 hc'
    by_cases hback : s.back ∈ b :: bs
    · simp only [hback, if_true, not_true, if_false]
      obtain ⟨r, hr, hm⟩ := hall _ hback
      exact updatePlots_ok { s with backOpts := b :: bs } hp hc ⟨r, hr, hm⟩
    · simp only [hback, not_false_iff, if_true, if_false, List.headD_cons]
      obtain ⟨r, hr, hm⟩ := hall b List.mem_cons_self
      have hne : b ≠ s.back := fun h => hback (h ▸ List.mem_cons_self)
      unfold setBack
      rw [if_neg hne]
      exact updatePlots_ok { s with backOpts := b :: bs, back := b } hp hc ⟨r, hr, hm⟩

theorem head_mem {l : List Str} (h : l ≠ []) : l.headD [] ∈ l := by
  cases l with
  | nil => exact absurd rfl h
  | cons a l => simp

/-- The view after `update_test`: the variable and the backend are among those of the test. -/
theorem refreshTest_ok (s : View) (hp : Proper s.data s.names) (hc : s.Calm) (hr : ∃ r ∈ s.data, r.test = s.test) :
    ∃ v b p, refreshTest s = .ok { s with
        varOpts := varsOf s.data s.test, var := v
        backOpts := backsOf s.data s.test v, back := b, plot := p } ∧
      View.Shows { s with
        varOpts := varsOf s.data s.test, var := v
        backOpts := backsOf s.data s.test v, back := b, plot := p } ∧
      b ∈ backsOf s.data s.test v ∧
      v = (if varsOf s.data s.test = s.varOpts ∧ s.var ∈ varsOf s.data s.test then s.var else (varsOf s.data s.test).headD []) := by
  obtain ⟨r0, hr0, h1⟩ := hr
  have hin : r0.probe ∈ varsOf s.data s.test := (mem_vars _ _ _).2 ⟨r0, hr0, h1, rfl⟩
  have hall : ∀ v ∈ varsOf s.data s.test, ∃ r ∈ s.data, r.test = s.test ∧ r.probe = v := fun v hv => (mem_vars _ _ _).1 hv
  have hback : ∀ v ∈ varsOf s.data s.test, backsOf s.data s.test v ≠ [] := by
    intro v hv he
    obtain ⟨r, hr, h3, h4⟩ := hall v hv
    have := (mem_backs s.data s.test v r.backend).2 ⟨r, hr, h3, h4, rfl⟩
    rw [he] at this; simp at this
  have hbm : ∀ v ∈ varsOf s.data s.test, ∀ c, (if c ∈ backsOf s.data s.test v then c else (backsOf s.data s.test v).headD []) ∈
      backsOf s.data s.test v := by
    intro v hv c
    split_ifs with h
    · exact h
    · exact head_mem (hback v hv)
  unfold refreshTest
  generalize hv : varsOf s.data s.test = vs at hin hall hback hbm
  cases vs with
  | nil => simp at hin
  | cons v vs =>
    have hv0 : v ∈ v :: vs := List.mem_cons_self
    simp only [List.headD_cons]
    by_cases ho : v :: vs = s.varOpts
    · -- the options do not change
      have hset : setVarOpts s (v :: vs) = .ok s := by unfold setVarOpts; rw [if_pos ho]
      rw [hset]
      simp only [Outcome.bind_ok]
      by_cases hvar : s.var ∈ v :: vs
      · rw [if_neg (not_not.2 hvar), if_pos ⟨ho, hvar⟩]
        obtain ⟨p, e, hs⟩ := refreshVar_ok s hp hc (hall _ hvar)
        refine ⟨_, if s.back ∈ backsOf s.data s.test s.var then s.back else (backsOf s.data s.test s.var).headD [], p, ?_, ?_, ?_, rfl⟩
        · rw [e]; simp only [ho]
        · have hs' := hs; rw [ho]; exact hs'
        · exact hbm _ hvar s.back
      · rw [if_pos hvar, if_neg (fun h => hvar h.2)]
        have hne : v ≠ s.var := fun h => hvar (h ▸ hv0)
        unfold setVar
        rw [if_neg hne]
        obtain ⟨p, e, hs⟩ := refreshVar_ok { s with var := v } hp hc (hall _ hv0)
        refine ⟨_, if s.back ∈ backsOf s.data s.test v then s.back else (backsOf s.data s.test v).headD [], p, ?_, ?_, ?_, rfl⟩
        · rw [e]; simp only [ho]
        · rw [ho]; exact hs
        · exact hbm _ hv0 s.back
    · -- the options change: `update_var` is called with the list
      rw [if_neg (fun h => ho h.1)]
      obtain ⟨p1, e1, hs1⟩ := refreshVar_ok { s with varOpts := v :: vs, var := v } hp hc (hall _ hv0)
      have hset : setVarOpts s (v :: vs) = refreshVar { s with varOpts := v :: vs, var := v } := by
        unfold setVarOpts
        rw [if_neg ho]
        simp only []
        by_cases hne : v = s.var
        · rw [if_neg (not_not.2 hne)]
          congr 1
          rw [hne]
        · rw [if_pos hne]
          unfold setVar
          simp only []
          rw [if_neg hne]
      rw [hset, e1]
      simp only [Outcome.bind_ok]
      rw [if_neg (not_not.2 hv0)]
      obtain ⟨p2, e2, hs2⟩ := refreshVar_ok { s with
          varOpts := v :: vs, var := v
          backOpts := backsOf s.data s.test v
          back := if s.back ∈ backsOf s.data s.test v then s.back else (backsOf s.data s.test v).headD []
          plot := p1 } hp hc (hall _ hv0)
      refine ⟨_, if (if s.back ∈ backsOf s.data s.test v then s.back else (backsOf s.data s.test v).headD []) ∈ backsOf s.data s.test v then (if s.back ∈ backsOf s.data s.test v then s.back else (backsOf s.data s.test v).headD [])
          else (backsOf s.data s.test v).headD [], p2, ?_, ?_, ?_, rfl⟩
      · rw [e2]
      · exact hs2
      · exact hbm _ hv0 _

/-- A view whose test is in the table is sound after `update_test`. -/
theorem refreshTest_sound (s : View) (hp : Proper s.data s.names) (hc : s.Calm) (hr : ∃ r ∈ s.data, r.test = s.test)
    (ht : ∀ t ∈ s.testOpts, ∃ r ∈ s.data, r.test = t) :
    ∃ s', refreshTest s = .ok s' ∧ s'.Sound ∧ s'.data = s.data ∧ s'.names = s.names ∧ s'.known = s.known ∧ s'.det = s.det ∧
      s'.outliers = s.outliers ∧ s'.test = s.test ∧ s'.testOpts = s.testOpts ∧ s'.n = s.n ∧
      s'.var = if varsOf s.data s.test = s.varOpts ∧ s.var ∈ varsOf s.data s.test then s.var else (varsOf s.data s.test).headD [] := by
  obtain ⟨v, b, p, e, hs, hb, hv⟩ := refreshTest_ok s hp hc hr
  refine ⟨_, e, ⟨?_, ht, fun v => mem_vars _ _ _, fun b => mem_backs _ _ _ _, hs⟩, rfl, rfl, rfl, rfl, rfl, rfl, rfl, rfl, hv⟩
  obtain ⟨r, hr, h1, h2, h3⟩ := (mem_backs _ _ _ _).1 hb
  exact ⟨r, hr, h1, h2, h3⟩

/-- What a visitor is offered.  The filter of outliers is not for the deterministic view, see `C106_outliers_wrong`; for
another repository see `C106_repository_partial`. -/
def Offered (s : View) : Ev → Prop
  | .test t => t ∈ s.testOpts
  | .var v => v ∈ s.varOpts
  | .back b => b ∈ s.backOpts
  | .runs _ => True
  | .outliers b => s.det = true → b = false
  | .filter _ => True
  | .repo _ _ => False

/-- **C106** In a sound view nothing that a visitor is offered raises, and the view stays sound. -/
theorem C106_step_partial (s : View) (e : Ev) (h : s.Sound) (hp : Proper s.data s.names) (hc : s.Calm)
    (hk : ∀ t ∈ s.known, ∃ r ∈ s.data, r.test = t) (ho : Offered s e) :
    ∃ s', step s e = .ok s' ∧ s'.Sound ∧ s'.data = s.data ∧ s'.names = s.names ∧ s'.known = s.known ∧ s'.Calm := by
  have hset : ∀ (s1 : View) (t : Str), s1.Sound → Proper s1.data s1.names → s1.Calm → (∃ r ∈ s1.data, r.test = t) →
      ∃ s', setTest s1 t = .ok s' ∧ s'.Sound ∧ s'.data = s1.data ∧ s'.names = s1.names ∧ s'.known = s1.known ∧ s'.Calm := by
    intro s1 t h1 hp1 hc1 hr
    unfold setTest
    by_cases he : t = s1.test
    · rw [if_pos he]; exact ⟨s1, rfl, h1, rfl, rfl, rfl, hc1⟩
    · rw [if_neg he]
      obtain ⟨r, hr, rfl⟩ := hr
      simp only []
      rw [if_neg (fun hh => (hp1 r hr).2 hh.2)]
      obtain ⟨s', e', hs', h2, h3, h4, h5, h6, _⟩ := refreshTest_sound { s1 with test := r.test } hp1 hc1 ⟨r, hr, rfl⟩ h1.tests
      exact ⟨s', e', hs', h2, h3, h4, by unfold View.Calm; rw [h5, h6]; exact hc1⟩
  cases e with
  | test t => exact hset s t h hp hc (h.tests t ho)
  | var v =>
    show ∃ s', setVar s v = .ok s' ∧ _
    unfold setVar
    by_cases he : v = s.var
    · rw [if_pos he]; exact ⟨s, rfl, h, rfl, rfl, rfl, hc⟩
    · rw [if_neg he]
      obtain ⟨r, hr, h1, h2⟩ := (h.vars v).1 ho
      obtain ⟨p, e', hs⟩ := refreshVar_ok { s with var := v } hp hc ⟨r, hr, h1, h2⟩
      refine ⟨_, e', ⟨?_, h.tests, h.vars, fun b => mem_backs _ _ _ _, hs⟩, rfl, rfl, rfl, hc⟩
      have hin := (mem_backs s.data s.test v r.backend).2 ⟨r, hr, h1, h2, rfl⟩
      have : (if s.back ∈ backsOf s.data s.test v then s.back else (backsOf s.data s.test v).headD []) ∈ backsOf s.data s.test v := by
        split_ifs with hb
        · exact hb
        · exact head_mem (List.ne_nil_of_mem hin)
      obtain ⟨q, hq, hq1, hq2, hq3⟩ := (mem_backs _ _ _ _).1 this
      exact ⟨q, hq, hq1, hq2, hq3⟩
  | back b =>
    show ∃ s', setBack s b = .ok s' ∧ _
    unfold setBack
    by_cases he : b = s.back
    · rw [if_pos he]; exact ⟨s, rfl, h, rfl, rfl, rfl, hc⟩
    · rw [if_neg he]
      obtain ⟨r, hr, h1, h2, h3⟩ := (h.backs b).1 ho
      obtain ⟨p, e', hs⟩ := updatePlots_ok { s with back := b } hp hc ⟨r, hr, h1, h2, h3⟩
      exact ⟨_, e', ⟨⟨r, hr, h1, h2, h3⟩, h.tests, h.vars, h.backs, hs⟩, rfl, rfl, rfl, hc⟩
  | runs n =>
    show ∃ s', (if n = s.n then Outcome.ok s else updatePlots { s with n }) = .ok s' ∧ _
    by_cases he : n = s.n
    · rw [if_pos he]; exact ⟨s, rfl, h, rfl, rfl, rfl, hc⟩
    · rw [if_neg he]
      obtain ⟨p, e', hs⟩ := updatePlots_ok { s with n } hp hc h.row
      exact ⟨_, e', ⟨h.row, h.tests, h.vars, h.backs, hs⟩, rfl, rfl, rfl, hc⟩
  | outliers b =>
    show ∃ s', (if b = s.outliers then Outcome.ok s else updatePlots { s with outliers := b }) = .ok s' ∧ _
    by_cases he : b = s.outliers
    · rw [if_pos he]; exact ⟨s, rfl, h, rfl, rfl, rfl, hc⟩
    · rw [if_neg he]
      have hc' : View.Calm { s with outliers := b } := by
        unfold View.Calm
        cases hd : s.det with
        | false => rfl
        | true => rw [ho hd]; rfl
      obtain ⟨p, e', hs⟩ := updatePlots_ok { s with outliers := b } hp hc' h.row
      exact ⟨_, e', ⟨h.row, h.tests, h.vars, h.backs, hs⟩, rfl, rfl, rfl, hc'⟩
  | filter text =>
    show ∃ s', setTestOpts s (s.known.filter fun e => decide (text <:+: e)) = .ok s' ∧ _
    have hsub : ∀ t ∈ s.known.filter (fun e => decide (text <:+: e)), ∃ r ∈ s.data, r.test = t :=
      fun t ht => hk t (List.mem_filter.1 ht).1
    generalize (s.known.filter fun e => decide (text <:+: e)) = ts at hsub
    unfold setTestOpts
    by_cases he : ts = s.testOpts
    · rw [if_pos he]; exact ⟨s, rfl, h, rfl, rfl, rfl, hc⟩
    · rw [if_neg he]
      cases ts with
      | nil =>
        exact ⟨_, rfl, ⟨h.row, hsub, h.vars, h.backs, ⟨h.shows_.rows, h.shows_.order, h.shows_.count, h.shows_.recent, h.shows_.names⟩⟩,
          rfl, rfl, rfl, hc⟩
      | cons t ts =>
        obtain ⟨r, hr, h1⟩ := hsub t List.mem_cons_self
        simp only []
        rw [if_neg (fun hh => (hp r hr).2 (h1.trans hh.2))]
        by_cases hne : t = s.test
        · rw [if_neg (not_not.2 hne)]
          obtain ⟨s', e', hs', h2, h3, h4, h5, h6, _⟩ := refreshTest_sound { s with testOpts := t :: ts } hp hc ⟨r, hr, h1.trans hne⟩ hsub
          exact ⟨s', e', hs', h2, h3, h4, by unfold View.Calm; rw [h5, h6]; exact hc⟩
        · rw [if_pos hne]
          exact hset { s with testOpts := t :: ts } t
            ⟨h.row, hsub, h.vars, h.backs, ⟨h.shows_.rows, h.shows_.order, h.shows_.count, h.shows_.recent, h.shows_.names⟩⟩ hp hc ⟨r, hr, h1⟩
  | repo d names => exact ho.elim

/-- Every event was offered when it came. -/
def Visit : View → List Ev → Prop
  | _, [] => True
  | s, e :: es => Offered s e ∧ ∀ s', step s e = .ok s' → Visit s' es

/-- The first view of a table that is not empty is sound. -/
theorem init_sound (det : Bool) (d : List Row) (names : List (Int × Str)) (hd : d ≠ []) (hp : Proper d names) :
    ∃ s, init det d names = .ok s ∧ s.Sound ∧ s.data = d ∧ s.names = names ∧ s.Calm ∧ (∀ t ∈ s.known, ∃ r ∈ s.data, r.test = t) := by
  obtain ⟨r0, d', rfl⟩ := List.exists_cons_of_ne_nil hd
  generalize hdd : r0 :: d' = d at *
  have hr0 : r0 ∈ d := by rw [← hdd]; exact List.mem_cons_self
  have ht := head_mem (List.ne_nil_of_mem ((mem_tests d r0.test).2 ⟨r0, hr0, rfl⟩))
  obtain ⟨r1, hr1, ht1⟩ := (mem_tests _ _).1 ht
  have hv := head_mem (List.ne_nil_of_mem ((mem_vars d ((testsOf d).headD []) r1.probe).2 ⟨r1, hr1, ht1, rfl⟩))
  obtain ⟨r2, hr2, ht2, hv2⟩ := (mem_vars _ _ _).1 hv
  have hb := head_mem (List.ne_nil_of_mem ((mem_backs d _ _ r2.backend).2 ⟨r2, hr2, ht2, hv2, rfl⟩))
  obtain ⟨r3, hr3, hm⟩ := (mem_backs _ _ _ _).1 hb
  have hcalm : View.Calm ⟨det, d, names, testsOf d, testsOf d, varsOf d ((testsOf d).headD []),
      backsOf d ((testsOf d).headD []) ((varsOf d ((testsOf d).headD [])).headD []), (testsOf d).headD [],
      (varsOf d ((testsOf d).headD [])).headD [],
      (backsOf d ((testsOf d).headD []) ((varsOf d ((testsOf d).headD [])).headD [])).headD [], 5, false, ⟨[], []⟩⟩ := by
    unfold View.Calm; simp
  obtain ⟨p, e, hs⟩ := updatePlots_ok _ hp hcalm ⟨r3, hr3, hm⟩
  have htests : ∀ t ∈ testsOf d, ∃ r ∈ d, r.test = t := fun t => (mem_tests _ _).1
  unfold init
  simp only [if_neg hd]
  exact ⟨_, e, ⟨⟨r3, hr3, hm⟩, htests, fun v => mem_vars _ _ _, fun b => mem_backs _ _ _ _, hs⟩, rfl, rfl, hcalm, htests⟩

/-- **C106** As long as a visitor stays with one repository and chooses what is offered, the callbacks never raise,
the selection is one of the table, the lists offer exactly what the table has, and the plot shows the last runs of the selection. -/
theorem C106_visit_partial (det : Bool) (d : List Row) (names : List (Int × Str)) (hd : d ≠ []) (hp : Proper d names) :
    ∃ s0, init det d names = .ok s0 ∧ s0.Sound ∧ ∀ es, Visit s0 es → ∃ s, run s0 es = .ok s ∧ s.Sound ∧ s.data = d := by
  obtain ⟨s0, e0, h0, hd0, hn0, hc0, hk0⟩ := init_sound det d names hd hp
  refine ⟨s0, e0, h0, fun es => ?_⟩
  rw [← hd0, ← hn0] at hp
  rw [← hd0]
  clear e0 hd hd0 hn0
  induction es generalizing s0 with
  | nil => exact fun _ => ⟨s0, rfl, h0, rfl⟩
  | cons e es ih =>
    intro hv
    obtain ⟨s1, e1, h1, hd1, hn1, hk1, hc1⟩ := C106_step_partial s0 e h0 hp hc0 hk0 hv.1
    obtain ⟨s, e2, hs, hd2⟩ := ih s1 (by rw [hd1, hn1]; exact hp) h1 hc1 (by rw [hk1, hd1]; exact hk0) (hv.2 s1 e1)
    refine ⟨s, ?_, hs, by rw [hd2, hd1]⟩
    show (step s0 e >>= fun s => run s es) = _
    rw [e1]
    exact e2

/-- **C106** The report never starts: `compare_runs.py` does not import `figure`, with which it makes the first of its plots. -/
theorem C106_start_wrong (d e : List Row) (names : List (Int × Str)) : report d e names = .exit := rfl

/-- The other two files import what they use. -/
theorem C106_imports : setupPlots .deterministic = .ok () ∧ setupPlots .inspect = .ok () := by
  constructor <;> rfl

/-! ## Another repository -/

/-- **C106** Another repository is shown correctly when its tests are not those offered before, or its first test is not the one
selected.  In the other cases the lists are not updated, see `C106_repository_wrong`. -/
theorem C106_repository_partial (s : View) (d : List Row) (names : List (Int × Str)) (hd : d ≠ []) (hp : Proper d names) (hc : s.Calm)
    (hne : testsOf d ≠ s.testOpts ∨ (testsOf d).head? ≠ some s.test) :
    ∃ s', step s (.repo d names) = .ok s' ∧ s'.Sound ∧ s'.data = d ∧ s'.names = names ∧ s'.testOpts = testsOf d ∧
      (testsOf d).head? = some s'.test := by
  obtain ⟨r0, d', rfl⟩ := List.exists_cons_of_ne_nil hd
  generalize hdd : r0 :: d' = d at *
  have hr0 : r0 ∈ d := by rw [← hdd]; exact List.mem_cons_self
  have htests : ∀ t ∈ testsOf d, ∃ r ∈ d, r.test = t := fun t => (mem_tests _ _).1
  have hin := (mem_tests d r0.test).2 ⟨r0, hr0, rfl⟩
  show ∃ s', changeRepo s d names = .ok s' ∧ _
  unfold changeRepo
  generalize testsOf d = ts at hne htests hin
  cases ts with
  | nil => simp at hin
  | cons t ts =>
    obtain ⟨r, hr, h1⟩ := htests t List.mem_cons_self
    have hnil : t ≠ [] := h1 ▸ (hp r hr).2
    have final : ∀ s1 : View, s1.Sound → s1.data = d → s1.names = names → s1.test = t → s1.testOpts = t :: ts → s1.Calm →
        ∃ s', (setTest s1 t >>= updatePlots) = .ok s' ∧ s'.Sound ∧ s'.data = d ∧ s'.names = names ∧ s'.testOpts = t :: ts ∧
          (t :: ts).head? = some s'.test := by
      intro s1 h1 h2 h3 h4 h5 h6
      have : setTest s1 t = .ok s1 := by unfold setTest; rw [if_pos h4.symm]
      rw [this]
      obtain ⟨p, e, hs⟩ := updatePlots_ok s1 (by rw [h2, h3]; exact hp) h6 h1.row
      exact ⟨_, e, ⟨h1.row, h1.tests, h1.vars, h1.backs, hs⟩, h2, h3, h5, by simp [h4]⟩
    simp only []
    by_cases ho : t :: ts = s.testOpts
    · -- the list is the same: the first test is another one
      have hset : setTestOpts { s with data := d, names } (t :: ts) = .ok { s with data := d, names } := by
        unfold setTestOpts; rw [if_pos ho]
      rw [hset]
      have ht : t ≠ s.test := by
        intro h
        rcases hne with h' | h'
        · exact h' ho
        · simp [h] at h'
      obtain ⟨s', e', hs', h2, h3, h4, h5, h6, h7, h8, _⟩ := refreshTest_sound { s with data := d, names, test := t } hp hc ⟨r, hr, h1⟩
        (by show ∀ u ∈ s.testOpts, _; rw [← ho]; exact htests)
      have hst : setTest { s with data := d, names } t = .ok s' := by
        unfold setTest
        simp only []
        rw [if_neg ht, if_neg (fun h => hnil h.2)]
        exact e'
      simp only [Outcome.bind_ok]
      rw [hst]
      simp only [Outcome.bind_ok]
      obtain ⟨p, e, hs⟩ := updatePlots_ok s' (by rw [h2, h3]; exact hp) (by unfold View.Calm; rw [h5, h6]; exact hc) hs'.row
      refine ⟨_, e, ⟨hs'.row, hs'.tests, hs'.vars, hs'.backs, hs⟩, h2, h3, ?_, by simp [h7]⟩
      exact h8.trans ho.symm
    · obtain ⟨s', e', hs', h2, h3, h4, h5, h6, h7, h8, _⟩ := refreshTest_sound { s with data := d, names, testOpts := t :: ts, test := t } hp hc
        ⟨r, hr, h1⟩ htests
      have hset : setTestOpts { s with data := d, names } (t :: ts) = .ok s' := by
        unfold setTestOpts
        rw [if_neg ho]
        simp only []
        rw [if_neg (fun h => hnil h.2)]
        by_cases ht : t = s.test
        · rw [if_neg (not_not.2 ht), ← e']
          congr 1
          rw [ht]
        · rw [if_pos ht]
          unfold setTest
          simp only []
          rw [if_neg ht, if_neg (fun h => hnil h.2)]
          exact e'
      rw [hset]
      exact final s' hs' h2 h3 h7 h8 (by unfold View.Calm; rw [h5, h6]; exact hc)

/-- Rows for the examples. -/
def row (t v b : String) (time : Int) : Row := ⟨t.toList, v.toList, b.toList, time, 0⟩

/-- A repository with one test, which has two variables. -/
def repoA : List Row := [row "t" "x" "ieee" 1, row "t" "x" "ieee" 2, row "t" "y" "ieee" 2, row "u" "w" "vprec" 1, row "u" "y" "ieee" 2]

/-- Other repositories with the same tests. -/
def repoB : List Row := [row "t" "z" "ieee" 3, row "u" "z" "ieee" 3]
def repoC : List Row := [row "t" "x" "ieee" 3, row "t" "z" "ieee" 3, row "u" "z" "ieee" 3]
/-- One with other tests. -/
def repoD : List Row := [row "v" "z" "ieee" 3]

def namesA : List (Int × Str) := [(1, "one".toList), (2, "two".toList)]
def namesB : List (Int × Str) := [(3, "three".toList)]

/-- **C106** is false when the tests of the other repository are the same and the first one is selected: the variables are not updated.
Then the callback raises when the variable is not in the other repository, and otherwise the new variables are not offered. -/
theorem C106_repository_wrong :
    ∃ s, init false repoA namesA = .ok s ∧ Proper repoB namesB ∧ Proper repoC namesB ∧
      step s (.repo repoB namesB) = .exit ∧
      ∃ s', step s (.repo repoC namesB) = .ok s' ∧ "z".toList ∉ s'.varOpts ∧ "y".toList ∈ s'.varOpts := by
  exact ⟨_, rfl, by decide, by decide, by decide, _, rfl, by decide, by decide⟩

/-- **C106** The text filter keeps the tests of the first repository: it offers, and selects, tests that are not in the other one, and
the callback raises. -/
theorem C106_filter_wrong :
    ∃ s s', init false repoA namesA = .ok s ∧ step s (.repo repoD namesB) = .ok s' ∧ s'.Sound ∧ step s' (.filter "t".toList) = .exit := by
  obtain ⟨s, e, h, _, _, hc, _⟩ := init_sound false repoA namesA (by decide) (by decide)
  obtain ⟨s', e', h', _⟩ := C106_repository_partial s repoD namesB (by decide) (by decide) hc (by
    left; intro hh
    have : s.testOpts = testsOf repoA := by
      have : init false repoA namesA = .ok s := e
      have h2 : (match init false repoA namesA with | .ok s => s.testOpts | _ => []) = testsOf repoA := by decide
      rw [this] at h2; exact h2
    rw [this] at hh; exact absurd hh (by decide))
  refine ⟨s, s', e, e', h', ?_⟩
  have : (init false repoA namesA >>= fun s => step s (.repo repoD namesB) >>= fun s => step s (.filter "t".toList)) = .exit := by decide
  rw [e] at this
  simp only [Outcome.bind_ok] at this
  rw [e'] at this
  exact this

/-- **C106** When the list of variables changes with the test the first variable is selected, also if the one selected before is in the
new list: the assignment of the list calls `update_var`. -/
theorem C106_variable (s s' : View) (t : Str) (h : s.Sound) (hp : Proper s.data s.names) (hc : s.Calm) (ht : t ∈ s.testOpts) (hne : t ≠ s.test)
    (e : step s (.test t) = .ok s') :
    s'.test = t ∧ s'.varOpts = varsOf s.data t ∧
      (varsOf s.data t ≠ s.varOpts → s'.varOpts.head? = some s'.var) ∧ (varsOf s.data t = s.varOpts → s'.var = s.var) := by
  obtain ⟨r, hr, rfl⟩ := h.tests t ht
  obtain ⟨v, b, p, e', _, _, hv⟩ := refreshTest_ok { s with test := r.test } hp hc ⟨r, hr, rfl⟩
  have : step s (.test r.test) = refreshTest { s with test := r.test } := by
    show setTest s r.test = _
    unfold setTest
    simp only []
    rw [if_neg hne, if_neg (fun hh => (hp r hr).2 hh.2)]
  rw [this, e'] at e
  cases e
  refine ⟨rfl, rfl, ?_, ?_⟩
  · intro hd
    rw [if_neg (fun hh => hd hh.1)] at hv
    show (varsOf s.data r.test).head? = some v
    have hv : v = (varsOf s.data r.test).headD [] := hv
    have hin := (mem_vars s.data r.test r.probe).2 ⟨r, hr, rfl, rfl⟩
    rw [hv]
    generalize varsOf s.data r.test = vs at *
    cases vs with
    | nil => simp at hin
    | cons a vs => rfl
  · intro hd
    have : s.var ∈ varsOf s.data r.test := by
      rw [hd]
      obtain ⟨q, hq, h1, h2, _⟩ := h.row
      exact (h.vars _).2 ⟨q, hq, h1, h2⟩
    rw [if_pos ⟨hd, this⟩] at hv
    exact hv

/-- Variable `y` is selected and test `u` has a variable `y`: `w` is selected. -/
theorem C106_variable_wrong : ∃ s s', (init false repoA namesA >>= fun s => step s (.var "y".toList)) = .ok s ∧ s.var = "y".toList ∧
    step s (.test "u".toList) = .ok s' ∧ "y".toList ∈ s'.varOpts ∧ s'.var = "w".toList := by
  refine ⟨_, _, rfl, ?_, rfl, ?_, ?_⟩ <;> decide

/-- **C106** The filter of outliers of the deterministic view always raises. -/
theorem C106_outliers_wrong (s : View) (hdet : s.det = true) (ho : s.outliers = false) (h : s.Sound) (hp : Proper s.data s.names) :
    step s (.outliers true) = .exit := by
  obtain ⟨r0, hr0, hm0⟩ := h.row
  show (if true = s.outliers then Outcome.ok s else updatePlots { s with outliers := true }) = _
  rw [ho, if_neg (by decide)]
  obtain ⟨p, e, _⟩ := updatePlots_ok s hp (by unfold View.Calm; rw [ho]; simp) h.row
  unfold updatePlots at e ⊢
  have hd : s.data ≠ [] := List.ne_nil_of_mem hr0
  rw [if_neg hd] at e
  simp only [if_neg hd]
  cases hl : loc s.data s.test s.var s.back with
  | ok runs =>
    rw [hl] at e
    simp only [Outcome.bind_ok] at e ⊢
    cases hx : xSeries s.names (((byTime runs).map Row.timestamp).insertionSort (· ≤ ·)) s.n with
    | ok x => simp [hdet]
    | exit => rfl
    | ub => rw [hx] at e; cases e
  | exit => rfl
  | ub => rw [hl] at e; cases e

/-- With the last run only, the run `two` of variable `x` is shown; with all, both. -/
example : ∃ s, (init false repoA namesA >>= fun s => step s (.runs 1)) = .ok s ∧ s.plot.x = ["two".toList] ∧
    (init false repoA namesA >>= fun s => step s (.runs 0) >>= fun s => pure s.plot.x) = .ok ["one".toList, "two".toList] := by
  refine ⟨_, rfl, ?_, ?_⟩ <;> decide

/-- A visit: another test, its second variable, a filter that leaves the first test. -/
example : ∃ s, (init false repoA namesA >>= fun s => run s [.test "u".toList, .var "y".toList, .filter "t".toList]) = .ok s ∧
    s.test = "t".toList ∧ s.var = "x".toList ∧ s.testOpts = ["t".toList] ∧ s.plot.x = ["one".toList, "two".toList] := by
  refine ⟨_, rfl, ?_, ?_, ?_, ?_⟩ <;> decide

example : ∃ s, (init false repoA namesA >>= fun s => step s (.repo repoD namesB)) = .ok s ∧ s.plot.x = ["three".toList] ∧ s.varOpts = ["z".toList] := by
  refine ⟨_, rfl, ?_, ?_⟩ <;> decide

end Verif.Ci.Views
