import Verif.Ci.Groups
import Verif.Ci.CheckProps

/-!
# Properties of the data of non-deterministic backends

Documentation, doc/06-Postprocessing.md:170-176: a probe passes when
`Standard deviation < Target` (absolute), or `Standard deviation / |Empirical average| < Target`
(relative).
-/

namespace Verif.Ci
open Verif Verif.Fp Verif.Ieee Verif.Probes

/-! ## Groups -/

theorem addRow_keys (k : Key) (r : Row) (gs : List Group) :
    (addRow k r gs).map (·.key) = if k ∈ gs.map (·.key) then gs.map (·.key) else gs.map (·.key) ++ [k] := by
  induction gs with
  | nil => simp [addRow]
  | cons g gs ih =>
    unfold addRow
    by_cases h : g.key = k
    · rw [if_pos h]; simp [h]
    · rw [if_neg h, List.map_cons, ih]
      have h' : ¬ k = g.key := fun hh => h hh.symm
      by_cases hm : k ∈ gs.map (·.key)
      · rw [if_pos hm, if_pos (by rw [List.map_cons]; exact List.mem_cons_of_mem _ hm), List.map_cons]
      · rw [if_neg hm, if_neg (by rw [List.map_cons, List.mem_cons]; tauto)]; simp

theorem addRow_mem (k : Key) (r : Row) (gs : List Group) (hnd : (gs.map (·.key)).Nodup) (g : Group) (h : g ∈ addRow k r gs) :
    (g.key ≠ k ∧ g ∈ gs) ∨ (∃ g0 ∈ gs, g0.key = k ∧ g = { g0 with values := g0.values ++ [r.value] }) ∨
      (k ∉ gs.map (·.key) ∧ g = ⟨k, [r.value], r.threshold, r.mode⟩) := by
  induction gs with
  | nil =>
    right; right
    simp only [addRow, List.mem_singleton] at h
    exact ⟨by simp, h⟩
  | cons a gs ih =>
    unfold addRow at h
    rw [List.map_cons, List.nodup_cons] at hnd
    by_cases ha : a.key = k
    · rw [if_pos ha] at h
      rcases List.mem_cons.1 h with h | h
      · exact Or.inr (Or.inl ⟨a, by simp, ha, h⟩)
      · left
        refine ⟨?_, List.mem_cons_of_mem _ h⟩
        intro hk
        exact hnd.1 (List.mem_map.2 ⟨g, h, by rw [hk, ha]⟩)
    · rw [if_neg ha] at h
      rcases List.mem_cons.1 h with h | h
      · left; rw [h]; exact ⟨ha, by simp⟩
      · rcases ih hnd.2 h with ⟨h1, h2⟩ | ⟨g0, h1, h2, h3⟩ | ⟨h1, h2⟩
        · exact Or.inl ⟨h1, List.mem_cons_of_mem _ h2⟩
        · exact Or.inr (Or.inl ⟨g0, List.mem_cons_of_mem _ h1, h2, h3⟩)
        · refine Or.inr (Or.inr ⟨?_, h2⟩)
          rw [List.map_cons, List.mem_cons]
          rintro (h | h)
          · exact ha h.symm
          · exact h1 h

/-- The rows of a key. -/
def rowsOf (rows : List Row) (k : Key) : List Row := rows.filter fun r => r.key = some k

theorem groupRows_snoc (rows : List Row) (r : Row) :
    groupRows (rows ++ [r]) = match r.key with | some k => addRow k r (groupRows rows) | none => groupRows rows := by
  unfold groupRows
  rw [List.foldl_append]
  rfl

/-- What the groups of a table are. -/
theorem groupRows_spec (rows : List Row) :
    ((groupRows rows).map (·.key)).Nodup ∧
    (∀ k, k ∈ (groupRows rows).map (·.key) ↔ rowsOf rows k ≠ []) ∧
    (∀ g ∈ groupRows rows, g.values = (rowsOf rows g.key).map (·.value) ∧
      ∃ r, (rowsOf rows g.key).head? = some r ∧ g.threshold = r.threshold ∧ g.mode = r.mode) := by
  induction rows using List.reverseRecOn with
  | nil => refine ⟨List.nodup_nil, fun k => by simp [groupRows, rowsOf], fun g hg => absurd hg (by simp [groupRows])⟩
  | append_singleton rows r ih =>
    obtain ⟨h1, h2, h3⟩ := ih
    have snoc : ∀ k, rowsOf (rows ++ [r]) k = rowsOf rows k ++ (if r.key = some k then [r] else []) := by
      intro k
      unfold rowsOf
      rw [List.filter_append]
      congr 1
      by_cases h : r.key = some k <;> simp [h]
    rw [groupRows_snoc]
    cases hk : r.key with
    | none =>
      refine ⟨h1, ?_, ?_⟩
      · intro k; rw [h2, snoc, if_neg (by rw [hk]; simp), List.append_nil]
      · intro g hg; rw [snoc, if_neg (by rw [hk]; simp), List.append_nil]; exact h3 g hg
    | some k =>
      have e1 : rowsOf (rows ++ [r]) k = rowsOf rows k ++ [r] := by rw [snoc, if_pos hk]
      have e2 : ∀ k', k' ≠ k → rowsOf (rows ++ [r]) k' = rowsOf rows k' := by
        intro k' hne
        rw [snoc, if_neg (by rw [hk]; simp only [Option.some.injEq]; exact fun h => hne h.symm), List.append_nil]
      refine ⟨?_, ?_, ?_⟩
      · simp only
        rw [addRow_keys]
        split
        · exact h1
        · rename_i hm
          rw [List.nodup_append]
          refine ⟨h1, by simp, ?_⟩
          intro a ha b hb
          rw [List.mem_singleton] at hb
          rintro rfl
          exact hm (hb ▸ ha)
      · intro k'
        simp only
        rw [addRow_keys]
        by_cases hkk : k' = k
        · subst hkk
          rw [e1]
          refine ⟨fun _ => by simp, fun _ => ?_⟩
          split
          · assumption
          · simp
        · rw [e2 k' hkk, ← h2]
          split
          · rfl
          · rw [List.mem_append, List.mem_singleton]; tauto
      · intro g hg
        simp only at hg
        rcases addRow_mem k r _ h1 g hg with ⟨hne, hm⟩ | ⟨g0, hm, hk0, rfl⟩ | ⟨hm, rfl⟩
        · rw [e2 _ hne]; exact h3 g hm
        · obtain ⟨a1, r0, a2, a3, a4⟩ := h3 g0 hm
          simp only
          rw [hk0] at a1 a2 ⊢
          rw [e1, a1]
          refine ⟨by simp, r0, ?_, a3, a4⟩
          cases hl : rowsOf rows k with
          | nil => rw [hl] at a2; simp at a2
          | cons x xs => rw [hl] at a2; simpa using a2
        · have : rowsOf rows k = [] := by
            by_contra hc
            exact hm ((h2 k).2 hc)
          simp only
          rw [e1, this]
          exact ⟨by simp, r, by simp, rfl, rfl⟩

/-! ## Reading -/

/-- The calls of a run for a key. -/
def callsOf (k : Key) (r : Run) : List Call :=
  if r.backend = k.backend then r.calls.filter fun c => c.test = k.test ∧ c.var = k.var else []

theorem readProbes_rows (r : Run) (rows : List Row) (h : readProbes r = .ok rows) :
    rows = r.calls.map fun c => ⟨nameCell c.test, nameCell c.var, r.backend, c.value, c.threshold, c.mode⟩ := by
  obtain ⟨_, -, h⟩ := ok_bind_inv h
  obtain ⟨_, -, h⟩ := ok_bind_inv h
  exact (Outcome.ok.inj h).symm

theorem key_eq (c : Call) (b : List Char) (k : Key) (ht : k.test ∉ naValues) (hv : k.var ∉ naValues) :
    (⟨nameCell c.test, nameCell c.var, b, c.value, c.threshold, c.mode⟩ : Row).key = some k ↔
      b = k.backend ∧ c.test = k.test ∧ c.var = k.var := by
  unfold Row.key nameCell
  obtain ⟨kt, kv, kb⟩ := k
  by_cases h1 : c.test ∈ naValues
  · simp only [h1, if_true]
    constructor
    · intro h; exact absurd h (by simp)
    · rintro ⟨-, h, -⟩; exact absurd (h ▸ h1) ht
  · by_cases h2 : c.var ∈ naValues
    · simp only [h1, h2, if_true, if_false]
      constructor
      · intro h; exact absurd h (by simp)
      · rintro ⟨-, -, h⟩; exact absurd (h ▸ h2) hv
    · simp only [h1, h2, if_false, Option.some.injEq, Key.mk.injEq]
      tauto

theorem rowsOf_run (r : Run) (k : Key) (ht : k.test ∉ naValues) (hv : k.var ∉ naValues) :
    rowsOf (r.calls.map fun c => ⟨nameCell c.test, nameCell c.var, r.backend, c.value, c.threshold, c.mode⟩) k =
      (callsOf k r).map fun c => ⟨nameCell c.test, nameCell c.var, r.backend, c.value, c.threshold, c.mode⟩ := by
  unfold rowsOf callsOf
  rw [List.filter_map]
  split
  · rename_i hb
    congr 1
    apply List.filter_congr
    intro c _
    simp only [Function.comp]
    rw [decide_eq_decide, key_eq c r.backend k ht hv]
    tauto
  · rename_i hb
    have : (r.calls.filter ((fun r => decide (r.key = some k)) ∘ fun c =>
        (⟨nameCell c.test, nameCell c.var, r.backend, c.value, c.threshold, c.mode⟩ : Row))) = [] := by
      rw [List.filter_eq_nil_iff]
      intro c _
      simp only [Function.comp, decide_eq_true_eq]
      rw [key_eq c r.backend k ht hv]
      tauto
    rw [this]

theorem rowsOf_all (rs : List Run) : ∀ (rows : List Row), readAll rs = .ok rows → ∀ k : Key, k.test ∉ naValues → k.var ∉ naValues →
    (rowsOf rows k).map (fun r => (r.value, r.threshold, r.mode)) =
      (rs.flatMap (callsOf k)).map fun c => (c.value, c.threshold, c.mode) := by
  induction rs with
  | nil =>
    intro rows h k _ _
    have := Outcome.ok.inj h
    subst this
    rfl
  | cons r rs ih =>
    intro rows h k ht hv
    obtain ⟨a, ha, h⟩ := ok_bind_inv h
    obtain ⟨b, hb, h⟩ := ok_bind_inv h
    have := Outcome.ok.inj h
    subst this
    have e : rowsOf (a ++ b) k = rowsOf a k ++ rowsOf b k := by unfold rowsOf; rw [List.filter_append]
    rw [e, List.map_append, ih b hb k ht hv, List.flatMap_cons, List.map_append]
    congr 1
    rw [readProbes_rows r a ha, rowsOf_run r k ht hv, List.map_map]
    rfl

/-- **C70, groups.**  When all files are read, the groups have distinct keys, and for every key
whose names pandas does not take for missing values there is a group if and only if some run
with that backend recorded that probe; its values are all the values recorded, in the order of
the runs, and its target and mode are those of the first record. -/
theorem C70_groups (rs : List Run) (gs : List Group) (h : collect rs = .ok gs) :
    (gs.map (·.key)).Nodup ∧ ∀ k : Key, k.test ∉ naValues → k.var ∉ naValues →
      ((∃ g ∈ gs, g.key = k) ↔ ∃ r ∈ rs, r.backend = k.backend ∧ ∃ c ∈ r.calls, c.test = k.test ∧ c.var = k.var) ∧
      ∀ g ∈ gs, g.key = k →
        g.values = (rs.flatMap fun r => if r.backend = k.backend then
          r.calls.filter fun c => c.test = k.test ∧ c.var = k.var else []).map (·.value) ∧
        ((rs.flatMap fun r => if r.backend = k.backend then
          r.calls.filter fun c => c.test = k.test ∧ c.var = k.var else []).map fun c => (c.threshold, c.mode)).head? =
            some (g.threshold, g.mode) := by
  obtain ⟨rows, hr, h⟩ := ok_bind_inv h
  have := Outcome.ok.inj h
  subst this
  obtain ⟨h1, h2, h3⟩ := groupRows_spec rows
  refine ⟨h1, ?_⟩
  intro k ht hv
  have hall := rowsOf_all rs rows hr k ht hv
  have hval : (rowsOf rows k).map (·.value) = (rs.flatMap (callsOf k)).map (·.value) := by
    have := congrArg (List.map fun x : Bits × Bits × List Char => x.1) hall
    rw [List.map_map, List.map_map] at this
    exact this
  have hthr : (rowsOf rows k).map (fun r => (r.threshold, r.mode)) = (rs.flatMap (callsOf k)).map fun c => (c.threshold, c.mode) := by
    have := congrArg (List.map fun x : Bits × Bits × List Char => x.2) hall
    rw [List.map_map, List.map_map] at this
    exact this
  constructor
  · have e1 : (∃ g ∈ groupRows rows, g.key = k) ↔ k ∈ (groupRows rows).map (·.key) := by
      rw [List.mem_map]
    rw [e1, h2]
    have e2 : rowsOf rows k ≠ [] ↔ rs.flatMap (callsOf k) ≠ [] := by
      have := congrArg List.length hall
      rw [List.length_map, List.length_map] at this
      rw [← List.length_pos_iff, ← List.length_pos_iff, this]
    rw [e2]
    constructor
    · intro hne
      obtain ⟨c, hc⟩ := List.exists_mem_of_ne_nil _ hne
      obtain ⟨r, hr', hc⟩ := List.mem_flatMap.1 hc
      unfold callsOf at hc
      split at hc
      · rename_i hb
        rw [List.mem_filter] at hc
        exact ⟨r, hr', hb, c, hc.1, by simpa using hc.2⟩
      · simp at hc
    · rintro ⟨r, hr', hb, c, hc, hn⟩
      apply List.ne_nil_of_mem (a := c)
      refine List.mem_flatMap.2 ⟨r, hr', ?_⟩
      unfold callsOf
      rw [if_pos hb, List.mem_filter]
      exact ⟨hc, by simpa using hn⟩
  · intro g hg hgk
    obtain ⟨a1, r0, a2, a3, a4⟩ := h3 g hg
    rw [hgk] at a1 a2
    refine ⟨a1.trans hval, ?_⟩
    have : (rs.flatMap fun r => if r.backend = k.backend then
          r.calls.filter fun c => c.test = k.test ∧ c.var = k.var else []) = rs.flatMap (callsOf k) := rfl
    rw [this, ← hthr, List.head?_map, a2, a3, a4]
    rfl

/-- **C70, reading.**  The files are read when no value and no target is a NaN and each file that
has a row has a value and a target that are finite. -/
theorem C70_read_partial (rs : List Run)
    (h : ∀ r ∈ rs, (∀ c ∈ r.calls, ¬ c.value.isNaN b64 ∧ ¬ c.threshold.isNaN b64) ∧
      (r.calls ≠ [] → (∃ c ∈ r.calls, c.value.Fin b64) ∧ ∃ c ∈ r.calls, c.threshold.Fin b64)) :
    ∃ gs, collect rs = .ok gs := by
  have col : ∀ (xs : List Bits), (∀ x ∈ xs, ¬ x.isNaN b64) → (xs ≠ [] → ∃ x ∈ xs, x.Fin b64) → hexColumn xs = .ok xs := by
    intro xs h1 h2
    unfold hexColumn
    rw [if_neg, if_neg]
    · rintro ⟨x, hx, hn⟩; exact h1 x hx hn
    · rintro ⟨hne, hall⟩
      obtain ⟨x, hx, hf⟩ := h2 hne
      exact hf (hall x hx)
  have all : ∃ rows, readAll rs = .ok rows := by
    induction rs with
    | nil => exact ⟨[], rfl⟩
    | cons r rs ih =>
      obtain ⟨b, hb⟩ := ih fun r' hr' => h r' (List.mem_cons_of_mem _ hr')
      obtain ⟨h1, h2⟩ := h r List.mem_cons_self
      have e1 := col (r.calls.map (·.value))
        (by intro x hx; obtain ⟨c, hc, rfl⟩ := List.mem_map.1 hx; exact (h1 c hc).1)
        (by
          intro hne
          obtain ⟨c, hc, hf⟩ := (h2 (by simpa using hne)).1
          exact ⟨_, List.mem_map_of_mem hc, hf⟩)
      have e2 := col (r.calls.map (·.threshold))
        (by intro x hx; obtain ⟨c, hc, rfl⟩ := List.mem_map.1 hx; exact (h1 c hc).2)
        (by
          intro hne
          obtain ⟨c, hc, hf⟩ := (h2 (by simpa using hne)).2
          exact ⟨_, List.mem_map_of_mem hc, hf⟩)
      refine ⟨(r.calls.map fun c => ⟨nameCell c.test, nameCell c.var, r.backend, c.value, c.threshold, c.mode⟩) ++ b, ?_⟩
      unfold readAll readProbes
      rw [e1, e2, hb]
      rfl
  obtain ⟨rows, hr⟩ := all
  exact ⟨_, by unfold collect; rw [hr]; rfl⟩

/-- **C70, samples.**  When each run records a probe at most once, a group has one value for each run
with its backend that recorded the probe. -/
theorem C70_samples (rs : List Run) (gs : List Group) (h : collect rs = .ok gs)
    (hnd : ∀ r ∈ rs, (r.calls.map names).Nodup) (g : Group) (hg : g ∈ gs)
    (ht : g.key.test ∉ naValues) (hv : g.key.var ∉ naValues) :
    g.values.length = rs.countP fun r => r.backend = g.key.backend ∧ (g.key.test, g.key.var) ∈ r.calls.map names := by
  have hv := (((C70_groups rs gs h).2 g.key ht hv).2 g hg rfl).1
  rw [hv, List.length_map]
  clear hv h hg
  induction rs with
  | nil => rfl
  | cons r rs ih =>
    rw [List.flatMap_cons, List.length_append, ih fun r' hr' => hnd r' (List.mem_cons_of_mem _ hr'), List.countP_cons,
      Nat.add_comm]
    congr 1
    by_cases hb : r.backend = g.key.backend
    · rw [if_pos hb]
      have e : (r.calls.filter fun c => decide (c.test = g.key.test ∧ c.var = g.key.var)).length =
          (r.calls.map names).count (g.key.test, g.key.var) := by
        rw [List.count, List.countP_map, List.countP_eq_length_filter]
        congr 1
        apply List.filter_congr
        intro c _
        rw [Bool.eq_iff_iff]
        simp [names, Function.comp]
      rw [e]
      by_cases hm : (g.key.test, g.key.var) ∈ r.calls.map names
      · rw [List.count_eq_one_of_mem (hnd r List.mem_cons_self) hm]
        simp [hb, hm]
      · rw [List.count_eq_zero_of_not_mem hm]
        simp only [hm, and_false, decide_false, Bool.false_eq_true, if_false]
    · simp [hb]

/-! ## Checks -/

theorem fdiv_sign {x y : Bits} (hx : x.Fin b64) (hy : y.Fin b64) (h0 : ¬ y.isZero) :
    (fdiv b64 x y).sign = (x.sign != y.sign) := by
  have na : ¬ (x.isNaN b64 ∨ y.isNaN b64) := by
    rintro (h | h)
    · exact (fin_not hx).1 h
    · exact (fin_not hy).1 h
  unfold fdiv
  rw [if_neg na, if_neg (fin_not hx).2, if_neg (fin_not hy).2, if_neg h0]
  exact encodeQ_sign _ _ _ _

/-- **C70, checks.**  For a standard deviation that is finite and not negative, an average that
is finite and not zero and a finite target: an absolute check passes if and only if the standard deviation
is below the target; a relative check that passes has an exact quotient below the target, and it passes
when a finite number of the format lies between the exact quotient and the target.  Missing from the
full statement: an average that is zero (`C70_zero_wrong`), and a quotient that rounds to the target. -/
theorem C70_check_partial (mu sigma t : Bits) (hs : sigma.WF b64) (ht : t.WF b64)
    (fm : mu.Fin b64) (fs : sigma.Fin b64) (ft : t.Fin b64) (s0 : sigma.sign = false) (m0 : mu.val b64 ≠ 0) :
    (checkGroup "absolute".toList mu sigma t = true ↔ sigma.val b64 < |t.val b64|) ∧
    (checkGroup "relative".toList mu sigma t = true → sigma.val b64 / |mu.val b64| < |t.val b64|) ∧
    (∀ y : Bits, y.WF b64 → (fdiv b64 sigma mu).Fin b64 → sigma.val b64 / |mu.val b64| ≤ |y.val b64| →
      |y.val b64| < |t.val b64| → checkGroup "relative".toList mu sigma t = true) := by
  have z : ¬ mu.isZero := fun h => m0 ((isZero_val (F := b64) mu).1 h)
  have hd : (fdiv b64 sigma mu).WF b64 := fdiv_wf
  have rel : checkGroup "relative".toList mu sigma t = lt (fabs (fdiv b64 sigma mu)) (fabs t) := by
    unfold checkGroup
    rw [if_neg modes_ne, if_pos rfl]
  have quot : sigma.val b64 / |mu.val b64| = |sigma.val b64 / mu.val b64| := by
    rw [abs_div, abs_of_nonneg (val_nonneg s0)]
  refine ⟨?_, ?_, ?_⟩
  · unfold checkGroup
    rw [if_pos rfl, lt_fin hs s0 (fabs_wf ht) (fabs_fin.2 ft), fabs_val]
    exact ⟨fun h => h.2, fun h => ⟨fs, h⟩⟩
  · rw [rel, lt_fin (fabs_wf hd) rfl (fabs_wf ht) (fabs_fin.2 ft), fabs_val, fabs_val, fabs_fin, quot]
    rintro ⟨hf, h⟩
    by_contra hc
    have := (fdiv_mono b64 (by decide) sigma mu fs fm z (fin_lt hd hf) t ht).1 (not_lt.1 hc)
    exact absurd h (not_lt.2 this)
  · intro y hy hf h1 h2
    rw [rel, lt_fin (fabs_wf hd) rfl (fabs_wf ht) (fabs_fin.2 ft), fabs_val, fabs_val, fabs_fin]
    rw [quot] at h1
    exact ⟨hf, lt_of_le_of_lt ((fdiv_mono b64 (by decide) sigma mu fs fm z (fin_lt hd hf) y hy).2 h1) h2⟩

/-- Standard deviation 0.5, average 2, target 1: the hypotheses hold and the check passes. -/
example : checkGroup "relative".toList two half one = true ∧ half.WF b64 ∧ one.WF b64 ∧ two.Fin b64 ∧ half.Fin b64 ∧
    one.Fin b64 ∧ half.sign = false := by decide +kernel

/-- Six runs of two executables with two backends. -/
example : collect [⟨['a'], ['m'], [probeCheck ['t'] ['x'] one half, probe ['t'] ['y'] two]⟩,
      ⟨['a'], ['m'], [probeCheck ['t'] ['x'] two half]⟩, ⟨['b'], ['q'], [probeCheck ['t'] ['x'] half one]⟩] =
    .ok [⟨⟨['t'], ['x'], ['m']⟩, [one, two], half, "absolute".toList⟩,
      ⟨⟨['t'], ['y'], ['m']⟩, [two], zeroBits false, "none".toList⟩,
      ⟨⟨['t'], ['x'], ['q']⟩, [half], one, "absolute".toList⟩] := by
  decide +kernel

/-! ## Negations -/

/-- **C70, negation: a value that is not a number** in one run ends the whole test run. -/
theorem C70_nan_wrong (rs : List Run) (r : Run) (hr : r ∈ rs) (c : Call) (hc : c ∈ r.calls) (hn : c.value.isNaN b64) :
    collect rs = .exit := by
  have h1 : readProbes r = .exit := by
    have : hexColumn (r.calls.map (·.value)) = .exit := by
      unfold hexColumn
      split
      · rfl
      · rw [if_pos ⟨c.value, List.mem_map_of_mem hc, hn⟩]
    unfold readProbes
    rw [this]
    rfl
  have total : ∀ r, readProbes r = .exit ∨ ∃ a, readProbes r = .ok a := by
    intro r
    have col : ∀ xs, hexColumn xs = .exit ∨ ∃ a, hexColumn xs = .ok a := by
      intro xs
      unfold hexColumn
      split
      · exact Or.inl rfl
      · split
        · exact Or.inl rfl
        · exact Or.inr ⟨_, rfl⟩
    unfold readProbes
    rcases col (r.calls.map (·.value)) with h | ⟨a, h⟩ <;> rw [h]
    · exact Or.inl rfl
    · rcases col (r.calls.map (·.threshold)) with h | ⟨b, h⟩
      · left; simp only [Outcome.bind_ok]; rw [h]; rfl
      · right; simp only [Outcome.bind_ok]; rw [h]; exact ⟨_, rfl⟩
  have h2 : readAll rs = .exit := by
    induction rs with
    | nil => simp at hr
    | cons a rs ih =>
      unfold readAll
      rcases List.mem_cons.1 hr with rfl | hr
      · rw [h1]; rfl
      · rw [ih hr]
        rcases total a with h | ⟨x, h⟩ <;> rw [h] <;> rfl
  unfold collect
  rw [h2]
  rfl

/-- **C70, negation: infinite values only.**  A run all of whose values are infinite ends the
test run, whereas one with a finite value beside an infinite one does not. -/
theorem C70_inf_wrong : collect [⟨['a'], ['m'], [probe ['t'] ['x'] (infBits b64 false)]⟩] = .exit ∧
    ∃ gs, collect [⟨['a'], ['m'], [probe ['t'] ['x'] (infBits b64 false), probe ['t'] ['y'] one]⟩] = .ok gs :=
  ⟨by decide +kernel, [⟨⟨['t'], ['x'], ['m']⟩, [infBits b64 false], zeroBits false, "none".toList⟩,
    ⟨⟨['t'], ['y'], ['m']⟩, [one], zeroBits false, "none".toList⟩], by decide +kernel⟩

/-- **C70, negation: names.**  A probe whose test or variable has one of the names that pandas
takes for a missing value (`NA`, `null`, `None`, `nan`, ...) has no group: its values and
its check are lost without a message. -/
theorem C70_names_wrong (rs : List Run) (gs : List Group) (h : collect rs = .ok gs) (g : Group) (hg : g ∈ gs) :
    g.key.test ∉ naValues ∧ g.key.var ∉ naValues := by
  obtain ⟨rows, hr, h⟩ := ok_bind_inv h
  have := Outcome.ok.inj h
  subst this
  have hk := ((groupRows_spec rows).2.1 g.key).1 (List.mem_map_of_mem hg)
  obtain ⟨r, hr'⟩ := List.exists_mem_of_ne_nil _ hk
  unfold rowsOf at hr'
  rw [List.mem_filter] at hr'
  obtain ⟨hmem, hkey⟩ := hr'
  have good : ∀ (rs : List Run) (rows : List Row), readAll rs = .ok rows → ∀ r ∈ rows, ∀ k, r.key = some k →
      k.test ∉ naValues ∧ k.var ∉ naValues := by
    intro rs
    induction rs with
    | nil =>
      intro rows h r hr
      have := Outcome.ok.inj h
      subst this
      simp at hr
    | cons a rs ih =>
      intro rows h r hr k hk
      obtain ⟨x, hx, h⟩ := ok_bind_inv h
      obtain ⟨y, hy, h⟩ := ok_bind_inv h
      have := Outcome.ok.inj h
      subst this
      rcases List.mem_append.1 hr with hr | hr
      · rw [readProbes_rows a x hx] at hr
        obtain ⟨c, -, rfl⟩ := List.mem_map.1 hr
        unfold Row.key nameCell at hk
        by_cases h1 : c.test ∈ naValues
        · simp [h1] at hk
        · by_cases h2 : c.var ∈ naValues
          · simp [h1, h2] at hk
          · simp only [h1, h2, if_false, Option.some.injEq] at hk
            subst hk
            exact ⟨h1, h2⟩
      · exact ih y hy r hr k hk
  exact good rs rows hr r hmem g.key (by simpa using hkey)

/-- A probe named `NA` that is recorded by a run, beside a probe that is kept. -/
example : collect [⟨['a'], ['m'], [probeCheck ['t'] ['N', 'A'] one half, probe ['t'] ['y'] two]⟩] =
    .ok [⟨⟨['t'], ['y'], ['m']⟩, [two], zeroBits false, "none".toList⟩] := by
  decide +kernel

/-- **C70, negation: two executables** that record a probe of the same name with the same
backend share one group: the values 1, 1, 1 of one and 2, 2, 2 of the other are one sample, the
target of the second is ignored, and the group fails a check that each would pass, whatever the square
root as long as it is right on squares. -/
theorem C70_executables_wrong (sqrt : Bits → Bits) (hsq : sqrt ⟨false, 1021, 0⟩ = half) :
    ∃ rs : List Run, (∀ r ∈ rs, ∀ r' ∈ rs, r.executable = r'.executable → r.calls = r'.calls) ∧
      collect rs = .ok [⟨⟨['t'], ['x'], ['m']⟩, [one, one, one, two, two, two], half, "absolute".toList⟩] ∧
      variance ⟨false, 1025, 2 ^ 51⟩ [one, one, one, two, two, two] = ⟨false, 1021, 0⟩ ∧
      checkGroup "absolute".toList (average ⟨false, 1025, 2 ^ 51⟩ [one, one, one, two, two, two])
        (sqrt (variance ⟨false, 1025, 2 ^ 51⟩ [one, one, one, two, two, two])) half = false := by
  have hvar : variance ⟨false, 1025, 2 ^ 51⟩ [one, one, one, two, two, two] = ⟨false, 1021, 0⟩ := by decide +kernel
  refine ⟨[⟨['a'], ['m'], [probeCheck ['t'] ['x'] one half]⟩, ⟨['a'], ['m'], [probeCheck ['t'] ['x'] one half]⟩,
    ⟨['a'], ['m'], [probeCheck ['t'] ['x'] one half]⟩, ⟨['b'], ['m'], [probeCheck ['t'] ['x'] two one]⟩,
    ⟨['b'], ['m'], [probeCheck ['t'] ['x'] two one]⟩, ⟨['b'], ['m'], [probeCheck ['t'] ['x'] two one]⟩], ?_, by decide +kernel,
    hvar, ?_⟩
  · intro r hr r' hr' he
    simp only [List.mem_cons, List.not_mem_nil, or_false] at hr hr'
    rcases hr with rfl | rfl | rfl | rfl | rfl | rfl <;> rcases hr' with rfl | rfl | rfl | rfl | rfl | rfl <;>
      first | rfl | exact absurd he (by decide)
  · rw [hvar, hsq]; decide +kernel

/-- **C70, negation: an average that is zero.**  A relative check fails for every finite target when the
average is zero, even if the standard deviation is zero: a variable that is zero in every run. -/
theorem C70_zero_wrong (sigma t : Bits) (hs : sigma.Fin b64) (ht : t.WF b64) (ft : t.Fin b64) (s : Bool) :
    checkGroup "relative".toList (zeroBits s) sigma t = false := by
  have e : fdiv b64 sigma (zeroBits s) = nanBits b64 ∨ ∃ b, fdiv b64 sigma (zeroBits s) = infBits b64 b := by
    unfold fdiv
    rw [if_neg (by
        rintro (h | h)
        · exact (fin_not hs).1 h
        · exact (by decide : ¬ 0 = b64.expInf) h.1), if_neg (fin_not hs).2,
      if_neg (by intro h; exact (by decide : ¬ 0 = b64.expInf) h.1)]
    have z : (zeroBits s).isZero := ⟨rfl, rfl⟩
    rw [if_pos z]
    split
    · exact Or.inl rfl
    · exact Or.inr ⟨_, rfl⟩
  unfold checkGroup
  rw [if_neg modes_ne, if_pos rfl, Bool.eq_false_iff]
  intro h
  rcases e with e | ⟨b, e⟩
  · rw [e, lt_iff _ _ (by decide) (fabs_wf ht)] at h
    exact h.1 (by decide)
  · rw [e, lt_fin (fabs_wf (infBits_wf b)) rfl (fabs_wf ht) (fabs_fin.2 ft)] at h
    exact h.1 rfl

/-- **C70, negation: identical values.**  Three runs give the value 0.1: the average computed is
not 0.1 and the variance computed is `2^-112`, so that the standard deviation, `2^-56`, fails an absolute check
with the target `2^-57`. -/
theorem C70_identical_wrong (sqrt : Bits → Bits) (hsq : sqrt ⟨false, 911, 0⟩ = ⟨false, 967, 0⟩) :
    let x : Bits := ⟨false, 1019, 0x999999999999A⟩
    let three : Bits := ⟨false, 1024, 2 ^ 51⟩
    average three [x, x, x] ≠ x ∧ variance three [x, x, x] = ⟨false, 911, 0⟩ ∧
      checkGroup "absolute".toList (average three [x, x, x]) (sqrt (variance three [x, x, x])) ⟨false, 966, 0⟩ = false := by
  intro x three
  have hvar : variance three [x, x, x] = ⟨false, 911, 0⟩ := by decide +kernel
  refine ⟨by decide +kernel, hvar, ?_⟩
  rw [hvar, hsq]
  decide +kernel

end Verif.Ci
