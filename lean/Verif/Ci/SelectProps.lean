import Verif.Ci.NameProps
import Mathlib.Tactic.Tauto
import Mathlib.Data.List.Perm.Basic

/-!
# C73: the runs of a report; C74: the tables of checks; C75: the names of the repositories
-/

namespace Verif.Ci.Report
open Verif

/-! ## C73 -/

theorem ins_perm (r : Run) (l : List Run) : (sortRuns.ins r l).Perm (r :: l) := by
  induction l with
  | nil => exact List.Perm.refl _
  | cons s l ih =>
    unfold sortRuns.ins
    split_ifs
    · exact List.Perm.refl _
    · exact (List.Perm.cons s ih).trans (List.Perm.swap r s l)

theorem sortRuns_perm (l : List Run) : (sortRuns l).Perm l := by
  induction l with
  | nil => exact List.Perm.refl _
  | cons r l ih => exact (ins_perm r _).trans (List.Perm.cons r ih)

theorem ins_sorted (r : Run) (l : List Run) (h : l.Pairwise fun a b => a.timestamp ≤ b.timestamp) :
    (sortRuns.ins r l).Pairwise fun a b => a.timestamp ≤ b.timestamp := by
  induction l with
  | nil => simp [sortRuns.ins]
  | cons s l ih =>
    rw [List.pairwise_cons] at h
    unfold sortRuns.ins
    split_ifs with hr
    · rw [List.pairwise_cons, List.pairwise_cons]
      refine ⟨?_, h⟩
      intro a ha
      rcases List.mem_cons.1 ha with rfl | ha
      · exact hr
      · have := h.1 a ha; omega
    · rw [List.pairwise_cons]
      refine ⟨?_, ih h.2⟩
      intro a ha
      rcases List.mem_cons.1 ((ins_perm r l).mem_iff.1 ha) with rfl | ha
      · omega
      · exact h.1 a ha

theorem sortRuns_sorted (l : List Run) : (sortRuns l).Pairwise fun a b => a.timestamp ≤ b.timestamp := by
  induction l with
  | nil => simp [sortRuns]
  | cons r l ih => exact ins_sorted r _ ih

theorem sortRuns_strict {l : List Run} (h : (l.map Run.timestamp).Nodup) :
    (sortRuns l).Pairwise fun a b => a.timestamp < b.timestamp := by
  have hn : ((sortRuns l).map Run.timestamp).Nodup := ((sortRuns_perm l).map _).nodup_iff.2 h
  have hn := List.pairwise_map.1 hn
  exact ((sortRuns_sorted l).and hn).imp fun ⟨a, b⟩ => by omega

/-- With distinct timestamps, dropping the labels of the last rows drops the last rows. -/
theorem filter_gone {l : List Run} (h : l.Pairwise fun a b => a.timestamp < b.timestamp) (k : Nat) :
    (l.filter fun r => decide (r.timestamp ∉ (l.drop (l.length - k)).map Run.timestamp)) =
      l.take (l.length - k) := by
  generalize hj : l.length - k = j
  have hjl : j ≤ l.length := by omega
  clear hj
  conv_lhs => arg 2; rw [← List.take_append_drop j l]
  rw [List.filter_append]
  have h1 : (l.take j).filter (fun r => decide (r.timestamp ∉ (l.drop j).map Run.timestamp)) = l.take j := by
    rw [List.filter_eq_self]
    intro r hr
    rw [decide_eq_true_iff]
    intro hm
    obtain ⟨s, hs, e⟩ := List.mem_map.1 hm
    rw [← List.take_append_drop j l, List.pairwise_append] at h
    have := h.2.2 r hr s hs
    omega
  have h2 : (l.drop j).filter (fun r => decide (r.timestamp ∉ (l.drop j).map Run.timestamp)) = [] := by
    rw [List.filter_eq_nil_iff]
    intro r hr
    rw [decide_eq_true_iff]
    exact not_not.2 (List.mem_map_of_mem hr)
  rw [h1, h2, List.append_nil]

/-- What the code computes, for runs with distinct timestamps: the oldest runs, after the most
recent ones are set aside. -/
theorem selectRuns_eq {rs : List Run} (h : (rs.map Run.timestamp).Nodup) (mx ig : Nat) :
    selectRuns rs mx ig = match ((sortRuns rs).take (min mx (rs.length - ig))).getLast? with
      | none => .exit
      | some r => .ok ((sortRuns rs).take (min mx (rs.length - ig)), r.timestamp) := by
  have hl : (sortRuns rs).length = rs.length := (sortRuns_perm rs).length_eq
  unfold selectRuns
  dsimp only
  by_cases hz : ig = 0
  · subst hz
    rw [if_neg (by simp), hl, Nat.sub_zero]
    rcases ((sortRuns rs).take (min mx rs.length)).getLast? with _ | r <;> rfl
  · rw [if_pos hz, filter_gone (sortRuns_strict h), hl, List.length_take, hl,
      Nat.min_eq_left (Nat.sub_le _ _), List.take_take, Nat.min_assoc, Nat.min_self]
    rcases ((sortRuns rs).take (min mx (rs.length - ig))).getLast? with _ | r <;> rfl

theorem getLast?_take_some {l : List Run} {k : Nat} (hl : l ≠ []) (hk : 0 < k) :
    ∃ r, (l.take k).getLast? = some r := by
  have : l.take k ≠ [] := by
    rcases l with _ | ⟨a, l⟩
    · exact absurd rfl hl
    · obtain ⟨k, rfl⟩ : ∃ j, k = j + 1 := ⟨k - 1, by omega⟩
      simp
  exact ⟨_, List.getLast?_eq_some_getLast this⟩

/-- C73: when there are no more runs than the maximum and none is ignored, the report shows them
all, in the order of time.  Partial: with more runs the most recent ones are left out,
`C73_recent_wrong`. -/
theorem C73_all_partial (rs : List Run) (mx : Nat) (hd : (rs.map Run.timestamp).Nodup)
    (h0 : rs ≠ []) (hm : rs.length ≤ mx) :
    ∃ l t, selectRuns rs mx 0 = .ok (l, t) ∧ l.Perm rs ∧ (l.map Run.timestamp).Pairwise (· < ·) ∧
      readRuns rs t = rs := by
  have hl : (sortRuns rs).length = rs.length := (sortRuns_perm rs).length_eq
  have hs : sortRuns rs ≠ [] := by
    intro e; rw [e] at hl; exact h0 (List.length_eq_zero_iff.1 hl.symm)
  have e : (sortRuns rs).take (min mx (rs.length - 0)) = sortRuns rs := by
    rw [List.take_of_length_le]; omega
  rw [selectRuns_eq hd, e, List.getLast?_eq_some_getLast hs]
  refine ⟨_, _, rfl, sortRuns_perm rs, List.pairwise_map.2 (sortRuns_strict hd), ?_⟩
  unfold readRuns
  rw [List.filter_eq_self]
  intro r hr
  rw [decide_eq_true_iff]
  have hp := sortRuns_sorted rs
  rw [← List.dropLast_append_getLast hs, List.pairwise_append] at hp
  have hr := (sortRuns_perm rs).mem_iff.2 hr
  rw [← List.dropLast_append_getLast hs] at hr
  rcases List.mem_append.1 hr with hr | hr
  · exact hp.2.2 r hr _ (by simp)
  · simp at hr
    rw [← hr]

/-- C73: the runs shown are the ones whose data is read. -/
theorem C73_data (rs : List Run) (mx ig : Nat) (hd : (rs.map Run.timestamp).Nodup) (l : List Run) (t : Int)
    (h : selectRuns rs mx ig = .ok (l, t)) (r : Run) : r ∈ readRuns rs t ↔ r ∈ l := by
  rw [selectRuns_eq hd] at h
  generalize min mx (rs.length - ig) = k at h
  have hp := sortRuns_strict hd
  rw [← List.take_append_drop k (sortRuns rs), List.pairwise_append] at hp
  rcases hg : ((sortRuns rs).take k).getLast? with _ | s
  · rw [hg] at h; exact absurd h (by simp)
  rw [hg] at h
  injection h with h
  injection h with h1 h2
  subst h1 h2
  have hne : (sortRuns rs).take k ≠ [] := by intro e; rw [e] at hg; simp at hg
  have hlast : ((sortRuns rs).take k).getLast hne = s := by
    rw [List.getLast?_eq_some_getLast hne] at hg
    exact Option.some.inj hg
  have hsm : s ∈ (sortRuns rs).take k := hlast ▸ List.getLast_mem hne
  unfold readRuns
  rw [List.mem_filter, decide_eq_true_iff, ← (sortRuns_perm rs).mem_iff]
  constructor
  · rintro ⟨hm, hle⟩
    rw [← List.take_append_drop k (sortRuns rs)] at hm
    rcases List.mem_append.1 hm with hm | hm
    · exact hm
    · have := hp.2.2 s hsm r hm
      omega
  · intro hm
    refine ⟨List.mem_of_mem_take hm, ?_⟩
    have h1 := hp.1
    rw [← List.dropLast_append_getLast hne, hlast, List.pairwise_append] at h1
    rw [← List.dropLast_append_getLast hne, hlast] at hm
    rcases List.mem_append.1 hm with hm | hm
    · have := h1.2.2 r hm s (by simp); omega
    · simp at hm; rw [hm]

/-- C73: with more runs than the maximum the most recent run is not shown (the help of
`--max-files` says that the most recent ones are kept). -/
theorem C73_recent_wrong (rs : List Run) (mx : Nat) (hd : (rs.map Run.timestamp).Nodup)
    (hm : mx < rs.length) (l : List Run) (t : Int) (h : selectRuns rs mx 0 = .ok (l, t))
    (r : Run) (hl : ∀ s ∈ rs, s.timestamp ≤ r.timestamp) : r ∉ l ∧ r ∉ readRuns rs t := by
  have key : r ∉ l := by
    have hlen : (sortRuns rs).length = rs.length := (sortRuns_perm rs).length_eq
    rw [selectRuns_eq hd] at h
    rcases hg : ((sortRuns rs).take (min mx (rs.length - 0))).getLast? with _ | s
    · rw [hg] at h; exact absurd h (by simp)
    rw [hg] at h
    injection h with h
    injection h with h1 h2
    subst h1
    have hp := sortRuns_strict hd
    generalize hk : min mx (rs.length - 0) = k at *
    have hdrop : (sortRuns rs).drop k ≠ [] := by
      intro e
      have := congrArg List.length e
      rw [List.length_drop, hlen] at this
      simp at this
      omega
    obtain ⟨a, b, hab⟩ := List.exists_cons_of_ne_nil hdrop
    rw [← List.take_append_drop k (sortRuns rs), List.pairwise_append] at hp
    intro hmem
    have h1 := hp.2.2 r hmem a (by rw [hab]; simp)
    have h2 := hl a ((sortRuns_perm rs).mem_iff.1 (List.mem_of_mem_drop (hab ▸ List.mem_cons_self)))
    omega
  exact ⟨key, fun h' => key ((C73_data rs mx 0 hd l t h r).1 h')⟩

/-- C73: whatever the options, the oldest run is in the report: a range that begins later cannot be
selected (the help of `--ignore-recent` says that any range can). -/
theorem C73_range_wrong (rs : List Run) (mx ig : Nat) (hd : (rs.map Run.timestamp).Nodup) (l : List Run) (t : Int)
    (h : selectRuns rs mx ig = .ok (l, t)) (r : Run) (hr : r ∈ rs)
    (ho : ∀ s ∈ rs, r.timestamp ≤ s.timestamp) : r ∈ l := by
  rw [selectRuns_eq hd] at h
  generalize min mx (rs.length - ig) = k at h
  rcases hg : ((sortRuns rs).take k).getLast? with _ | s
  · rw [hg] at h; exact absurd h (by simp)
  rw [hg] at h
  injection h with h
  injection h with h1 h2
  subst h1
  have hp := sortRuns_strict hd
  have hm := (sortRuns_perm rs).mem_iff.2 hr
  rcases k with _ | k
  · simp at hg
  rcases hsort : sortRuns rs with _ | ⟨a, b⟩
  · rw [hsort] at hm; simp at hm
  rw [hsort] at hp hm
  rw [List.take_succ_cons]
  rcases List.mem_cons.1 hm with rfl | hm
  · simp
  · have h1 := (List.pairwise_cons.1 hp).1 r hm
    have h2 := ho a ((sortRuns_perm rs).mem_iff.1 (by rw [hsort]; simp))
    omega

/-- C73: ignoring all the runs stops the report. -/
theorem C73_none_wrong (rs : List Run) (mx ig : Nat) (hd : (rs.map Run.timestamp).Nodup) (h : rs.length ≤ ig) :
    selectRuns rs mx ig = .exit := by
  rw [selectRuns_eq hd, show min mx (rs.length - ig) = 0 by omega]
  rfl

/-- C73: as many runs as asked are shown, when there are enough left. -/
theorem C73_count (rs : List Run) (mx ig : Nat) (hd : (rs.map Run.timestamp).Nodup) (l : List Run) (t : Int)
    (h : selectRuns rs mx ig = .ok (l, t)) : l.length = min mx (rs.length - ig) := by
  have hlen : (sortRuns rs).length = rs.length := (sortRuns_perm rs).length_eq
  rw [selectRuns_eq hd] at h
  rcases hg : ((sortRuns rs).take (min mx (rs.length - ig))).getLast? with _ | s
  · rw [hg] at h; exact absurd h (by simp)
  rw [hg] at h
  injection h with h
  injection h with h1 h2
  subst h1
  rw [List.length_take, hlen]
  omega

example : selectRuns [{ timestamp := 30 }, { timestamp := 10 }, { timestamp := 20 }] 2 0 =
    .ok ([{ timestamp := 10 }, { timestamp := 20 }], 20) := by decide +kernel
example : selectRuns [{ timestamp := 30 }, { timestamp := 10 }, { timestamp := 20 }] 100 0 =
    .ok ([{ timestamp := 10 }, { timestamp := 20 }, { timestamp := 30 }], 30) := by decide +kernel
example : selectRuns [{ timestamp := 30 }, { timestamp := 10 }, { timestamp := 20 }] 100 2 =
    .ok ([{ timestamp := 10 }], 10) := by decide +kernel

/-! ## C74 -/

/-- The first table shows the run selected above it. -/
def Shows (s : Checks) : Prop :=
  ∃ t, s.runs.lookup s.nonDetValue = some t ∧ s.nonDet = rowsOf s.data t

theorem step_nonDet {s s' : Checks} {n : Str} (h : step s (.nonDet n) = .ok s') : s' = s ∨
    ∃ t, s.runs.lookup n = some t ∧
      s' = { s with nonDetValue := n, currentNonDet := some t, nonDet := rowsOf s.data t } := by
  have h : setNonDet s n = .ok s' := h
  unfold setNonDet at h
  by_cases hn : n = s.nonDetValue
  · rw [if_pos hn] at h
    exact .inl (Outcome.ok.inj h).symm
  · rw [if_neg hn] at h
    unfold updateNonDet at h
    dsimp only at h
    rcases hl : s.runs.lookup n with _ | t
    · rw [hl] at h; exact absurd h (by simp)
    · rw [hl] at h
      exact .inr ⟨t, rfl, (Outcome.ok.inj h).symm⟩

theorem step_det {s s' : Checks} {n : Str} (h : step s (.det n) = .ok s') : s' = s ∨
    ∃ t, s' = { s with detValue := n, currentDet := t, det := rowsOf s.detData s.currentRun } := by
  have h : setDet s n = .ok s' := h
  unfold setDet at h
  by_cases hn : n = s.detValue
  · rw [if_pos hn] at h
    exact .inl (Outcome.ok.inj h).symm
  · rw [if_neg hn] at h
    unfold updateDet at h
    dsimp only at h
    rcases hl : s.runs.lookup n with _ | t
    · rw [hl] at h; exact absurd h (by simp)
    · rw [hl] at h
      exact .inr ⟨t, (Outcome.ok.inj h).symm⟩

theorem step_shows {s s' : Checks} {e : Event} (hi : Shows s) (h : step s e = .ok s') :
    Shows s' ∧ s'.data = s.data := by
  cases e with
  | nonDet n =>
    rcases step_nonDet h with rfl | ⟨t, hl, rfl⟩
    · exact ⟨hi, rfl⟩
    · exact ⟨⟨t, hl, rfl⟩, rfl⟩
  | det n =>
    rcases step_det h with rfl | ⟨t, rfl⟩
    · exact ⟨hi, rfl⟩
    · exact ⟨hi, rfl⟩
  | goto n => exact absurd h (by simp [step])

theorem run_inv {P : Checks → Prop} (hstep : ∀ s e s', P s → step s e = .ok s' → P s') (es : List Event) :
    ∀ s, P s → P (run s es) := by
  induction es with
  | nil => intro s h; exact h
  | cons e es ih =>
    intro s h
    rw [run]
    rcases he : step s e with s' | _ | _
    · exact ih _ (hstep s e s' h he)
    · exact ih _ h
    · exact ih _ h

theorem init_spec {data detData : List Probe} {runs : List (Str × Int)} {s : Checks}
    (h : init data detData runs = .ok s) : ∃ n t, runs.getLast? = some (n, t) ∧ s.data = data ∧
      s.detData = detData ∧ s.runs = runs ∧ s.currentRun = t ∧ s.nonDetValue = n ∧
      s.nonDet = rowsOf data t ∧ s.det = rowsOf detData t := by
  unfold init at h
  rcases hg : runs.getLast? with _ | ⟨n, t⟩
  · rw [hg] at h; exact absurd h (by simp)
  · rw [hg] at h
    injection h with h
    subst h
    exact ⟨n, t, rfl, rfl, rfl, rfl, rfl, rfl, rfl, rfl⟩

theorem lookup_mem {runs : List (Str × Int)} (hn : (runs.map Prod.fst).Nodup) {n : Str} {t : Int}
    (h : (n, t) ∈ runs) : runs.lookup n = some t := by
  induction runs with
  | nil => simp at h
  | cons p rs ih =>
    obtain ⟨a, b⟩ := p
    rw [List.map_cons, List.nodup_cons] at hn
    rcases List.mem_cons.1 h with h | h'
    · cases h
      simp
    · have : n ≠ a := by
        rintro rfl
        exact hn.1 (List.mem_map.2 ⟨_, h', rfl⟩)
      simp only [List.lookup, beq_eq_false_iff_ne.2 this]
      exact ih hn.2 h'

/-- C74: after any events, the table of the non-deterministic backends shows the rows, with a
check, of the run whose name is selected.  Partial: the other table does not,
`C74_deterministic_wrong`. -/
theorem C74_shows_partial (data detData : List Probe) (runs : List (Str × Int)) (s : Checks)
    (hn : (runs.map Prod.fst).Nodup) (h : init data detData runs = .ok s) (es : List Event) :
    ∃ t, (run s es).runs.lookup (run s es).nonDetValue = some t ∧
      ∀ p, p ∈ (run s es).nonDet ↔ p ∈ data ∧ p.timestamp = t ∧ p.checked = true := by
  obtain ⟨n, t, hg, e1, e2, e3, e4, e5, e6, e7⟩ := init_spec h
  have h0 : Shows s := ⟨t, by
    rw [e3, e5]
    exact lookup_mem hn (List.mem_of_getLast? hg), by rw [e6, e1]⟩
  have hinv := run_inv (P := fun s => Shows s ∧ s.data = data)
    (fun s e s' hs he => ⟨(step_shows hs.1 he).1, (step_shows hs.1 he).2.trans hs.2⟩) es s ⟨h0, e1⟩
  obtain ⟨⟨t, h1, h2⟩, h3⟩ := hinv
  refine ⟨t, h1, ?_⟩
  intro p
  rw [h2, h3]
  unfold rowsOf
  rw [List.mem_filter, decide_eq_true_iff]

/-- C74: whatever run is selected, and however often, the table of the deterministic backends shows
the last run. -/
theorem C74_deterministic_wrong (data detData : List Probe) (runs : List (Str × Int)) (s : Checks)
    (h : init data detData runs = .ok s) (es : List Event) : (run s es).det = s.det := by
  obtain ⟨n, t, hg, e1, e2, e3, e4, e5, e6, e7⟩ := init_spec h
  have hinv := run_inv (P := fun s' => s'.det = s.det ∧ s'.detData = detData ∧ s'.currentRun = t)
    (fun s1 e s' hs he => by
      cases e with
      | nonDet n =>
        rcases step_nonDet he with rfl | ⟨t, hl, rfl⟩
        · exact hs
        · exact hs
      | det n =>
        rcases step_det he with rfl | ⟨t', rfl⟩
        · exact hs
        · refine ⟨?_, hs.2.1, hs.2.2⟩
          show rowsOf s1.detData s1.currentRun = s.det
          rw [hs.2.1, hs.2.2, e7]
      | goto n => exact absurd he (by simp [step])) es s ⟨rfl, e2, e4⟩
  exact hinv.1

/-- C74: a repository whose last run has the same name as the run selected (both "2 hours ago")
cannot be opened. -/
theorem C74_repository_wrong (s : Checks) (data detData : List Probe) (runs : List (Str × Int))
    (n : Str) (t : Int) (hl : runs.getLast? = some (n, t)) (h : n = s.nonDetValue ∨ n = s.detValue) :
    changeRepo s data detData runs = .exit := by
  unfold changeRepo
  rw [hl]
  dsimp only
  by_cases hn : n = s.nonDetValue
  · rw [if_pos hn]
  · rw [if_neg hn]
    have hd : n = s.detValue := by tauto
    unfold setNonDet
    rw [if_neg hn]
    unfold updateNonDet
    dsimp only
    rcases runs.lookup n with _ | t
    · rfl
    · show (if n = s.detValue then Outcome.exit else _) = _
      rw [if_pos hd]

/-- C74: a click on a run in a plot never selects it in the tables. -/
theorem C74_click_wrong (s : Checks) (n : Str) (es : List Event) : run s (.goto n :: es) = run s es := by
  rw [run]
  rfl

/-- Two runs, with one check each. -/
def twoRuns : List Probe :=
  [{ timestamp := 1, name := "a".toList, checked := true }, { timestamp := 2, name := "b".toList, checked := true },
   { timestamp := 2, name := "c".toList, checked := false }]

/-- Selecting the first of the two runs in both tables: one table shows it, the other shows the
second. -/
example : ∃ s, init twoRuns twoRuns [("r".toList, 1), ("s".toList, 2)] = .ok s ∧
    ((run s [.nonDet "r".toList, .det "r".toList]).nonDet.map Probe.name = ["a".toList]) ∧
    ((run s [.nonDet "r".toList, .det "r".toList]).det.map Probe.name = ["b".toList]) :=
  ⟨_, rfl, by decide +kernel, by decide +kernel⟩

/-! ## C75 -/

theorem mem_dedup {a : Str} {l : List Str} : a ∈ dedup l ↔ a ∈ l := by
  induction l with
  | nil => simp [dedup]
  | cons b l ih =>
    unfold dedup
    rw [List.mem_cons, List.mem_filter, ih, List.mem_cons, decide_eq_true_iff]
    by_cases h : a = b <;> simp [h]

theorem dedup_const {b : Str} {l : List Str} (hl : l ≠ []) (h : ∀ a ∈ l, a = b) : dedup l = [b] := by
  rcases l with _ | ⟨a, l⟩
  · exact absurd rfl hl
  · have ha := h a (by simp)
    subst ha
    unfold dedup
    congr 1
    rw [List.filter_eq_nil_iff]
    intro c hc
    rw [mem_dedup] at hc
    simp [h c (by simp [hc])]

theorem dedup_nodup (l : List Str) : (dedup l).Nodup := by
  induction l with
  | nil => simp [dedup]
  | cons a l ih =>
    unfold dedup
    rw [List.nodup_cons]
    exact ⟨by simp [List.mem_filter], ih.filter _⟩

theorem splitSlash_ne (s : Str) : splitSlash s ≠ [] := by
  cases s with
  | nil => simp [splitSlash]
  | cons d x =>
    unfold splitSlash
    split
    · simp
    · split_ifs <;> simp

theorem splitSlash_word {b : Str} (h : '/' ∉ b) : splitSlash b = [b] := by
  induction b with
  | nil => rfl
  | cons c b ih =>
    rw [splitSlash, ih (fun hm => h (by simp [hm]))]
    dsimp only
    rw [if_neg (by rintro rfl; simp at h)]

theorem splitSlash_cons_slash (b : Str) : splitSlash ('/' :: b) = [] :: splitSlash b := by
  rw [splitSlash]
  rcases h : splitSlash b with _ | ⟨w, ws⟩
  · exact absurd h (splitSlash_ne b)
  · rfl

theorem splitSlash_append (a b : Str) : splitSlash (a ++ '/' :: b) = splitSlash a ++ splitSlash b := by
  induction a with
  | nil => rw [List.nil_append, splitSlash_cons_slash]; rfl
  | cons c a ih =>
    rw [List.cons_append, splitSlash, ih, splitSlash]
    rcases h : splitSlash a with _ | ⟨w, ws⟩
    · exact absurd h (splitSlash_ne a)
    · rw [List.cons_append]
      dsimp only
      split_ifs <;> rfl

/-- `host/owner/repo` as a URL. -/
def urlOf (host owner repo : Str) : Str := host ++ '/' :: (owner ++ '/' :: repo)

theorem repoName_url {host owner repo branch : Str} (ho : '/' ∉ owner) (hr : '/' ∉ repo) :
    repoName (urlOf host owner repo) (some branch) =
      .ok (owner ++ "/".toList ++ repo ++ ":".toList ++ branch) := by
  unfold repoName urlOf
  rw [if_neg (by simp), splitSlash_append, splitSlash_append, splitSlash_word ho, splitSlash_word hr]
  simp

theorem dedup_map (f : Str → Str) (l : List Str) (hf : ∀ a ∈ l, ∀ b ∈ l, f a = f b → a = b) :
    dedup (l.map f) = (dedup l).map f := by
  induction l with
  | nil => rfl
  | cons a l ih =>
    rw [List.map_cons, dedup, dedup, List.map_cons, ih (fun x hx y hy => hf x (by simp [hx]) y (by simp [hy]))]
    congr 1
    rw [List.filter_map]
    congr 1
    apply List.filter_congr
    intro b hb
    rw [mem_dedup] at hb
    rw [Function.comp_apply, decide_eq_decide]
    constructor
    · rintro h rfl; exact h rfl
    · intro h e; exact h (hf b (by simp [hb]) a (by simp) e)

/-- The name that a repository should have. -/
def GoodName (url branch name : Str) : Prop :=
  (url = [] ∧ name = "None".toList) ∨
  ∃ host owner repo, '/' ∉ owner ∧ '/' ∉ repo ∧ url = urlOf host owner repo ∧
    name = owner ++ "/".toList ++ repo ++ ":".toList ++ branch

theorem repoNames_ok (f : Str → Str) : ∀ (us pre : List Str) (bs : List Str),
    bs = (pre ++ us).map f → us.Nodup →
    (∀ u ∈ us, u = [] ∨ ∃ host owner repo, '/' ∉ owner ∧ '/' ∉ repo ∧ u = urlOf host owner repo) →
    ∃ d, repoNames bs pre.length us = .ok d ∧ ∀ u ∈ us, ∃ n, d.lookup u = some n ∧ GoodName u (f u) n := by
  intro us
  induction us with
  | nil => intro pre bs _ _ _; exact ⟨[], rfl, by simp⟩
  | cons u us ih =>
    intro pre bs hb hn hu
    rw [List.nodup_cons] at hn
    obtain ⟨d, hd, hd'⟩ := ih (pre ++ [u]) bs (by simp [hb]) hn.2 (fun v hv => hu v (by simp [hv]))
    rw [List.length_append, List.length_singleton] at hd
    have hbr : bs[pre.length]? = some (f u) := by
      rw [hb, List.map_append, List.getElem?_append_right (by simp)]
      simp
    obtain ⟨n, h1, h2⟩ : ∃ n, repoName u (some (f u)) = .ok n ∧ GoodName u (f u) n := by
      rcases hu u (by simp) with rfl | ⟨host, owner, repo, ho, hr, rfl⟩
      · exact ⟨_, rfl, .inl ⟨rfl, rfl⟩⟩
      · exact ⟨_, repoName_url ho hr, .inr ⟨host, owner, repo, ho, hr, rfl, rfl⟩⟩
    refine ⟨(u, n) :: d, ?_, ?_⟩
    · rw [repoNames, hbr, h1]
      simp only [Outcome.bind_ok, hd, Outcome.pure_eq]
    · intro v hv
      rcases List.mem_cons.1 hv with rfl | hv'
      · exact ⟨n, by simp, h2⟩
      · have hne : v ≠ u := by rintro rfl; exact hn.1 hv'
        obtain ⟨m, e1, e2⟩ := hd' v hv'
        exact ⟨m, by simp only [List.lookup, beq_eq_false_iff_ne.2 hne, e1], e2⟩

/-- C75: when each repository is tested on one branch, and no two on branches of the same name,
every run has the name of its repository and of its branch.  Partial: otherwise a name is
missing or wrong, `C75_same_branch_wrong`, `C75_other_branch_wrong`,
`C75_two_branches_wrong`. -/
theorem C75_names_partial (rs : List Run) (f : Str → Str)
    (hf : ∀ r ∈ rs, r.branch = f r.url)
    (hinj : ∀ r ∈ rs, ∀ s ∈ rs, r.branch = s.branch → r.url = s.url)
    (hu : ∀ r ∈ rs, r.url = [] ∨
      ∃ host owner repo, '/' ∉ owner ∧ '/' ∉ repo ∧ r.url = urlOf host owner repo) :
    ∃ ns, runRepos rs = .ok ns ∧ ns.length = rs.length ∧
      ∀ (i : Nat) (r : Run) (n : Str), rs[i]? = some r → ns[i]? = some n → GoodName r.url r.branch n := by
  have hb : dedup (rs.map Run.branch) = (dedup (rs.map Run.url)).map f := by
    rw [← dedup_map]
    · congr 1
      rw [List.map_map]
      exact List.map_congr_left hf
    · intro a ha b hb e
      obtain ⟨r, hr, rfl⟩ := List.mem_map.1 ha
      obtain ⟨s, hs, rfl⟩ := List.mem_map.1 hb
      exact hinj r hr s hs (by rw [hf r hr, hf s hs, e])
  obtain ⟨d, hd, hd'⟩ := repoNames_ok f (dedup (rs.map Run.url)) [] (dedup (rs.map Run.branch)) (by simpa using hb)
    (dedup_nodup _) (by
      intro u hm
      rw [mem_dedup] at hm
      obtain ⟨r, hr, rfl⟩ := List.mem_map.1 hm
      exact hu r hr)
  rw [List.length_nil] at hd
  refine ⟨rs.map fun r => (d.lookup r.url).getD [], ?_, by simp, ?_⟩
  · unfold runRepos
    simp only [hd, Outcome.bind_ok, Outcome.pure_eq]
  · intro i r n hr hn
    rw [List.getElem?_map, hr, Option.map_some, Option.some.injEq] at hn
    have hm := List.mem_of_getElem? hr
    obtain ⟨m, e1, e2⟩ := hd' r.url (mem_dedup.2 (List.mem_map_of_mem hm))
    rw [e1, Option.getD_some] at hn
    rw [← hn, hf r hm]
    exact e2

/-- C75: two repositories tested on branches with the same name, as `master`: no report. -/
theorem C75_same_branch_wrong (rs : List Run) (b : Str) (hb : ∀ r ∈ rs, r.branch = b)
    (r s : Run) (hr : r ∈ rs) (hs : s ∈ rs) (hrs : r.url ≠ s.url) (hne : ∀ r ∈ rs, r.url ≠ []) :
    runRepos rs = .exit := by
  have hd : dedup (rs.map Run.branch) = [b] := dedup_const (by
    intro e; rw [List.map_eq_nil_iff] at e; rw [e] at hr; simp at hr) (by
      intro a ha
      obtain ⟨q, hq, rfl⟩ := List.mem_map.1 ha
      exact hb q hq)
  have hmr : r.url ∈ dedup (rs.map Run.url) := mem_dedup.2 (List.mem_map_of_mem hr)
  have hms : s.url ∈ dedup (rs.map Run.url) := mem_dedup.2 (List.mem_map_of_mem hs)
  have hall : ∀ u ∈ dedup (rs.map Run.url), u ≠ [] := by
    intro u hm
    obtain ⟨q, hq, rfl⟩ := List.mem_map.1 (mem_dedup.1 hm)
    exact hne q hq
  unfold runRepos
  rw [hd]
  rcases hu : dedup (rs.map Run.url) with _ | ⟨u, _ | ⟨v, us⟩⟩
  · rw [hu] at hmr; simp at hmr
  · rw [hu] at hmr hms
    simp at hmr hms
    exact absurd (hmr.trans hms.symm) hrs
  · have hv : v ≠ [] := hall v (by rw [hu]; simp)
    have h2 : repoNames [b] (0 + 1) (v :: us) = .exit := by
      rw [repoNames]
      have : repoName v ([b] : List Str)[0 + 1]? = .exit := by
        unfold repoName
        rw [if_neg hv]
        rcases (splitSlash v).reverse with _ | ⟨x, _ | ⟨y, z⟩⟩ <;> rfl
      rw [this]
      rfl
    rw [repoNames]
    rcases hx : repoName u ([b] : List Str)[0]? with n | _ | _
    · simp only [Outcome.bind_ok, h2, Outcome.bind_exit]
    · rfl
    · exfalso
      unfold repoName at hx
      split_ifs at hx
      rcases hsp : (splitSlash u).reverse with _ | ⟨x, _ | ⟨y, z⟩⟩ <;> rw [hsp] at hx <;> exact absurd hx (by simp)

/-- C75: a repository tested on the branches `main` and `dev`, and then another one on `main`: the
runs of the second are shown as runs of its branch `dev`. -/
theorem C75_other_branch_wrong :
    runRepos [{ timestamp := 1, url := "h/o/a".toList, branch := "main".toList },
      { timestamp := 2, url := "h/o/a".toList, branch := "dev".toList },
      { timestamp := 3, url := "h/o/b".toList, branch := "main".toList }] =
    .ok ["o/a:main".toList, "o/a:main".toList, "o/b:dev".toList] := by decide +kernel

/-- C75: two branches of one repository: all the runs have the name of the first branch. -/
theorem C75_two_branches_wrong (u b c : Str) (t t' : Int) (n n' : Str)
    (h : runRepos [{ timestamp := t, url := u, branch := b }, { timestamp := t', url := u, branch := c }] =
      .ok [n, n']) : n = n' := by
  unfold runRepos at h
  rcases hx : repoNames (dedup (List.map Run.branch [{ timestamp := t, url := u, branch := b },
    { timestamp := t', url := u, branch := c }])) 0 (dedup (List.map Run.url
      [{ timestamp := t, url := u, branch := b }, { timestamp := t', url := u, branch := c }])) with d | _ | _
  · rw [hx] at h
    simp only [Outcome.bind_ok, Outcome.pure_eq] at h
    injection h with h
    simp at h
    rw [← h.1, ← h.2]
  · rw [hx] at h; exact absurd h (by simp)
  · rw [hx] at h; exact absurd h (by simp)

-- Two repositories on two branches, and a run outside any repository.
example : runRepos [{ timestamp := 1, url := "https://h/o/a".toList, branch := "main".toList },
      { timestamp := 2 }, { timestamp := 3, url := "https://h/o/b".toList, branch := "dev".toList }] =
    .ok ["o/a:main".toList, "None".toList, "o/b:dev".toList] := by decide +kernel

end Verif.Ci.Report
