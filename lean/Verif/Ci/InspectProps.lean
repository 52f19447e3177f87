import Verif.Ci.Inspect
import Verif.Ci.StatsProps
import Verif.Ci.ViewProps

/-!
# C107: the view of the report that inspects one run
-/

namespace Verif.Ci.Inspect
open Verif Verif.Ci.Report

/-- The rows of a group: of the run, with the value of the filter, with the key of the group. -/
def rowsOf (data : List Row) (run : Int) (f : Factor) (value : Str) (g : Factor) (k : Str) : List Row :=
  data.filter fun r => decide (r.timestamp = run ∧ f.of r = value ∧ g.of r = k)

/-- What the plots say of a group: the number of its rows, the average of all the samples of its rows, and the distribution of
`sigma` among the rows. -/
structure Describes (k : Str) (rows : List Row) (b : Group) : Prop where
  name : b.x = shorten k
  count : b.nsamples = rows.length
  mu : ∀ samples : Row → List ℚ,
    (∀ r ∈ rows, samples r ≠ [] ∧ r.mu = mean (samples r) ∧ r.nsamples = (samples r).length) → b.mu = mean (rows.flatMap samples)
  extremes : (∃ r ∈ rows, r.sigma = b.min) ∧ (∃ r ∈ rows, r.sigma = b.max) ∧ ∀ r ∈ rows, b.min ≤ r.sigma ∧ r.sigma ≤ b.max
  order : b.min ≤ b.quantile25 ∧ b.quantile25 ≤ b.quantile50 ∧ b.quantile50 ≤ b.quantile75 ∧ b.quantile75 ≤ b.max ∧
    b.min ≤ b.average ∧ b.average ≤ b.max
  quartiles : b.quantile25 = Stats.quantile (1 / 4) (rows.map Row.sigma) ∧ b.quantile50 = Stats.quantile (1 / 2) (rows.map Row.sigma) ∧
    b.quantile75 = Stats.quantile (3 / 4) (rows.map Row.sigma) ∧ b.average = mean (rows.map Row.sigma)

/-- The plots have one group for each value of factor `g` among the rows of the run with the value of the filter. -/
def Shows (s : View) (f g : Factor) : Prop :=
  ∃ keys : List Str, keys.Nodup ∧ (∀ k, k ∈ keys ↔ ∃ r ∈ s.data, r.timestamp = s.run ∧ f.of r = s.value ∧ g.of r = k) ∧
    List.Forall₂ (fun k b => Describes k (rowsOf s.data s.run f s.value g k) b) keys s.plot

/-- The run is the one named, the two factors are different, the value is one of the run, the list offers the values of the run, and the
plots show them. -/
structure Sound (s : View) : Prop where
  run : s.runs.lookup s.runName = some s.run
  rows : s.runData = s.data.filter fun r => decide (r.timestamp = s.run)
  labels : s.labels = factors.eraseIdx s.groupBy
  plots : ∃ f g, s.labels[s.filterBy]? = some f ∧ factors[s.groupBy]? = some g ∧ f ≠ g ∧
    (∃ r ∈ s.data, r.timestamp = s.run ∧ f.of r = s.value) ∧
    (∀ v, v ∈ s.options ↔ ∃ r ∈ s.data, r.timestamp = s.run ∧ f.of r = v) ∧ Shows s f g

/-- No row is without samples. -/
def Counted (d : List Row) : Prop := ∀ r ∈ d, 0 < r.nsamples

instance (d : List Row) : Decidable (Counted d) := by unfold Counted; infer_instance

/-! ## One group -/

theorem sum_weights (rows : List Row) (h : ∀ r ∈ rows, 0 < r.nsamples) (hn : rows ≠ []) :
    0 < (rows.map fun r => (r.nsamples : ℚ)).sum := by
  induction rows with
  | nil => exact absurd rfl hn
  | cons r rows ih =>
    rw [List.map_cons, List.sum_cons]
    have h1 : (0 : ℚ) < r.nsamples := by exact_mod_cast h r List.mem_cons_self
    by_cases he : rows = []
    · subst he; simpa using h1
    · have := ih (fun q hq => h q (List.mem_cons_of_mem _ hq)) he
      linarith

/-- The average of the averages of the rows, weighted by their numbers of samples, is the average of all the samples. -/
theorem pooled (rows : List Row) (samples : Row → List ℚ)
    (h : ∀ r ∈ rows, samples r ≠ [] ∧ r.mu = mean (samples r) ∧ r.nsamples = (samples r).length) :
    (rows.map fun r => r.mu * (r.nsamples : ℚ)).sum / (rows.map fun r => (r.nsamples : ℚ)).sum = mean (rows.flatMap samples) := by
  have h1 : (rows.map fun r => r.mu * (r.nsamples : ℚ)).sum = (rows.flatMap samples).sum := by
    induction rows with
    | nil => rfl
    | cons r rows ih =>
      obtain ⟨hn, hm, hc⟩ := h r List.mem_cons_self
      rw [List.map_cons, List.sum_cons, ih fun q hq => h q (List.mem_cons_of_mem _ hq), List.flatMap_cons, List.sum_append, hm, hc]
      congr 1
      unfold mean
      have : ((samples r).length : ℚ) ≠ 0 := by
        have := List.length_pos_of_ne_nil hn
        exact_mod_cast this.ne'
      field_simp
  have h2 : (rows.map fun r => (r.nsamples : ℚ)).sum = ((rows.flatMap samples).length : ℚ) := by
    clear h1
    induction rows with
    | nil => simp
    | cons r rows ih =>
      rw [List.map_cons, List.sum_cons, ih fun q hq => h q (List.mem_cons_of_mem _ hq), List.flatMap_cons, List.length_append,
        (h r List.mem_cons_self).2.2]
      push_cast
      rfl
  rw [h1, h2]
  rfl

theorem group_ok (k : Str) (rows : List Row) (hn : rows ≠ []) (h : Counted rows) : ∃ b, group k rows = .ok b ∧ Describes k rows b := by
  have hw := (sum_weights rows h hn).ne'
  have ha : average rows = .ok ((rows.map fun r => r.mu * (r.nsamples : ℚ)).sum / (rows.map fun r => (r.nsamples : ℚ)).sum) := by
    unfold average
    simp only []
    rw [if_neg hw]
  have hx : rows.map Row.sigma ≠ [] := by simpa using hn
  obtain ⟨⟨h1, h2, h3⟩, h4⟩ := Stats.order (rows.map Row.sigma) hx
  unfold group
  rw [ha]
  refine ⟨_, rfl, rfl, rfl, ?_, ⟨?_, ?_, ?_⟩, h4, rfl, rfl, rfl, rfl⟩
  · intro samples hs
    exact pooled rows samples hs
  · obtain ⟨r, hr, e⟩ := List.mem_map.1 h1; exact ⟨r, hr, e⟩
  · obtain ⟨r, hr, e⟩ := List.mem_map.1 h2; exact ⟨r, hr, e⟩
  · intro r hr; exact h3 _ (List.mem_map_of_mem hr)

theorem groupAll_ok (g : Factor) (rows : List Row) (h : Counted rows) (ks : List Str) (hk : ∀ k ∈ ks, ∃ r ∈ rows, g.of r = k) :
    ∃ gs, groupAll g rows ks = .ok gs ∧ List.Forall₂ (fun k b => Describes k (rows.filter fun r => decide (g.of r = k)) b) ks gs := by
  induction ks with
  | nil => exact ⟨[], rfl, .nil⟩
  | cons k ks ih =>
    obtain ⟨gs, e, hgs⟩ := ih fun q hq => hk q (List.mem_cons_of_mem _ hq)
    obtain ⟨r, hr, hrk⟩ := hk k List.mem_cons_self
    obtain ⟨b, eb, hb⟩ := group_ok k (rows.filter fun r => decide (g.of r = k))
      (List.ne_nil_of_mem (List.mem_filter.2 ⟨hr, by simpa using hrk⟩)) (fun q hq => h q (List.mem_filter.1 hq).1)
    refine ⟨b :: gs, ?_, .cons hb hgs⟩
    simp only [groupAll, eb, Outcome.bind_ok, e]
    rfl

theorem dedup_nodup (l : List Str) : (dedup l).Nodup := by
  induction l with
  | nil => exact List.nodup_nil
  | cons a l ih => exact List.nodup_cons.2 ⟨by simp, ih.filter _⟩

/-! ## The plots -/

/-- The parts of a view that an update of the plots needs. -/
structure Ready (s : View) (f g : Factor) : Prop where
  rows : s.runData = s.data.filter fun r => decide (r.timestamp = s.run)
  filterBy : s.labels[s.filterBy]? = some f
  groupBy : factors[s.groupBy]? = some g
  counted : Counted s.data

theorem updatePlots_ok (s : View) (f g : Factor) (h : Ready s f g) (hv : ∃ r ∈ s.data, r.timestamp = s.run ∧ f.of r = s.value) :
    ∃ p, updatePlots s = .ok { s with plot := p } ∧ Shows { s with plot := p } f g := by
  obtain ⟨r, hr, h1, h2⟩ := hv
  have hin : r ∈ s.runData := by rw [h.rows]; exact List.mem_filter.2 ⟨hr, by simpa using h1⟩
  have hin2 : r ∈ s.runData.filter fun r => decide (f.of r = s.value) := List.mem_filter.2 ⟨hin, by simpa using h2⟩
  have hmem : ∀ q, q ∈ (s.runData.filter fun r => decide (f.of r = s.value)) ↔ q ∈ s.data ∧ q.timestamp = s.run ∧ f.of q = s.value := by
    intro q
    rw [h.rows, List.mem_filter, List.mem_filter, decide_eq_true_eq, decide_eq_true_eq, and_assoc]
  have hfil : ∀ k, ((s.runData.filter fun r => decide (f.of r = s.value)).filter fun r => decide (g.of r = k)) =
      rowsOf s.data s.run f s.value g k := by
    intro k
    rw [h.rows, List.filter_filter, List.filter_filter]
    unfold rowsOf
    congr 1
    funext q
    by_cases a : q.timestamp = s.run <;> by_cases b : f.of q = s.value <;> by_cases c : g.of q = k <;> simp [a, b, c]
  have hcnt : Counted (s.runData.filter fun r => decide (f.of r = s.value)) := fun q hq => h.counted q ((hmem q).1 hq).1
  obtain ⟨gs, e, hgs⟩ := groupAll_ok g (s.runData.filter fun r => decide (f.of r = s.value)) hcnt
    (dedup ((s.runData.filter fun r => decide (f.of r = s.value)).map g.of)) (by
      intro k hk
      rw [Views.mem_dedup] at hk
      obtain ⟨q, hq, rfl⟩ := List.mem_map.1 hk
      exact ⟨q, hq, rfl⟩)
  refine ⟨gs, ?_, dedup ((s.runData.filter fun r => decide (f.of r = s.value)).map g.of), dedup_nodup _, ?_, ?_⟩
  · unfold updatePlots
    simp only [nth, h.groupBy, h.filterBy, Outcome.bind_ok]
    rw [if_neg (List.ne_nil_of_mem hin), if_neg (List.ne_nil_of_mem hin2), e]
    rfl
  · intro k
    rw [Views.mem_dedup]
    constructor
    · intro hk
      obtain ⟨q, hq, rfl⟩ := List.mem_map.1 hk
      obtain ⟨a, b, c⟩ := (hmem q).1 hq
      exact ⟨q, a, b, c, rfl⟩
    · rintro ⟨q, a, b, c, rfl⟩
      exact List.mem_map_of_mem ((hmem q).2 ⟨a, b, c⟩)
  · simp only [hfil] at hgs
    exact hgs

theorem factor_ne (i j : Nat) (f g : Factor) (hf : (factors.eraseIdx i)[j]? = some f) (hg : factors[i]? = some g) : f ≠ g := by
  match i, hg with
  | 0, hg =>
    match j, hf with
    | 0, hf => simp [factors] at hf hg; subst hf hg; decide
    | 1, hf => simp [factors] at hf hg; subst hf hg; decide
    | j + 2, hf => simp [factors] at hf
  | 1, hg =>
    match j, hf with
    | 0, hf => simp [factors] at hf hg; subst hf hg; decide
    | 1, hf => simp [factors] at hf hg; subst hf hg; decide
    | j + 2, hf => simp [factors, List.eraseIdx] at hf
  | 2, hg =>
    match j, hf with
    | 0, hf => simp [factors] at hf hg; subst hf hg; decide
    | 1, hf => simp [factors] at hf hg; subst hf hg; decide
    | j + 2, hf => simp [factors, List.eraseIdx] at hf
  | i + 3, hg => simp [factors] at hg

/-- The end of the callbacks leads to a sound view, if the run has a row. -/
theorem refresh_sound (s : View) (f g : Factor) (h : Ready s f g) (hl : s.labels = factors.eraseIdx s.groupBy)
    (hr : s.runs.lookup s.runName = some s.run) (hrow : ∃ r ∈ s.data, r.timestamp = s.run) :
    ∃ s', refresh s = .ok s' ∧ Sound s' ∧ s'.data = s.data ∧ s'.runs = s.runs ∧ s'.run = s.run := by
  obtain ⟨r, hrd, hrt⟩ := hrow
  have hopt : ∀ v, v ∈ dedup (s.runData.map f.of) ↔ ∃ r ∈ s.data, r.timestamp = s.run ∧ f.of r = v := by
    intro v
    rw [Views.mem_dedup, h.rows]
    simp [and_assoc]
  have hne : f ≠ g := factor_ne s.groupBy s.filterBy f g (by rw [← hl]; exact h.filterBy) h.groupBy
  have hin : f.of r ∈ dedup (s.runData.map f.of) := (hopt _).2 ⟨r, hrd, hrt, rfl⟩
  unfold refresh
  simp only [nth, h.filterBy, Outcome.bind_ok]
  by_cases hv : s.value ∈ dedup (s.runData.map f.of)
  · rw [if_neg (not_not.2 hv)]
    obtain ⟨p, e, hs⟩ := updatePlots_ok { s with options := dedup (s.runData.map f.of) } f g ⟨h.rows, h.filterBy, h.groupBy, h.counted⟩
      ((hopt _).1 hv)
    exact ⟨_, e, ⟨hr, h.rows, hl, f, g, h.filterBy, h.groupBy, hne, (hopt _).1 hv, hopt, hs⟩, rfl, rfl, rfl⟩
  · rw [if_pos hv]
    generalize ho : dedup (s.runData.map f.of) = os at *
    cases os with
    | nil => simp at hin
    | cons v os =>
      simp only []
      have hvne : v ≠ s.value := fun hh => hv (hh ▸ List.mem_cons_self)
      unfold setValue
      simp only []
      rw [if_neg hvne]
      obtain ⟨p, e, hs⟩ := updatePlots_ok { s with options := v :: os, value := v } f g ⟨h.rows, h.filterBy, h.groupBy, h.counted⟩
        ((hopt v).1 List.mem_cons_self)
      exact ⟨_, e, ⟨hr, h.rows, hl, f, g, h.filterBy, h.groupBy, hne, (hopt v).1 List.mem_cons_self, hopt, hs⟩, rfl, rfl, rfl⟩

/-- What a visitor is offered; runs without a row in this table are left out, see `C107_run_wrong`. -/
def Offered (s : View) : Ev → Prop
  | .run n => ∃ t, s.runs.lookup n = some t ∧ ∃ r ∈ s.data, r.timestamp = t
  | .groupBy i => i < 3
  | .filterBy i => i < 2
  | .filter v => v ∈ s.options
  | .repo _ _ => False

theorem nth_lt (i j : Nat) (hi : i < 3) (hj : j < 2) : ∃ f g, (factors.eraseIdx i)[j]? = some f ∧ factors[i]? = some g := by
  have h1 : i < factors.length := hi
  have h2 : j < (factors.eraseIdx i).length := by
    rw [List.length_eraseIdx, if_pos h1]; exact hj
  exact ⟨_, _, List.getElem?_eq_getElem h2, List.getElem?_eq_getElem h1⟩

theorem sound_lt {s : View} (h : Sound s) : s.groupBy < 3 ∧ s.filterBy < 2 := by
  obtain ⟨f, g, hf, hg, _⟩ := h.plots
  have h1 : s.groupBy < 3 := (List.getElem?_eq_some_iff.1 hg).1
  refine ⟨h1, ?_⟩
  have h2 := (List.getElem?_eq_some_iff.1 hf).1
  rw [h.labels, List.length_eraseIdx, if_pos (show s.groupBy < factors.length from h1)] at h2
  exact h2

/-- **C107** In a sound view nothing that a visitor is offered raises, and the view stays sound. -/
theorem C107_step_partial (s : View) (e : Ev) (h : Sound s) (hc : Counted s.data) (ho : Offered s e) :
    ∃ s', step s e = .ok s' ∧ Sound s' ∧ s'.data = s.data ∧ s'.runs = s.runs := by
  obtain ⟨hg3, hf2⟩ := sound_lt h
  obtain ⟨f, g, hf, hg, hne, hv, hopt, hs⟩ := h.plots
  have hrow : ∃ r ∈ s.data, r.timestamp = s.run := by obtain ⟨r, hr, h1, _⟩ := hv; exact ⟨r, hr, h1⟩
  cases e with
  | run n =>
    obtain ⟨t, ht, hrow'⟩ := ho
    show ∃ s', setRun s n = .ok s' ∧ _
    unfold setRun
    by_cases he : n = s.runName
    · rw [if_pos he]; exact ⟨s, rfl, h, rfl, rfl⟩
    · rw [if_neg he]
      simp only [ht]
      obtain ⟨s', e', h', hd, hr, _⟩ := refresh_sound { s with
          runName := n, run := t, runData := s.data.filter fun r => decide (r.timestamp = t) } f g ⟨rfl, hf, hg, hc⟩ h.labels ht hrow'
      exact ⟨s', e', h', hd, hr⟩
  | groupBy i =>
    show ∃ s', setGroupBy s i = .ok s' ∧ _
    unfold setGroupBy
    by_cases he : i = s.groupBy
    · rw [if_pos he]; exact ⟨s, rfl, h, rfl, rfl⟩
    · rw [if_neg he]
      obtain ⟨f', g', hf', hg'⟩ := nth_lt i s.filterBy ho hf2
      obtain ⟨s', e', h', hd, hr, _⟩ := refresh_sound { s with groupBy := i, labels := factors.eraseIdx i } f' g' ⟨h.rows, hf', hg', hc⟩ rfl h.run hrow
      exact ⟨s', e', h', hd, hr⟩
  | filterBy i =>
    show ∃ s', setFilterBy s i = .ok s' ∧ _
    unfold setFilterBy
    by_cases he : i = s.filterBy
    · rw [if_pos he]; exact ⟨s, rfl, h, rfl, rfl⟩
    · rw [if_neg he]
      obtain ⟨f', g', hf', hg'⟩ := nth_lt s.groupBy i hg3 ho
      obtain ⟨s', e', h', hd, hr, _⟩ := refresh_sound { s with filterBy := i } f' g' ⟨h.rows, by rw [← hf', ← h.labels], hg', hc⟩ h.labels h.run hrow
      exact ⟨s', e', h', hd, hr⟩
  | filter v =>
    show ∃ s', setValue s v = .ok s' ∧ _
    unfold setValue
    by_cases he : v = s.value
    · rw [if_pos he]; exact ⟨s, rfl, h, rfl, rfl⟩
    · rw [if_neg he]
      have hv' := (hopt v).1 ho
      obtain ⟨p, e', hs'⟩ := updatePlots_ok { s with value := v } f g ⟨h.rows, hf, hg, hc⟩ hv'
      exact ⟨_, e', ⟨h.run, h.rows, h.labels, f, g, hf, hg, hne, hv', hopt, hs'⟩, rfl, rfl⟩
  | repo d runs => exact ho.elim

/-- Every event was offered when it came. -/
def Visit : View → List Ev → Prop
  | _, [] => True
  | s, e :: es => Offered s e ∧ ∀ s', step s e = .ok s' → Visit s' es

/-- **C107** If the last run has rows, the view is created, and as long as a visitor stays with one repository and with runs that have
rows, the callbacks never raise, grouping and filtering are by different factors, the filter offers exactly the values of the run, and
the plots show one box for each group, with the average of all its samples. -/
theorem C107_visit_partial (data : List Row) (runs : List (Str × Int)) (n : Str) (t : Int) (hlast : (runs.getLast?.map Prod.fst) = some n)
    (ht : runs.lookup n = some t) (hrow : ∃ r ∈ data, r.timestamp = t) (hc : Counted data) :
    ∃ s0, init data runs = .ok s0 ∧ Sound s0 ∧ s0.run = t ∧ ∀ es, Visit s0 es → ∃ s, go s0 es = .ok s ∧ Sound s ∧ s.data = data := by
  obtain ⟨s0, e0, h0, hd0, hr0⟩ : ∃ s0, init data runs = .ok s0 ∧ Sound s0 ∧ s0.data = data ∧ s0.run = t := by
    obtain ⟨r, hr, hrt⟩ := hrow
    have hrin : r ∈ data.filter fun r => decide (r.timestamp = t) := List.mem_filter.2 ⟨hr, by simpa using hrt⟩
    have hopt : ∀ v, v ∈ dedup ((data.filter fun r => decide (r.timestamp = t)).map Factor.backends.of) ↔
        ∃ r ∈ data, r.timestamp = t ∧ Factor.backends.of r = v := by
      intro v
      rw [Views.mem_dedup]
      simp [and_assoc]
    have hhead := Views.head_mem (List.ne_nil_of_mem ((hopt _).2 ⟨r, hr, hrt, rfl⟩))
    unfold init
    cases hl : runs.getLast? with
    | none => rw [hl] at hlast; cases hlast
    | some q =>
      obtain ⟨n', t'⟩ := q
      rw [hl] at hlast
      have hn : n' = n := Option.some.inj hlast
      subst hn
      simp only [ht]
      rw [if_neg (List.ne_nil_of_mem hrin)]
      obtain ⟨p, e, hs⟩ := updatePlots_ok ⟨data, runs, n', t, data.filter fun r => decide (r.timestamp = t), 0, factors.eraseIdx 0, 0,
        dedup ((data.filter fun r => decide (r.timestamp = t)).map Factor.backends.of),
        (dedup ((data.filter fun r => decide (r.timestamp = t)).map Factor.backends.of)).headD [], []⟩ .backends .variables
        ⟨rfl, rfl, rfl, hc⟩ ((hopt _).1 hhead)
      exact ⟨_, e, ⟨ht, rfl, rfl, .backends, .variables, rfl, rfl, by decide, (hopt _).1 hhead, hopt, hs⟩, rfl, rfl⟩
  refine ⟨s0, e0, h0, hr0, fun es => ?_⟩
  rw [← hd0] at hc ⊢
  clear e0 hd0 hr0
  induction es generalizing s0 with
  | nil => exact fun _ => ⟨s0, rfl, h0, rfl⟩
  | cons e es ih =>
    intro hv
    obtain ⟨s1, e1, h1, hd1, _⟩ := C107_step_partial s0 e h0 hc hv.1
    obtain ⟨s, e2, hs, hd2⟩ := ih s1 (by rw [hd1]; exact hc) h1 (hv.2 s1 e1)
    refine ⟨s, ?_, hs, by rw [hd2, hd1]⟩
    show (step s0 e >>= fun s => go s es) = _
    rw [e1]
    exact e2

/-- **C107** Another repository is shown correctly when the last of its runs has rows and a name other than that of the selected run. -/
theorem C107_repository_partial (s : View) (h : Sound s) (data : List Row) (runs : List (Str × Int)) (n : Str) (t : Int)
    (hlast : (runs.getLast?.map Prod.fst) = some n) (ht : runs.lookup n = some t) (hrow : ∃ r ∈ data, r.timestamp = t) (hc : Counted data)
    (hne : n ≠ s.runName) :
    ∃ s', step s (.repo data runs) = .ok s' ∧ Sound s' ∧ s'.data = data ∧ s'.run = t := by
  obtain ⟨hg3, hf2⟩ := sound_lt h
  obtain ⟨f, g, hf, hg, hfg, _⟩ := h.plots
  show ∃ s', changeRepo s data runs = .ok s' ∧ _
  unfold changeRepo
  cases hl : runs.getLast? with
  | none => rw [hl] at hlast; cases hlast
  | some q =>
    obtain ⟨n', t'⟩ := q
    rw [hl] at hlast
    have hn : n' = n := Option.some.inj hlast
    subst hn
    obtain ⟨s1, e1, h1, hd1, hr1, ht1⟩ := refresh_sound { s with
        data := data, runs := runs, runName := n', run := t, runData := data.filter fun r => decide (r.timestamp = t) } f g ⟨rfl, hf, hg, hc⟩ h.labels ht hrow
    have hset : setRun { s with data := data, runs := runs } n' = .ok s1 := by
      unfold setRun
      simp only []
      rw [if_neg hne]
      simp only [ht]
      exact e1
    simp only []
    rw [hset]
    obtain ⟨f1, g1, hf1, hg1, hne1, hv1, hopt1, hs1⟩ := h1.plots
    have hd1 : s1.data = data := hd1
    have ht1 : s1.run = t := ht1
    simp only [Outcome.bind_ok, nth, hf1]
    have hopt : ∀ v, v ∈ dedup ((s1.data.filter fun r => decide (r.timestamp = s1.run)).map f1.of) ↔
        ∃ r ∈ s1.data, r.timestamp = s1.run ∧ f1.of r = v := by
      intro v
      rw [Views.mem_dedup]
      simp [and_assoc]
    have hin : dedup ((s1.data.filter fun r => decide (r.timestamp = s1.run)).map f1.of) ≠ [] :=
      List.ne_nil_of_mem ((hopt _).2 hv1)
    generalize dedup ((s1.data.filter fun r => decide (r.timestamp = s1.run)).map f1.of) = os at hopt hin
    cases os with
    | nil => exact absurd rfl hin
    | cons v os =>
      simp only []
      unfold setValue
      simp only []
      by_cases he : v = s1.value
      · rw [if_pos he]
        exact ⟨_, rfl, ⟨h1.run, rfl, h1.labels, f1, g1, hf1, hg1, hne1, hv1, hopt, hs1⟩, hd1, ht1⟩
      · rw [if_neg he]
        have hv' := (hopt v).1 List.mem_cons_self
        obtain ⟨p, e', hs'⟩ := updatePlots_ok { s1 with
            runData := s1.data.filter fun r => decide (r.timestamp = s1.run), options := v :: os, value := v } f1 g1
          ⟨rfl, hf1, hg1, by show Counted s1.data; rw [hd1]; exact hc⟩ hv'
        exact ⟨_, e', ⟨h1.run, rfl, h1.labels, f1, g1, hf1, hg1, hne1, hv', hopt, hs'⟩, hd1, ht1⟩

/-- **C107** Selecting a run that has no rows raises: a run with deterministic backends only. -/
theorem C107_run_wrong (s : View) (n : Str) (t : Int) (h : Sound s) (hn : n ≠ s.runName) (ht : s.runs.lookup n = some t)
    (hrow : ∀ r ∈ s.data, r.timestamp ≠ t) : step s (.run n) = .exit := by
  obtain ⟨f, g, hf, _⟩ := h.plots
  show setRun s n = _
  unfold setRun
  rw [if_neg hn]
  simp only [ht]
  unfold refresh
  simp only [nth, hf, Outcome.bind_ok]
  have : (s.data.filter fun r => decide (r.timestamp = t)) = [] := by
    rw [List.filter_eq_nil_iff]
    intro r hr
    simpa using hrow r hr
  simp only [this, List.map_nil, dedup, List.not_mem_nil, not_false_eq_true, if_true]

/-- **C107** When the last run of the other repository has the name of the one selected, the callback of the list of runs is not called:
the old timestamp is looked up in the new table, and if it has no rows there the change of repository raises, whatever the rows of
the last run. -/
theorem C107_repository_wrong (s : View) (h : Sound s) (data : List Row) (runs : List (Str × Int))
    (hlast : (runs.getLast?.map Prod.fst) = some s.runName) (hrow : ∀ r ∈ data, r.timestamp ≠ s.run) :
    step s (.repo data runs) = .exit := by
  obtain ⟨f, g, hf, _⟩ := h.plots
  show changeRepo s data runs = _
  unfold changeRepo
  cases hl : runs.getLast? with
  | none => rfl
  | some q =>
    obtain ⟨n, t⟩ := q
    rw [hl] at hlast
    have hn : n = s.runName := Option.some.inj hlast
    subst hn
    have : (data.filter fun r => decide (r.timestamp = s.run)) = [] := by
      rw [List.filter_eq_nil_iff]
      intro r hr
      simpa using hrow r hr
    simp only [setRun, if_true, Outcome.bind_ok, nth, hf, this, List.map_nil, dedup]

/-! ## Names -/

/-- **C107** The names on the axis are at most 39 characters, and those of at most 39 characters are whole. -/
theorem C107_names (a b : Str) (ha : a.length ≤ 39) (hb : b.length ≤ 39) (c : Str) :
    (shorten c).length ≤ 39 ∧ shorten a = a ∧ (shorten a = shorten b → a = b) := by
  have h : ∀ a : Str, a.length ≤ 39 → shorten a = a := fun a ha => by unfold shorten; rw [if_neg (by omega)]
  refine ⟨?_, h a ha, fun e => by rw [h a ha, h b hb] at e; exact e⟩
  unfold shorten
  split_ifs with hc
  · rw [List.length_append, List.length_append, List.length_take, List.length_drop]
    have : ("[...]".toList).length = 5 := rfl
    omega
  · omega

def longName (i : String) : Str := "velocity_residual_of_iteration_".toList ++ i.toList ++ "_of_the_solver_loop".toList

/-- **C107** Longer names that differ in the middle are the same on the axis. -/
theorem C107_names_wrong : longName "1" ≠ longName "2" ∧ shorten (longName "1") = shorten (longName "2") := by decide

/-! ## Examples -/

def row (t v b : String) (time : Int) (mu sigma : ℚ) (n : Nat) : Row := ⟨t.toList, v.toList, b.toList, time, mu, sigma, n⟩

def table : List Row := [row "t" "x" "mca" 1 1 2 3, row "t" "x" "mca" 2 1 2 3, row "t" "y" "mca" 2 4 4 3, row "u" "x" "mca" 2 5 3 9,
  row "u" "x" "rr" 2 7 7 3]

def runs : List (Str × Int) := [("one".toList, 1), ("two".toList, 2), ("none".toList, 3), ("last".toList, 2)]

/-- Variable `x` has two rows with backend `mca`: three samples with the average 1 and nine with the average 5. -/
example : (init table runs >>= fun s => pure s.plot) =
    .ok [⟨"x".toList, 4, 2, 2, 9 / 4, 5 / 2, 11 / 4, 3, 5 / 2⟩, ⟨"y".toList, 4, 1, 4, 4, 4, 4, 4, 4⟩] := by decide +kernel

example : (init table runs >>= fun s => pure (s.value, s.options)) = .ok ("mca".toList, ["mca".toList, "rr".toList]) := by decide +kernel

/-- Grouped by tests, filtered by variables, the value goes to `x`, then `y`. -/
example : (init table runs >>= fun s => go s [.groupBy 2, .filterBy 0, .filter "y".toList] >>= fun s =>
      pure (s.labels, s.value, s.plot.map fun g => (g.x, g.mu))) =
    .ok ([.variables, .backends], "y".toList, [("t".toList, 4)]) := by decide +kernel

/-- The run named `none` has no rows. -/
example : (init table runs >>= fun s => step s (.run "none".toList)) = .exit := by decide +kernel

/-- The two repositories have a run of the same name. -/
example : (init table runs >>= fun s => step s (.repo [row "t" "x" "mca" 9 1 2 3] [("last".toList, 9)])) = .exit := by decide +kernel

example : (init table runs >>= fun s => step s (.repo [row "t" "z" "mca" 9 1 2 3] [("new".toList, 9)]) >>= fun s =>
    pure (s.run, s.plot.map Group.x)) = .ok (9, ["z".toList]) := by decide +kernel

end Verif.Ci.Inspect
