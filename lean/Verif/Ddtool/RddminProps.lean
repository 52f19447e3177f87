import Verif.Ddtool.MaxProps

/-!
# Recursive searches (C42)
-/

namespace Verif.Ddtool

variable {α K : Type} [DecidableEq α] [DecidableEq K]

/-- `res` is a non-empty part of `c` that fails a sample and becomes passing, for `N`
samples, when any one of its deltas is removed. -/
structure MinS (e : Env α K) (B N : Nat) (c res : List α) : Prop where
  sub : res.Sublist c
  ne : res ≠ []
  fails : ∃ i < B, e.sample (e.name res) i = false
  min : ∀ x ∈ res, ∀ i < N, e.sample (e.name (res.filter fun y => decide (y ≠ x))) i = true

theorem Minimal.toS {e : Env α K} {B N : Nat} {c res : List α} {d : Disk K}
    (h : Minimal e N c res d) (hg : Good e B d) : MinS e B N c res :=
  ⟨h.sub, h.ne, hg.fails h.fails, fun x hx => hg.passes (h.min x hx)⟩

theorem MinS.trans {e : Env α K} {B N : Nat} {c c' res : List α} (h : MinS e B N c res)
    (hs : c.Sublist c') : MinS e B N c' res := ⟨h.sub.trans hs, h.ne, h.fails, h.min⟩

/-- Sets found in `deltas` and what is left. -/
structure Decomp (e : Env α K) (B N : Nat) (deltas : List α) (found : List (List α))
    (left : List α) : Prop where
  left_eq : left = listminus deltas found.flatten
  min : ∀ c ∈ found, MinS e B N deltas c
  disj : found.Pairwise List.Disjoint

theorem listminus_listminus (a b c : List α) :
    listminus (listminus a b) c = listminus a (b ++ c) := by
  unfold listminus
  rw [List.filter_filter]
  apply List.filter_congr
  intro x _
  by_cases h1 : x ∈ b <;> by_cases h2 : x ∈ c <;> simp [h1, h2]

theorem Decomp.nil {e : Env α K} {B N : Nat} (deltas : List α) :
    Decomp e B N deltas [] deltas := ⟨by simp [listminus_nil], by simp, List.Pairwise.nil⟩

theorem Decomp.single {e : Env α K} {B N : Nat} {deltas conf : List α}
    (h : MinS e B N deltas conf) : Decomp e B N deltas [conf] (listminus deltas conf) :=
  ⟨by simp, by simpa using h, by simp⟩

theorem Decomp.append {e : Env α K} {B N : Nat} {deltas l1 l2 : List α}
    {f1 f2 : List (List α)} (h1 : Decomp e B N deltas f1 l1) (h2 : Decomp e B N l1 f2 l2) :
    Decomp e B N deltas (f1 ++ f2) l2 := by
  have hsub : l1.Sublist deltas := h1.left_eq ▸ listminus_sublist _ _
  refine ⟨?_, fun c hc => ?_, ?_⟩
  · rw [h2.left_eq, h1.left_eq, listminus_listminus, List.flatten_append]
  · rcases List.mem_append.1 hc with hc | hc
    · exact h1.min c hc
    · exact (h2.min c hc).trans hsub
  · refine List.pairwise_append.2 ⟨h1.disj, h2.disj, fun a ha b hb x hxa hxb => ?_⟩
    have := (h2.min b hb).sub.subset hxb
    rw [h1.left_eq] at this
    exact (mem_listminus.1 this).2 (List.mem_flatten.2 ⟨a, ha, hxa⟩)

theorem Decomp.sublist {e : Env α K} {B N : Nat} {deltas l : List α} {f : List (List α)}
    (h : Decomp e B N deltas f l) : l.Sublist deltas := h.left_eq ▸ listminus_sublist _ _

theorem length_listminus_lt {c s : List α} (hs : s ≠ []) (hc : c.Nodup) (h : s.Sublist c) :
    (listminus c s).length < c.length := by
  have := length_listminus hc h
  have := List.length_pos_iff.2 hs
  omega

/-- The hypotheses shared by the theorems of this file: sequential mode, at most `B`
samples, and the configuration without any delta always passes. -/
structure Setup (e : Env α K) (B : Nat) : Prop where
  seq : Seq e
  nb : e.nbRUN ≤ B
  empty : ∀ i < B, e.sample (e.name []) i = true

theorem Setup.ddmin {e : Env α K} {B : Nat} (h : Setup e B) {N : Nat} (hN : N ≤ B)
    {fuel : Nat} {c : List α} (hnd : c.Nodup) (hfuel : enough c.length ≤ fuel) {d : Disk K}
    (hg : Good e B d) (hf : Fails d (e.name c)) :
    ∃ res d', ddmin e fuel c N d = .ok (res, d') ∧ Good e B d' ∧ Ext N d d' ∧
      Minimal e N c res d' := by
  rcases ddmin_spec h.seq hN fuel c hnd hfuel d hg with ⟨-, h' | ⟨h', -⟩⟩ |
    ⟨res, d', h', g, x, m, -⟩
  · obtain ⟨i, hi, h'⟩ := h'; rw [h.empty i hi] at h'; cases h'
  · exact absurd hf h'
  · exact ⟨res, d', h', g, x, m⟩

theorem Setup.test {e : Env α K} {B : Nat} (h : Setup e B) {N : Nat} (hN : N ≤ B)
    (c : List α) {d : Disk K} (hg : Good e B d) :
    ∃ v d', test e c N d = .ok (v, d') ∧ TestOk e B c N d v d' ∧
      (Fails d (e.name c) → v = .fail ∧ d' = d) := by
  obtain ⟨v, d', h1, h2, h3, -⟩ := test_spec e h.seq.seq h.seq.ord B c N hN d hg
  exact ⟨v, d', h1, h2, h3⟩

theorem Setup.ne_nil {e : Env α K} {B : Nat} (h : Setup e B) {c : List α} {d : Disk K}
    (hg : Good e B d) (hf : Fails d (e.name c)) : c ≠ [] := by
  rintro rfl
  obtain ⟨i, hi, h'⟩ := hg.fails hf
  rw [h.empty i hi] at h'; cases h'

theorem Setup.singleton {e : Env α K} {B : Nat} (h : Setup e B) {N : Nat} (hN : N ≤ B)
    {c deltas : List α} (hs : c.Sublist deltas) (hl : c.length = 1) {d : Disk K}
    (hg : Good e B d) (hf : Fails d (e.name c)) : MinS e B N deltas c := by
  obtain ⟨x, rfl⟩ := List.length_eq_one_iff.1 hl
  refine ⟨hs, by simp, hg.fails hf, fun y hy i hi => ?_⟩
  rw [List.mem_singleton] at hy; subst hy
  simpa using h.empty i (by omega)

theorem rddminLoop_spec {e : Env α K} {B : Nat} (h : Setup e B) {N : Nat} (hN : N ≤ B)
    (fuel : Nat) : ∀ (f : Nat) (v : Verdict) (deltas : List α) (d : Disk K), Good e B d →
      deltas.Nodup → enough deltas.length ≤ fuel → deltas.length < f →
      (v = .fail → Fails d (e.name deltas)) →
      (v = .pass → ∀ i < N, e.sample (e.name deltas) i = true) →
      ∃ found d', rddminLoop e fuel N f v deltas d = .ok (found, d') ∧
        Good e B d' ∧ Decomp e B N deltas found (listminus deltas found.flatten) ∧
        ∀ i < N, e.sample (e.name (listminus deltas found.flatten)) i = true := by
  intro f
  induction f with
  | zero => intro v deltas d _ _ _ h; omega
  | succ f ih =>
    intro v deltas d hg hnd hfu hf hvf hvp
    cases v with
    | pass =>
      refine ⟨[], d, by simp [rddminLoop], hg, ?_, ?_⟩
      · simpa [listminus_nil] using Decomp.nil deltas
      · simpa [listminus_nil] using hvp rfl
    | fail =>
      obtain ⟨conf, d1, h1, g1, -, m1⟩ := h.ddmin hN hnd hfu hg (hvf rfl)
      obtain ⟨v2, d2, h2, t2, -⟩ := h.test h.nb conf g1
      obtain ⟨v3, d3, h3, t3, -⟩ := h.test hN (listminus deltas conf) t2.good
      have hlt := length_listminus_lt m1.ne hnd m1.sub
      obtain ⟨rest, d4, h4, g4, dc, lp⟩ := ih v3 (listminus deltas conf) d3 t3.good
        ((listminus_sublist _ _).nodup hnd)
        (Nat.le_trans (enough_mono (Nat.le_of_lt hlt)) hfu) (by omega) t3.fail
        (fun hv => t3.good.passes (t3.pass hv))
      refine ⟨conf :: rest, d4, by simp [rddminLoop, h1, h2, h3, h4], g4, ?_, ?_⟩
      · have := (Decomp.single (m1.toS g1)).append dc
        rw [listminus_listminus] at this
        simpa using this
      · rw [listminus_listminus] at lp
        simpa using lp

/-- C42 (`INTERFLOP_DD_RDDMIN=strict`): recursive ddmin terminates; the sets found are
pairwise disjoint, each fails a sample and passes `nbRUN` samples when any one of its
deltas is removed; the deltas left pass `nbRUN` samples, and the disk stays usable. -/
theorem C42_rddmin {e : Env α K} {B : Nat} (h : Setup e B) (fuel : Nat) (deltas : List α)
    (hnd : deltas.Nodup) (hfuel : enough deltas.length ≤ fuel) (d : Disk K) (hg : Good e B d)
    (hall : ∃ i < e.nbRUN, e.sample (e.name deltas) i = false) :
    ∃ found d', rddmin e fuel deltas e.nbRUN d = .ok (found, d') ∧ Good e B d' ∧
      (∀ c ∈ found, MinS e B e.nbRUN deltas c) ∧ found.Pairwise List.Disjoint ∧
      ∀ i < e.nbRUN,
        e.sample (e.name (deltas.filter fun x => decide (∀ c ∈ found, x ∉ c))) i = true := by
  obtain ⟨v, d1, h1, t1, -⟩ := h.test h.nb deltas hg
  have hv : v = .fail := by
    cases v with
    | fail => rfl
    | pass =>
      obtain ⟨i, hi, h'⟩ := hall
      rw [t1.good.passes (t1.pass rfl) i hi] at h'; cases h'
  subst hv
  have hl : deltas.length < fuel := by
    have : deltas.length < enough deltas.length := by
      unfold enough
      have := Nat.mul_le_mul (Nat.le_refl (deltas.length + 2)) (show 1 ≤ deltas.length + 2 by omega)
      omega
    omega
  obtain ⟨found, d', h2, g2, dc, lp⟩ := rddminLoop_spec h h.nb fuel fuel .fail deltas d1 t1.good hnd
    hfuel hl t1.fail (by simp)
  have e1 : listminus deltas found.flatten =
      deltas.filter fun x => decide (∀ c ∈ found, x ∉ c) := by
    unfold listminus; apply List.filter_congr; intro x _; simp [List.mem_flatten]
  refine ⟨found, d', by simp [rddmin, h1, h2], g2, dc.min, dc.disj, ?_⟩
  rw [← e1]; exact lp

/-! ## Increasing numbers of samples -/

theorem refine_spec {e : Env α K} {B : Nat} (h : Setup e B) (fuel N : Nat) (hN : N ≤ B)
    (c : List α) : ∀ (xs : List Nat) (N0 : Nat) (conf : List α) (d : Disk K),
      (∀ x ∈ xs, x ≤ B) → xs.getLast?.getD N0 = N → Good e B d → conf.Nodup →
      enough conf.length ≤ fuel → Fails d (e.name conf) → MinS e B N0 c conf →
      ∃ res d', refine e fuel xs conf d = .ok (res, d') ∧ Good e B d' ∧
        (∀ k, Fails d k → Fails d' k) ∧ Fails d' (e.name res) ∧ MinS e B N c res := by
  intro xs
  induction xs with
  | nil =>
    intro N0 conf d _ hl hg _ _ hf m
    simp only [List.getLast?_nil, Option.getD_none] at hl
    subst hl
    exact ⟨conf, d, rfl, hg, fun _ h => h, hf, m⟩
  | cons x xs ih =>
    intro N0 conf d hx hl hg hnd hfu hf m
    obtain ⟨conf', d1, h1, g1, x1, m1⟩ := h.ddmin (hx x (by simp)) hnd hfu hg hf
    have m2 := (m1.toS g1).trans m.sub
    have hle := m1.sub.length_le
    simp only [refine, h1, Res.ok_bind]
    by_cases h1l : conf'.length = 1
    · rw [if_pos h1l]
      exact ⟨conf', d1, rfl, g1, fun _ => x1.fails, m1.fails, h.singleton hN m2.sub h1l g1 m1.fails⟩
    · rw [if_neg h1l]
      obtain ⟨res, d', a, b, c', r⟩ := ih x conf' d1 (fun y hy => hx y (by simp [hy]))
        (by rw [List.getLast?_cons] at hl; simpa using hl) g1 (m1.sub.nodup hnd)
        (Nat.le_trans (enough_mono hle) hfu) m1.fails m2
      exact ⟨res, d', a, b, fun k hk => c' k (x1.fails hk), r⟩

theorem last_above {runTab : List Nat} (hs : runTab.Pairwise (· < ·)) {run nbRun : Nat}
    (hr : run ∈ runTab) (hl : runTab.getLast? = some nbRun) :
    (runTab.filter fun x => decide (run < x)).getLast?.getD run = nbRun := by
  obtain ⟨ys, rfl⟩ := List.getLast?_eq_some_iff.1 hl
  rw [List.filter_append]
  have hp := List.pairwise_append.1 hs
  rcases List.mem_append.1 hr with hr | hr
  · have : run < nbRun := hp.2.2 run hr nbRun (by simp)
    simp [this]
  · rw [List.mem_singleton] at hr; subst hr
    have : ys.filter (fun x => decide (run < x)) = [] := by
      rw [List.filter_eq_nil_iff]
      intro y hy
      have := hp.2.2 y hy run (by simp)
      simp; omega
    simp [this]

/-- A table of numbers of samples the tool uses: increasing, ending at `nbRun`. -/
structure Tab (B : Nat) (runTab : List Nat) (nbRun : Nat) : Prop where
  sorted : runTab.Pairwise (· < ·)
  last : runTab.getLast? = some nbRun
  bound : ∀ x ∈ runTab, x ≤ B

theorem Tab.mem {B : Nat} {runTab : List Nat} {nbRun : Nat} (h : Tab B runTab nbRun) :
    nbRun ∈ runTab := List.mem_of_getLast? h.last

theorem srddLoop_spec {e : Env α K} {B : Nat} (h : Setup e B) {runTab : List Nat}
    {nbRun : Nat} (ht : Tab B runTab nbRun) (fuel run : Nat) (hrun : run ∈ runTab) :
    ∀ (f : Nat) (v : Verdict) (deltas : List α) (d : Disk K), Good e B d →
      deltas.Nodup → enough deltas.length ≤ fuel → deltas.length < f →
      (v = .fail → Fails d (e.name deltas)) →
      ∃ found left d', srddLoop e fuel runTab run nbRun f v deltas d = .ok ((found, left), d') ∧
        Good e B d' ∧ (∀ k, Fails d k → Fails d' k) ∧ Decomp e B nbRun deltas found left ∧
        ((v = .fail ∨ ∀ i < nbRun, e.sample (e.name deltas) i = true) →
          ∀ i < nbRun, e.sample (e.name left) i = true) := by
  intro f
  induction f with
  | zero => intro v deltas d _ _ _ h; omega
  | succ f ih =>
    intro v deltas d hg hnd hfu hf hvf
    cases v with
    | pass =>
      exact ⟨[], deltas, d, by simp [srddLoop], hg, fun _ h => h, Decomp.nil deltas, by simp⟩
    | fail =>
      obtain ⟨conf0, d1, h1, g1, x1, m1⟩ := h.ddmin (ht.bound run hrun) hnd hfu hg (hvf rfl)
      have hle := m1.sub.length_le
      obtain ⟨conf, d1', h1', g1', x1', m1'⟩ : ∃ conf d',
          (if conf0.length ≠ 1 then
            refine e fuel (runTab.filter fun x => decide (run < x)) conf0 d1
            else .ok (conf0, d1)) = .ok (conf, d') ∧ Good e B d' ∧
            (∀ k, Fails d1 k → Fails d' k) ∧ MinS e B nbRun deltas conf := by
        by_cases hl : conf0.length = 1
        · exact ⟨conf0, d1, by simp [hl], g1, fun _ h => h,
            h.singleton (ht.bound _ ht.mem) m1.sub hl g1 m1.fails⟩
        · rw [if_pos hl]
          obtain ⟨r, d', a, b, x, -, c⟩ := refine_spec h fuel nbRun (ht.bound _ ht.mem) deltas
            (runTab.filter fun x => decide (run < x)) run conf0 d1
            (fun x hx => ht.bound x (List.mem_filter.1 hx).1)
            (last_above ht.sorted hrun ht.last) g1 (m1.sub.nodup hnd)
            (Nat.le_trans (enough_mono hle) hfu) m1.fails (m1.toS g1)
          exact ⟨r, d', a, b, x, c⟩
      obtain ⟨v2, d2, h2, t2, -⟩ := h.test h.nb conf g1'
      obtain ⟨v3, d3, h3, t3, -⟩ := h.test (ht.bound _ ht.mem) (listminus deltas conf) t2.good
      have hlt := length_listminus_lt m1'.ne hnd m1'.sub
      obtain ⟨rest, left, d4, h4, g4, x4, dc, lp⟩ := ih v3 (listminus deltas conf) d3 t3.good
        ((listminus_sublist _ _).nodup hnd)
        (Nat.le_trans (enough_mono (Nat.le_of_lt hlt)) hfu) (by omega) t3.fail
      refine ⟨conf :: rest, left, d4, ?_, g4, fun k hk =>
        x4 k (t3.ext.fails (t2.ext.fails (x1' k (x1.fails hk)))), (Decomp.single m1').append dc, fun _ => lp ?_⟩
      · rw [srddLoop, if_neg (by simp), h1]
        by_cases hl : conf0.length = 1
        · simp only [hl, ne_eq, not_true, if_false, Res.ok.injEq, Prod.mk.injEq] at h1'
          obtain ⟨rfl, rfl⟩ := h1'
          simp [hl, h2, h3, h4]
        · rw [if_pos hl] at h1'
          simp [hl, h1', h2, h3, h4]
      · cases v3 with
        | fail => exact .inl rfl
        | pass => exact .inr (t3.good.passes (t3.pass rfl))

theorem length_lt_fuel {l fuel : Nat} (h : enough l ≤ fuel) : l < fuel := by
  have : l < enough l := by
    unfold enough
    have := Nat.mul_le_mul (Nat.le_refl (l + 2)) (show 1 ≤ l + 2 by omega)
    omega
  omega

theorem srddRuns_spec {e : Env α K} {B : Nat} (h : Setup e B) {runTab : List Nat}
    {nbRun : Nat} (ht : Tab B runTab nbRun) (fuel : Nat) :
    ∀ (runs : List Nat) (deltas : List α) (d : Disk K), (∀ r ∈ runs, r ∈ runTab) →
      Good e B d → deltas.Nodup → enough deltas.length ≤ fuel →
      ∃ found left d', srddRuns e fuel runTab nbRun runs deltas d = .ok ((found, left), d') ∧
        Good e B d' ∧ (∀ k, Fails d k → Fails d' k) ∧ Decomp e B nbRun deltas found left ∧
        (runs.getLast? = some nbRun → ∀ i < nbRun, e.sample (e.name left) i = true) := by
  intro runs
  induction runs with
  | nil =>
    intro deltas d _ hg _ _
    exact ⟨[], deltas, d, rfl, hg, fun _ h => h, Decomp.nil deltas, by simp⟩
  | cons run runs ih =>
    intro deltas d hr hg hnd hfu
    obtain ⟨v, d1, h1, t1, -⟩ := h.test (ht.bound run (hr run (by simp))) deltas hg
    obtain ⟨f1, l1, d2, h2, g2, x2, dc2, lp2⟩ := srddLoop_spec h ht fuel run (hr run (by simp)) fuel v
      deltas d1 t1.good hnd hfu (length_lt_fuel hfu) t1.fail
    obtain ⟨f2, l2, d3, h3, g3, x3, dc3, lp3⟩ := ih l1 d2 (fun r h => hr r (by simp [h])) g2
      (dc2.sublist.nodup hnd) (Nat.le_trans (enough_mono dc2.sublist.length_le) hfu)
    refine ⟨f1 ++ f2, l2, d3, by simp [srddRuns, h1, h2, h3], g3,
      fun k hk => x3 k (x2 k (t1.ext.fails hk)), dc2.append dc3, fun hl => ?_⟩
    cases runs with
    | nil =>
      simp only [List.getLast?_singleton, Option.some.injEq] at hl
      subst hl
      have e1 : l2 = l1 ∧ f2 = [] := by
        simp only [srddRuns, Res.ok.injEq, Prod.mk.injEq] at h3
        exact ⟨h3.1.2.symm, h3.1.1.symm⟩
      rw [e1.1]
      apply lp2
      cases v with
      | fail => exact .inl rfl
      | pass => exact .inr (t1.good.passes (t1.pass rfl))
    | cons r rs =>
      apply lp3
      rw [List.getLast?_cons_cons] at hl
      exact hl

theorem srddmin_spec {e : Env α K} {B : Nat} (h : Setup e B) {runTab : List Nat}
    {nbRun : Nat} (ht : Tab B runTab nbRun) (fuel : Nat) (deltas : List α)
    (hnd : deltas.Nodup) (hfuel : enough deltas.length ≤ fuel) (d : Disk K) (hg : Good e B d)
    (hall : Fails d (e.name deltas) ∨ ∃ i < nbRun, e.sample (e.name deltas) i = false) :
    ∃ found left d', srddmin e fuel deltas runTab d = .ok (found, d') ∧ Good e B d' ∧
      (∀ k, Fails d k → Fails d' k) ∧ Decomp e B nbRun deltas found left ∧ ∀ i < nbRun, e.sample (e.name left) i = true := by
  obtain ⟨v, d1, h1, t1, hfl⟩ := h.test (ht.bound _ ht.mem) deltas hg
  have hv : v = .fail := by
    rcases hall with hall | ⟨i, hi, h'⟩
    · exact (hfl hall).1
    · cases v with
      | fail => rfl
      | pass => rw [t1.good.passes (t1.pass rfl) i hi] at h'; cases h'
  subst hv
  obtain ⟨found, left, d2, h2, g2, x2, dc, lp⟩ := srddRuns_spec h ht fuel runTab deltas d1
    (fun _ h => h) t1.good hnd hfuel
  refine ⟨found, left, d2, ?_, g2, fun k hk => x2 k (t1.ext.fails hk), dc, lp ht.last⟩
  unfold srddmin
  rw [ht.last]
  simp [h1, h2]

/-- C42 (`INTERFLOP_DD_RDDMIN=stoch`): the same for `SRDDMin` with an increasing table of
numbers of samples ending at `nbRun`. -/
theorem C42_srddmin {e : Env α K} {B : Nat} (h : Setup e B) {runTab : List Nat}
    {nbRun : Nat} (ht : Tab B runTab nbRun) (fuel : Nat) (deltas : List α)
    (hnd : deltas.Nodup) (hfuel : enough deltas.length ≤ fuel) (d : Disk K) (hg : Good e B d)
    (hall : ∃ i < nbRun, e.sample (e.name deltas) i = false) :
    ∃ found d', srddmin e fuel deltas runTab d = .ok (found, d') ∧ Good e B d' ∧
      (∀ c ∈ found, MinS e B nbRun deltas c) ∧ found.Pairwise List.Disjoint ∧
      ∀ i < nbRun,
        e.sample (e.name (deltas.filter fun x => decide (∀ c ∈ found, x ∉ c))) i = true := by
  obtain ⟨found, left, d', h1, g1, -, dc, lp⟩ := srddmin_spec h ht fuel deltas hnd hfuel d hg (.inr hall)
  have e1 : left = deltas.filter fun x => decide (∀ c ∈ found, x ∉ c) := by
    rw [dc.left_eq]
    unfold listminus; apply List.filter_congr; intro x _; simp [List.mem_flatten]
  exact ⟨found, d', h1, g1, dc.min, dc.disj, e1 ▸ lp⟩

/-- Six deltas; `1` alone and `2, 5` together fail, the latter only at the second
sample. -/
example :
    let e : Env Nat (List Nat) :=
      ⟨id, fun k i => decide (¬ (1 ∈ k) ∧ ¬ (1 ≤ i ∧ 2 ∈ k ∧ 5 ∈ k)), id, false, 2, false⟩
    (match rddmin e 64 [1, 2, 3, 4, 5, 6] 2 (fun _ => []) with
      | .ok (r, _) => some r | _ => none) = some [[1], [2, 5]] ∧
    (match srddmin e 64 [1, 2, 3, 4, 5, 6] [1, 2] (fun _ => []) with
      | .ok (r, _) => some r | _ => none) = some [[1], [2, 5]] := by decide +kernel

end Verif.Ddtool
