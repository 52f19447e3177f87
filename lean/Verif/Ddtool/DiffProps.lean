import Verif.Ddtool.OutcomeProps
import Verif.Ddtool.MinProps

/-!
# The minimal difference between passing and failing (C110)

`dddiff` "computes a minimal failure-inducing difference" (`DD.py:184`): two
configurations, one inside the other, the smaller one passing and the larger one failing,
that are as near as the search can tell.
-/

namespace Verif.Ddtool

variable {α σ : Type} [DecidableEq α]

/-- The test `t` answers `f`, in every state satisfying `Inv`, and keeps `Inv`. -/
def Answers (t : List α → σ → Res (Out × σ)) (f : List α → Out) (Inv : σ → Prop) : Prop :=
  ∀ c s, Inv s → ∃ s', t c s = .ok (f c, s') ∧ Inv s'

/-! ## Lists -/

theorem listunion_disjoint {s r : List α} (h : ∀ x ∈ s, x ∉ r) : listunion s r = s ++ r := by
  unfold listunion
  rw [List.filter_eq_self.2]
  intro x hx
  simpa using fun hs => h x hs hx

theorem listminus_append {s r : List α} (h : ∀ x ∈ s, x ∉ r) : listminus (s ++ r) r = s := by
  unfold listminus
  rw [List.filter_append, List.filter_eq_self.2 (by simpa using h),
    List.filter_eq_nil_iff.2 (by simp), List.append_nil]

theorem listminus_append_left {s r : List α} (h : ∀ x ∈ s, x ∉ r) :
    listminus (r ++ s) r = s := by
  unfold listminus
  rw [List.filter_append, (List.filter_eq_self (l := s)).2 (by simpa using h),
    List.filter_eq_nil_iff.2 (by simp), List.nil_append]

theorem listminus_two (c a b : List α) : listminus c (a ++ b) = listminus (listminus c a) b := by
  unfold listminus
  rw [List.filter_filter]
  apply List.filter_congr
  intro x _
  simp [Bool.and_comm]

theorem listsubseteq_iff {a b : List α} : listsubseteq a b = true ↔ ∀ x ∈ a, x ∈ b := by
  simp [listsubseteq]

/-! ## One round -/

/-- `test_and_resolve` on a list apart from the base: the outcome of the two together, and
the list itself. -/
theorem testResolve_spec {t : List α → σ → Res (Out × σ)} {f : List α → Out}
    {Inv : σ → Prop} (ht : Answers t f Inv) {s r : List α} (hd : ∀ x ∈ s, x ∉ r) {st : σ}
    (hi : Inv st) : ∃ st', testResolve t s r st = .ok (f (s ++ r), s, st') ∧ Inv st' := by
  obtain ⟨st', h, hi'⟩ := ht (s ++ r) st hi
  refine ⟨st', ?_, hi'⟩
  simp only [testResolve, listunion_disjoint hd, h, Res.ok_bind, listminus_append hd]
  split
  · rename_i hu; rw [hu]
  · rfl

/-- What the loop over the chunks finds. -/
theorem diffLoop_spec {t : List α → σ → Res (Out × σ)} {f : List α → Out}
    {Inv : σ → Prop} (ht : Answers t f Inv) {c1 c : List α} (hd : ∀ x ∈ c, x ∉ c1)
    {cs : List (List α)} (hcs : ∀ s ∈ cs, s.Sublist c) {n : Nat} (hn : cs.length = n)
    (h2 : 2 ≤ n) (off : Nat) : ∀ (js : List Nat) (st : σ), Inv st →
    ∃ r st', diffLoop t c1 c cs n off js st = .ok (r, st') ∧ Inv st' ∧
      match r with
      | some (.lower c1' n' _) =>
        ∃ s ∈ cs, (c1' = c1 ++ s ∧ f (s ++ c1) = .pass ∧ n' = max (n - 1) 2) ∨
          (c1' = c1 ++ listminus c s ∧ f (listminus c s ++ c1) = .pass ∧ n' = 2)
      | some (.upper c2' n' _) =>
        ∃ s ∈ cs, (c2' = c1 ++ s ∧ f (s ++ c1) = .fail ∧ n' = 2) ∨
          (c2' = c1 ++ listminus c s ∧ f (listminus c s ++ c1) = .fail ∧
            n' = max (n - 1) 2)
      | none => ∀ j ∈ js, f (cs.getD ((j + off) % n) [] ++ c1) = .unres ∧
          f (listminus c (cs.getD ((j + off) % n) []) ++ c1) = .unres := by
  intro js
  induction js with
  | nil => intro st hi; exact ⟨none, st, rfl, hi, by simp⟩
  | cons j js ih =>
    intro st hi
    have hm : cs.getD ((j + off) % n) [] ∈ cs :=
      getD_mem (by rw [hn]; exact Nat.mod_lt _ (by omega))
    generalize hs : cs.getD ((j + off) % n) [] = s at hm
    have d1 : ∀ x ∈ s, x ∉ c1 := fun x hx => hd x ((hcs s hm).subset hx)
    have d2 : ∀ x ∈ listminus c s, x ∉ c1 := fun x hx => hd x (mem_listminus.1 hx).1
    have u1 : listunion c1 s = c1 ++ s := listunion_disjoint fun x hx hs => d1 x hs hx
    have u2 : listunion c1 (listminus c s) = c1 ++ listminus c s :=
      listunion_disjoint fun x hx hs => d2 x hs hx
    obtain ⟨st1, e1, i1⟩ := testResolve_spec ht d1 hi
    obtain ⟨st2, e2, i2⟩ := testResolve_spec ht d2 i1
    simp only [diffLoop, hs, e1, Res.ok_bind, e2, u1, u2]
    cases h1 : f (s ++ c1) with
    | fail => exact ⟨_, st1, rfl, i1, s, hm, .inl ⟨rfl, h1, rfl⟩⟩
    | pass => exact ⟨_, st1, rfl, i1, s, hm, .inl ⟨rfl, h1, rfl⟩⟩
    | unres =>
      simp only [reduceCtorEq, if_false]
      cases h3 : f (listminus c s ++ c1) with
      | fail => exact ⟨_, st2, rfl, i2, s, hm, .inr ⟨rfl, h3, rfl⟩⟩
      | pass => exact ⟨_, st2, rfl, i2, s, hm, .inr ⟨rfl, h3, rfl⟩⟩
      | unres =>
        simp only [reduceCtorEq, if_false]
        obtain ⟨r, st', e, i', hr⟩ := ih st2 i2
        refine ⟨r, st', e, i', ?_⟩
        cases r with
        | none =>
          intro k hk
          rcases List.mem_cons.1 hk with rfl | hk
          · rw [hs]; exact ⟨h1, h3⟩
          · exact hr k hk
        | some w => cases w <;> exact hr

/-! ## The search -/

/-- What the search delivers: the difference of two nested configurations; some order of
the smaller one passes and some order of the larger one fails; and unless the difference is
a single delta, adding any delta of it to the smaller one, and leaving any out of the
larger one, is unresolved. -/
structure IsDiff (f : List α → Out) (b1 b2 c c1 c2 : List α) : Prop where
  diff : c = listminus c2 c1
  low : ∀ x ∈ b1, x ∈ c1
  inside : ∀ x ∈ c1, x ∈ c2
  high : ∀ x ∈ c2, x ∈ b2
  nodup1 : c1.Nodup
  nodup2 : c2.Nodup
  pass : ∃ a, a.Perm c1 ∧ f a = .pass
  fail : ∃ b, b.Perm c2 ∧ f b = .fail
  minimal : 2 ≤ c.length → ∀ x ∈ c, f ([x] ++ c1) = .unres ∧
    f ((c.filter fun y => decide (y ≠ x)) ++ c1) = .unres

omit [DecidableEq α] in
/-- The assertions pass: assumed, or checked with a test that does not look at the order. -/
theorem axiomsHold_spec {t : List α → σ → Res (Out × σ)} {f : List α → Out}
    {Inv : σ → Prop} (ht : Answers t f Inv) {assume : Bool}
    (ha : assume = true ∨ ∀ a b : List α, a.Perm b → f a = f b) {c1 c2 : List α}
    (hp : ∃ a, a.Perm c1 ∧ f a = .pass) (hf : ∃ b, b.Perm c2 ∧ f b = .fail) {s : σ}
    (hi : Inv s) : ∃ s', axiomsHold t assume c1 c2 s = .ok s' ∧ Inv s' := by
  unfold axiomsHold
  cases assume with
  | true => exact ⟨s, rfl, hi⟩
  | false =>
    have ha := ha.resolve_left (by simp)
    obtain ⟨a, p1, h1⟩ := hp
    obtain ⟨b, p2, h2⟩ := hf
    obtain ⟨s1, e1, i1⟩ := ht c1 s hi
    obtain ⟨s2, e2, i2⟩ := ht c2 s1 i1
    rw [← ha a c1 p1, h1] at e1
    rw [← ha b c2 p2, h2] at e2
    simp only [Bool.false_eq_true, if_false, e1, e2, Res.ok_bind, and_self, if_true]
    exact ⟨s2, rfl, i2⟩

theorem dddiffLoop_spec {t : List α → σ → Res (Out × σ)} {f : List α → Out}
    {Inv : σ → Prop} (ht : Answers t f Inv) {assume : Bool}
    (ha : assume = true ∨ ∀ a b : List α, a.Perm b → f a = f b) :
    ∀ (fu : Nat) (c1 c2 : List α) (n off : Nat) (s : σ), Inv s → c1.Nodup → c2.Nodup →
      (∀ x ∈ c1, x ∈ c2) → (∃ a, a.Perm c1 ∧ f a = .pass) → (∃ b, b.Perm c2 ∧ f b = .fail) →
      2 ≤ n → (n ≤ (listminus c2 c1).length ∨ (listminus c2 c1).length ≤ 1) →
      rounds (listminus c2 c1).length n < fu →
      ∃ c d1 d2 s', dddiffLoop t assume fu c1 c2 n off s = .ok ((c, d1, d2), s') ∧ Inv s' ∧
        IsDiff f c1 c2 c d1 d2 := by
  intro fu
  induction fu with
  | zero => intro c1 c2 n off s _ _ _ _ _ _ _ _ h; omega
  | succ fu ih =>
    intro c1 c2 n off s hi n1 n2 hsub hp hf h2n hnl hfu
    obtain ⟨s1, e1, i1⟩ := axiomsHold_spec ht ha hp hf hi
    have hss : listsubseteq c1 c2 = true := listsubseteq_iff.2 hsub
    simp only [dddiffLoop, e1, Res.ok_bind, hss, Bool.true_eq_false, if_false]
    generalize hc : listminus c2 c1 = c at hnl hfu
    have hcnd : c.Nodup := hc ▸ (listminus_sublist c2 c1).nodup n2
    have hcd : ∀ x ∈ c, x ∉ c1 := fun x hx => (mem_listminus.1 (hc ▸ hx)).2
    have hcm : ∀ x ∈ c, x ∈ c2 := fun x hx => (mem_listminus.1 (hc ▸ hx)).1
    by_cases hlen : c.length < n
    · rw [if_pos hlen]
      exact ⟨c, c1, c2, s1, rfl, i1, hc.symm, fun _ h => h, hsub, fun _ h => h, n1, n2, hp, hf,
        fun h => by omega⟩
    rw [if_neg hlen]
    have hnl : n ≤ c.length := by omega
    obtain ⟨r, s2, e2, i2, hr⟩ := diffLoop_spec ht hcd
      (cs := split c n) (fun s hs => split_sublist c n (by omega) hs) (split_length c n) h2n off
      (List.range n) s1 i1
    simp only [e2, Res.ok_bind]
    -- adding a part of the difference to `c1`
    have add : ∀ p : List α, p.Sublist c → (c1 ++ p).Nodup ∧ (∀ x ∈ c1 ++ p, x ∈ c2) ∧
        listminus c2 (c1 ++ p) = listminus c p ∧ listminus (c1 ++ p) c1 = p := by
      intro p hp
      refine ⟨?_, ?_, ?_, ?_⟩
      · rw [List.nodup_append']
        exact ⟨n1, hp.nodup hcnd, fun x h1 h2 => hcd x (hp.subset h2) h1⟩
      · intro x hx
        exact (List.mem_append.1 hx).elim (hsub x) fun h => hcm x (hp.subset h)
      · rw [listminus_two, hc]
      · exact listminus_append_left fun x hx => hcd x (hp.subset hx)
    -- going on with a larger `c1`
    have goLow : ∀ (p : List α) (n' off' : Nat), p.Sublist c → f (p ++ c1) = .pass → 2 ≤ n' →
        (n' ≤ (listminus c p).length ∨ (listminus c p).length ≤ 1) →
        (listminus c p).length < c.length →
        ∃ c' d1 d2 s', dddiffLoop t assume fu (c1 ++ p) c2 n' off' s2 =
          .ok ((c', d1, d2), s') ∧ Inv s' ∧ IsDiff f c1 c2 c' d1 d2 := by
      intro p n' off' hpc hpp h2 hn' hlt
      obtain ⟨a1, a2, a3, -⟩ := add p hpc
      obtain ⟨c', d1, d2, s', e, i', hd⟩ := ih (c1 ++ p) c2 n' off' s2 i2 a1 n2 a2
        ⟨p ++ c1, List.perm_append_comm, hpp⟩ hf h2 (by rw [a3]; exact hn')
        (by rw [a3]; have := rounds_lt (n := n) (n' := n') hlt (by omega) hnl; omega)
      exact ⟨c', d1, d2, s', e, i', hd.diff,
        fun x hx => hd.low x (List.mem_append_left _ hx), hd.inside, hd.high, hd.nodup1,
        hd.nodup2, hd.pass, hd.fail, hd.minimal⟩
    -- going on with a smaller `c2`
    have goHigh : ∀ (p : List α) (n' off' : Nat), p.Sublist c → f (p ++ c1) = .fail → 2 ≤ n' →
        (n' ≤ p.length ∨ p.length ≤ 1) → p.length < c.length →
        ∃ c' d1 d2 s', dddiffLoop t assume fu c1 (c1 ++ p) n' off' s2 =
          .ok ((c', d1, d2), s') ∧ Inv s' ∧ IsDiff f c1 c2 c' d1 d2 := by
      intro p n' off' hpc hpp h2 hn' hlt
      obtain ⟨a1, a2, -, a4⟩ := add p hpc
      obtain ⟨c', d1, d2, s', e, i', hd⟩ := ih c1 (c1 ++ p) n' off' s2 i2 n1 a1
        (fun x hx => List.mem_append_left _ hx) hp ⟨p ++ c1, List.perm_append_comm, hpp⟩ h2
        (by rw [a4]; exact hn')
        (by rw [a4]; have := rounds_lt (n := n) (n' := n') hlt (by omega) hnl; omega)
      exact ⟨c', d1, d2, s', e, i', hd.diff, hd.low, hd.inside,
        fun x hx => a2 x (hd.high x hx), hd.nodup1, hd.nodup2, hd.pass, hd.fail, hd.minimal⟩
    have parts : ∀ p ∈ split c n, p.Sublist c ∧ 1 ≤ p.length ∧ p.length < c.length ∧
        n - 1 ≤ (listminus c p).length ∧ (listminus c p).length < c.length ∧
        listminus c (listminus c p) = p := by
      intro p hpm
      have hpc := split_sublist c n (by omega) hpm
      have h1 : 1 ≤ p.length :=
        List.length_pos_iff.2 (split_ne_nil c n (by omega) hnl p hpm)
      have h3 := length_compl (by omega) hnl hcnd hpm
      have h4 := length_listminus hcnd hpc
      exact ⟨hpc, h1, by omega, h3.1, h3.2, listminus_minus hcnd hpc⟩
    match r, hr with
    | some (.lower c1' n' off'), hr =>
      obtain ⟨p, hpm, h | h⟩ := hr
      · obtain ⟨rfl, hpp, rfl⟩ := h
        obtain ⟨q1, q2, q3, q4, q5, q6⟩ := parts p hpm
        exact goLow p _ off' q1 hpp (by omega) (by omega) q5
      · obtain ⟨rfl, hpp, rfl⟩ := h
        obtain ⟨q1, q2, q3, q4, q5, q6⟩ := parts p hpm
        exact goLow (listminus c p) _ off' (listminus_sublist _ _) hpp (by omega)
          (by rw [q6]; omega) (by rw [q6]; exact q3)
    | some (.upper c2' n' off'), hr =>
      obtain ⟨p, hpm, h | h⟩ := hr
      · obtain ⟨rfl, hpp, rfl⟩ := h
        obtain ⟨q1, q2, q3, q4, q5, q6⟩ := parts p hpm
        exact goHigh p _ off' q1 hpp (by omega) (by omega) q3
      · obtain ⟨rfl, hpp, rfl⟩ := h
        obtain ⟨q1, q2, q3, q4, q5, q6⟩ := parts p hpm
        exact goHigh (listminus c p) _ off' (listminus_sublist _ _) hpp (by omega)
          (by omega) q5
    | none, hr =>
      simp only
      by_cases hle : c.length ≤ n
      · rw [if_pos hle]
        have hnn : n = c.length := by omega
        refine ⟨c, c1, c2, s2, rfl, i2, hc.symm, fun _ h => h, hsub, fun _ h => h, n1, n2, hp,
          hf, fun _ x hx => ?_⟩
        obtain ⟨i, hi, hxi⟩ := List.getElem_of_mem hx
        obtain ⟨j, hj, hji⟩ := exists_shift (n := n) off i (by omega)
        have := hr j hj
        rw [hji, hnn, split_self_singletons c (by omega)] at this
        have e1 : ((c.map fun x => [x]).getD i []) = [x] := by
          rw [List.getD_eq_getElem?_getD, List.getElem?_eq_getElem (by simpa using hi)]
          simp [hxi]
        rw [e1] at this
        have e2 : listminus c [x] = c.filter fun y => decide (y ≠ x) := by
          unfold listminus; apply List.filter_congr; intro y _; simp
        rwa [e2] at this
      · rw [if_neg hle]
        refine ih c1 c2 (min c.length (n * 2)) _ s2 i2 n1 n2 hsub hp hf (by omega) ?_ ?_
        · rw [hc]; exact .inl (Nat.min_le_left _ _)
        · rw [hc]; unfold rounds at hfu ⊢; omega

/-- C110: for every test that passes on no delta and fails on all of them, with any
unresolved outcomes, `dddiff` ends with the difference of two nested configurations, of
which some order of the smaller passes and some order of the larger fails; when the
difference has two deltas or more, adding any one of them to the smaller configuration and
leaving any one out of the larger are both unresolved. -/
theorem C110_dddiff {t : List α → σ → Res (Out × σ)} {f : List α → Out} {Inv : σ → Prop}
    (ht : Answers t f Inv) (deltas : List α) (hd : deltas.Nodup) (h0 : f [] = .pass)
    (h1 : f deltas = .fail) (fu : Nat) (hfu : enough deltas.length ≤ fu) (s : σ) (hi : Inv s) :
    ∃ c c1 c2 s', dddiff t true fu deltas s = .ok ((c, c1, c2), s') ∧ Inv s' ∧
      IsDiff f [] deltas c c1 c2 := by
  have e : listminus deltas [] = deltas := by simp [listminus]
  refine dddiffLoop_spec ht (.inl rfl) fu [] deltas 2 0 s hi (by simp) hd (by simp)
    ⟨[], List.Perm.refl _, h0⟩ ⟨deltas, List.Perm.refl _, h1⟩ (Nat.le_refl _) ?_ ?_
  · rw [e]; omega
  · rw [e]; exact Nat.lt_of_lt_of_le rounds_enough hfu

/-- C110: for a test of sets (the order does not matter), whether or not the outcomes of
the two configurations are checked again in every round: the smaller configuration passes,
the larger one fails, they differ, and the difference is a single delta when no outcome is
unresolved. -/
theorem C110_sets {t : List α → σ → Res (Out × σ)} {f : List α → Out} {Inv : σ → Prop}
    (ht : Answers t f Inv) (hperm : ∀ a b : List α, a.Perm b → f a = f b) (assume : Bool)
    (deltas : List α) (hd : deltas.Nodup) (h0 : f [] = .pass) (h1 : f deltas = .fail)
    (fu : Nat) (hfu : enough deltas.length ≤ fu) (s : σ) (hi : Inv s) :
    ∃ c c1 c2 s', dddiff t assume fu deltas s = .ok ((c, c1, c2), s') ∧ Inv s' ∧
      (∀ x ∈ c1, x ∈ c2) ∧ (∀ x ∈ c2, x ∈ deltas) ∧ c2.Perm (c1 ++ c) ∧ f c1 = .pass ∧
      f c2 = .fail ∧ c ≠ [] ∧
      (2 ≤ c.length → ∀ x ∈ c, f (x :: c1) = .unres ∧
        f (c2.filter fun y => decide (y ≠ x)) = .unres) ∧
      ((∀ a, f a ≠ .unres) → ∃ x, c = [x]) := by
  have e : listminus deltas [] = deltas := by simp [listminus]
  obtain ⟨c, c1, c2, s', hr, i', h⟩ := dddiffLoop_spec ht (assume := assume) (.inr hperm) fu []
    deltas 2 0 s hi (by simp) hd (by simp) ⟨[], List.Perm.refl _, h0⟩
    ⟨deltas, List.Perm.refl _, h1⟩ (Nat.le_refl _) (by rw [e]; omega)
    (by rw [e]; exact Nat.lt_of_lt_of_le rounds_enough hfu)
  obtain ⟨a, pa, fa⟩ := h.pass
  obtain ⟨b, pb, fb⟩ := h.fail
  have f1 : f c1 = .pass := by rw [← hperm a c1 pa, fa]
  have f2 : f c2 = .fail := by rw [← hperm b c2 pb, fb]
  have hdj : ∀ x ∈ c, x ∉ c1 := fun x hx => (mem_listminus.1 (h.diff ▸ hx)).2
  have hcnd : c.Nodup := h.diff ▸ (listminus_sublist _ _).nodup h.nodup2
  have hnd : (c1 ++ c).Nodup :=
    List.nodup_append'.2 ⟨h.nodup1, hcnd, fun x h1 h2 => hdj x h2 h1⟩
  have hpm : c2.Perm (c1 ++ c) := by
    rw [List.perm_ext_iff_of_nodup h.nodup2 hnd]
    intro x
    rw [List.mem_append, h.diff, mem_listminus]
    constructor
    · intro hx
      by_cases hx1 : x ∈ c1
      · exact .inl hx1
      · exact .inr ⟨hx, hx1⟩
    · rintro (hx | hx)
      · exact h.inside x hx
      · exact hx.1
  have hne : c ≠ [] := by
    rintro rfl
    have := hperm _ _ hpm
    rw [List.append_nil, f1, f2] at this
    cases this
  refine ⟨c, c1, c2, s', hr, i', h.inside, h.high, hpm, f1, f2, hne, ?_, ?_⟩
  · intro hl x hx
    refine ⟨(h.minimal hl x hx).1, ?_⟩
    rw [← (h.minimal hl x hx).2]
    refine hperm _ _ ?_
    have e1 : (c2.filter fun y => decide (y ≠ x)).Perm
        ((c1 ++ c).filter fun y => decide (y ≠ x)) := hpm.filter _
    refine e1.trans ?_
    rw [List.filter_append, (List.filter_eq_self (l := c1)).2]
    · exact List.perm_append_comm
    · intro y hy
      have : y ≠ x := fun e => hdj x hx (e ▸ hy)
      simpa using this
  · intro hres
    match c, hne, h.minimal with
    | [x], _, _ => exact ⟨x, rfl⟩
    | x :: y :: c, _, hm => exact absurd (hm (by simp) x (by simp)).1 (hres _)

/-! ## With the cache of outcomes -/

/-- The object has run no configuration twice and its tree holds their outcomes. -/
def Once (f : List α → Out) (o : Obj α) : Prop := Holds f o.runs o ∧ o.runs.Nodup

theorem Once.fresh (f : List α → Out) : Once f (Obj.fresh : Obj α) :=
  ⟨Holds.fresh f, List.nodup_nil⟩

theorem test_once (le : α → α → Bool) (f : List α → Out) :
    Answers (Obj.test ⟨true, false⟩ le f) f (Once f) := by
  intro c o h
  obtain ⟨o', e, h'⟩ := test_cached (le := le) h.1 c
  refine ⟨o', e, ?_⟩
  by_cases hc : c ∈ o.runs
  · rw [if_pos hc] at h'; subst h'; exact h
  · rw [if_neg hc] at h'
    refine ⟨fun c' => ?_, ?_⟩
    · rw [h'.1 c', h'.2]
      simp [or_comm]
    · rw [h'.2, List.nodup_append']
      exact ⟨h.2, by simp, by simpa using hc⟩

/-- C110: `dd(c)` of a `DD` object as it is created (`DD.py:214-222`, `1025-1026`): the
result of `C110_sets`, and no configuration is run twice. -/
theorem C110_object (le : α → α → Bool) (f : List α → Out)
    (hperm : ∀ a b : List α, a.Perm b → f a = f b) (deltas : List α) (hd : deltas.Nodup)
    (h0 : f [] = .pass) (h1 : f deltas = .fail) (fu : Nat)
    (hfu : enough deltas.length ≤ fu) :
    ∃ c c1 c2 o, dddiff (Obj.test ⟨true, false⟩ le f) true fu deltas Obj.fresh =
        .ok ((c, c1, c2), o) ∧ o.runs.Nodup ∧ (∀ x ∈ c1, x ∈ c2) ∧ c2.Perm (c1 ++ c) ∧
      f c1 = .pass ∧ f c2 = .fail ∧ c ≠ [] ∧ ((∀ a, f a ≠ .unres) → ∃ x, c = [x]) := by
  obtain ⟨c, c1, c2, o, h, hi, a1, -, a3, a4, a5, a6, -, a8⟩ := C110_sets (test_once le f) hperm
    true deltas hd h0 h1 fu hfu Obj.fresh (Once.fresh f)
  exact ⟨c, c1, c2, o, h, hi.2, a1, a3, a4, a5, a6, a8⟩

/-- The sample test of `DD.py:1065-1073`. -/
def sampleTest (c : List Nat) : Out :=
  if 1 ∈ c ∧ 2 ∈ c ∧ 3 ∈ c ∧ 4 ∈ c ∧ 6 ∈ c ∧ 8 ∈ c then
    if 5 ∈ c ∧ 7 ∈ c then .unres else .fail
  else if 1 ∈ c ∨ 2 ∈ c ∨ 3 ∈ c ∨ 4 ∈ c ∨ 6 ∈ c ∨ 8 ∈ c then .unres
  else .pass

/-- The search of `main` (`DD.py:1095-1097`) on its sample test, with the deltas it can
tell apart. -/
example : (match dddiff (Obj.test ⟨true, false⟩ (fun a b => decide (a ≤ b)) sampleTest) true
      30 [1, 2, 3, 4, 6, 7, 8] Obj.fresh with
    | .ok ((c, c1, c2), _) => decide (c = [1, 2, 3, 4, 6, 8] ∧ c1 = [7] ∧
        c2 = [1, 2, 3, 4, 6, 7, 8])
    | _ => false) = true := by decide +kernel

/-- A test that looks at the order of the deltas. -/
def orderTest (c : List Nat) : Out :=
  if c = [1, 2, 3] ∨ c.head? = some 2 then .fail else .pass

/-- C110, negation for tests of lists: the search tests `cs[i] + c1` and returns
`c1 + cs[i]` (`DD.py:937-938`), so the configuration returned as failing may pass. -/
theorem C110_order_wrong : ¬ ∀ (f : List Nat → Out) (deltas c c1 c2 : List Nat)
    (o : Obj Nat), deltas.Nodup → f [] = .pass → f deltas = .fail →
    dddiff (Obj.test ⟨true, false⟩ (fun a b => decide (a ≤ b)) f) true 30 deltas Obj.fresh =
      .ok ((c, c1, c2), o) → f c2 = .fail := by
  intro h
  have e : ∃ o, dddiff (Obj.test ⟨true, false⟩ (fun a b => decide (a ≤ b)) orderTest) true 30
      [1, 2, 3] Obj.fresh = .ok (([2], [1], [1, 2]), o) := ⟨_, rfl⟩
  obtain ⟨o, e⟩ := e
  exact absurd (h orderTest [1, 2, 3] _ _ _ o (by decide) (by decide) (by decide) e) (by decide)

end Verif.Ddtool
