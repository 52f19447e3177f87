import Verif.Ddtool.DiffProps

/-!
# The searches for a minimal failing set, a maximal passing set, and both (C111)

`ddmin`, `ddmax` and `ddmix` of `DD.py:851-858` are one loop that asks of a candidate
whether it fails (`minimize`), whether the rest passes (`maximize`), or either.
-/

namespace Verif.Ddtool

variable {α σ : Type} [DecidableEq α]

/-- A candidate is good when it fails, or when what it leaves of all the deltas passes,
according to the two flags. -/
def GoodFor (f : List α → Out) (mini maxi : Bool) (cc c : List α) : Prop :=
  (mini = true ∧ f c = .fail) ∨ (maxi = true ∧ f (listminus cc c) = .pass)

theorem listunion_nil (c : List α) : listunion c [] = c := by simp [listunion]

theorem listminus_nil_right (c : List α) : listminus c [] = c := by simp [listminus]

theorem testResolve_nil {t : List α → σ → Res (Out × σ)} {f : List α → Out}
    {Inv : σ → Prop} (ht : Answers t f Inv) (c : List α) {s : σ} (hi : Inv s) :
    ∃ s', testResolve t c [] s = .ok (f c, c, s') ∧ Inv s' := by
  have := testResolve_spec ht (s := c) (r := []) (by simp) hi
  simpa using this

theorem opp_fail {v : Out} : v.opp = .fail ↔ v = .pass := by cases v <;> decide

theorem mixBar_spec {t : List α → σ → Res (Out × σ)} {f : List α → Out}
    {Inv : σ → Prop} (ht : Answers t f Inv) {cc c : List α} (hcc : cc.Nodup)
    (hc : c.Sublist cc) {s : σ} (hi : Inv s) :
    ∃ s', mixBar t cc c s = .ok ((f (listminus cc c)).opp, c, s') ∧ Inv s' := by
  obtain ⟨s', e, i'⟩ := testResolve_nil ht (listminus cc c) hi
  exact ⟨s', by simp only [mixBar, e, Res.ok_bind, listminus_minus hcc hc], i'⟩

/-- `test_mix` on a candidate: `FAIL` when it is good, and the candidate itself. -/
theorem mixTest_spec {t : List α → σ → Res (Out × σ)} {f : List α → Out}
    {Inv : σ → Prop} (ht : Answers t f Inv) {mini maxi : Bool} (hm : mini = true ∨ maxi = true)
    {cc c : List α} (hcc : cc.Nodup) (hc : c.Sublist cc) {s : σ} (hi : Inv s) :
    ∃ v s', mixTest t mini maxi cc c s = .ok (v, c, s') ∧ Inv s' ∧
      (v = .fail ↔ GoodFor f mini maxi cc c) := by
  unfold mixTest GoodFor
  cases mini with
  | true =>
    obtain ⟨s1, e1, i1⟩ := testResolve_nil ht c hi
    simp only [if_true, e1, Res.ok_bind]
    by_cases hf : f c = .fail
    · simp only [hf, if_true]
      exact ⟨_, s1, rfl, i1, by simp⟩
    · simp only [hf, if_false]
      cases maxi with
      | true =>
        obtain ⟨s2, e2, i2⟩ := mixBar_spec ht hcc hc i1
        simp only [if_true, e2]
        exact ⟨_, s2, rfl, i2, by simp [opp_fail]⟩
      | false => exact ⟨_, s1, rfl, i1, by simp [hf]⟩
  | false =>
    cases maxi with
    | false => simp at hm
    | true =>
      obtain ⟨s2, e2, i2⟩ := mixBar_spec ht hcc hc hi
      simp only [Bool.false_eq_true, if_false, if_true, e2]
      exact ⟨_, s2, rfl, i2, by simp [opp_fail]⟩

theorem genSubsets_spec {t : List α → σ → Res (Out × σ)} {f : List α → Out}
    {Inv : σ → Prop} (ht : Answers t f Inv) {mini maxi : Bool} (hm : mini = true ∨ maxi = true)
    {cc : List α} (hcc : cc.Nodup) : ∀ (cs : List (List α)) (s : σ), Inv s →
      (∀ x ∈ cs, x.Sublist cc) →
      ∃ o s', genSubsets t mini maxi cc cs s = .ok (o, cs, s') ∧ Inv s' ∧
        match o with
        | some x => x ∈ cs ∧ GoodFor f mini maxi cc x
        | none => ∀ x ∈ cs, ¬ GoodFor f mini maxi cc x
  | [], s, hi, _ => ⟨none, s, rfl, hi, by simp⟩
  | x :: cs, s, hi, hs => by
    obtain ⟨v, s1, e1, i1, hv⟩ := mixTest_spec ht hm hcc (hs x (by simp)) hi
    simp only [genSubsets, e1, Res.ok_bind]
    by_cases hf : v = .fail
    · rw [if_pos hf]
      exact ⟨some x, s1, rfl, i1, by simp, hv.1 hf⟩
    · rw [if_neg hf]
      obtain ⟨o, s2, e2, i2, ho⟩ := genSubsets_spec ht hm hcc cs s1 i1
        fun y hy => hs y (List.mem_cons_of_mem _ hy)
      simp only [e2, Res.ok_bind]
      refine ⟨o, s2, rfl, i2, ?_⟩
      cases o with
      | some y => exact ⟨List.mem_cons_of_mem _ ho.1, ho.2⟩
      | none =>
        intro y hy
        rcases List.mem_cons.1 hy with rfl | hy
        · exact fun hg => hf (hv.2 hg)
        · exact ho y hy

theorem genCompl_spec {t : List α → σ → Res (Out × σ)} {f : List α → Out}
    {Inv : σ → Prop} (ht : Answers t f Inv) {mini maxi : Bool} (hm : mini = true ∨ maxi = true)
    {cc c : List α} (hcc : cc.Nodup) (hc : c.Sublist cc) (cs : List (List α)) (n off : Nat) :
    ∀ (js : List Nat) (s : σ), Inv s →
      ∃ o s', genCompl t mini maxi cc c cs n off js s = .ok (o, s') ∧ Inv s' ∧
        match o with
        | some (i, b) => (∃ j ∈ js, i = (j + off) % n) ∧ b = listminus c (cs.getD i []) ∧
            GoodFor f mini maxi cc b
        | none => ∀ j ∈ js, ¬ GoodFor f mini maxi cc (listminus c (cs.getD ((j + off) % n) []))
  | [], s, hi => ⟨none, s, rfl, hi, by simp⟩
  | j :: js, s, hi => by
    obtain ⟨v, s1, e1, i1, hv⟩ := mixTest_spec ht hm hcc
      ((listminus_sublist c (cs.getD ((j + off) % n) [])).trans hc) hi
    simp only [genCompl, e1, Res.ok_bind]
    by_cases hf : v = .fail
    · rw [if_pos hf]
      exact ⟨_, s1, rfl, i1, ⟨j, by simp, rfl⟩, rfl, hv.1 hf⟩
    · rw [if_neg hf]
      obtain ⟨o, s2, e2, i2, ho⟩ := genCompl_spec ht hm hcc hc cs n off js s1 i1
      refine ⟨o, s2, e2, i2, ?_⟩
      cases o with
      | some y =>
        obtain ⟨i, b⟩ := y
        obtain ⟨⟨k, hk, hki⟩, h2⟩ := ho
        exact ⟨⟨k, List.mem_cons_of_mem _ hk, hki⟩, h2⟩
      | none =>
        intro k hk
        rcases List.mem_cons.1 hk with rfl | hk
        · exact fun hg => hf (hv.2 hg)
        · exact ho k hk

/-- What the search delivers: a part of the deltas, good (or all of them, and these do not
pass), that stops being good when any delta is left out. -/
structure IsMin (f : List α → Out) (mini maxi : Bool) (cc res : List α) : Prop where
  sub : res.Sublist cc
  ne : res ≠ []
  good : GoodFor f mini maxi cc res ∨ (res = cc ∧ f cc ≠ .pass)
  min : ∀ x ∈ res, ¬ GoodFor f mini maxi cc (res.filter fun y => decide (y ≠ x))

/-- How the search can end before: at a part of the deltas that passes although it is
good, because the rest passes too. -/
def Stuck (f : List α → Out) (maxi : Bool) (cc : List α) : Prop :=
  maxi = true ∧ ∃ c, c.Sublist cc ∧ c ≠ cc ∧ f c = .pass ∧ f (listminus cc c) = .pass

theorem not_good_nil {f : List α → Out} {mini maxi : Bool} {cc : List α} (h0 : f [] = .pass)
    (h1 : f cc ≠ .pass) : ¬ GoodFor f mini maxi cc [] := by
  rintro (⟨-, h⟩ | ⟨-, h⟩)
  · rw [h0] at h; cases h
  · rw [listminus_nil_right] at h; exact h1 h

theorem genLoop_spec {t u : List α → σ → Res (Out × σ)} {f : List α → Out}
    {Inv : σ → Prop} (ht : Answers t f Inv) (hu : Answers u f Inv) {mini maxi : Bool}
    (hm : mini = true ∨ maxi = true) {cc : List α} (hcc : cc.Nodup) (h0 : f [] = .pass)
    (h1 : f cc ≠ .pass) (unsafe_ : Bool) :
    ∀ (fu : Nat) (first : Bool) (c : List α) (n off : Nat) (s : σ), Inv s → c.Sublist cc →
      (GoodFor f mini maxi cc c ∧ c ≠ cc ∧ first = false ∨ c = cc) → 2 ≤ n →
      (n ≤ c.length ∨ c.length = 1) → rounds c.length n < fu →
      (∃ res s', genLoop t u unsafe_ mini maxi cc fu first c n off s = .ok (res, s') ∧
        Inv s' ∧ IsMin f mini maxi cc res) ∨
      (genLoop t u unsafe_ mini maxi cc fu first c n off s = .exit ∧ unsafe_ = false ∧
        Stuck f maxi cc) := by
  intro fu
  induction fu with
  | zero => intro first c n off s _ _ _ _ _ h; omega
  | succ fu ih =>
    intro first c n off s hi hc hg h2n hnl hfu
    obtain ⟨s1, e1, i1⟩ := hu c s hi
    simp only [genLoop, e1, Res.ok_bind]
    have hne : c ≠ [] := by
      rintro rfl
      simp only [List.length_nil] at hnl
      omega
    have hgood : GoodFor f mini maxi cc c ∨ (c = cc ∧ f cc ≠ .pass) :=
      hg.elim (fun h => .inl h.1) fun h => .inr ⟨h, h1⟩
    by_cases hx : f c = .pass ∧ (first = true ∨ unsafe_ = false)
    · rw [if_pos hx]
      right
      rcases hg with ⟨hg, hcne, hfst⟩ | rfl
      · refine ⟨rfl, hx.2.resolve_left (by simp [hfst]), ?_⟩
        rcases hg with ⟨-, h⟩ | ⟨hma, h⟩
        · rw [hx.1] at h; cases h
        · exact ⟨hma, c, hc, hcne, hx.1, h⟩
      · exact absurd hx.1 h1
    rw [if_neg hx]
    by_cases hlen : c.length < n
    · rw [if_pos hlen]
      left
      obtain ⟨x, rfl⟩ := List.length_eq_one_iff.1 (show c.length = 1 by omega)
      refine ⟨[x], s1, rfl, i1, hc, by simp, hgood, ?_⟩
      intro y hy
      rw [List.mem_singleton] at hy; subst hy
      simpa using not_good_nil h0 h1
    rw [if_neg hlen]
    have hnl : n ≤ c.length := by omega
    have hnd := hc.nodup hcc
    have hsp : ∀ x ∈ split c n, x.Sublist cc :=
      fun x hx => (split_sublist c n (by omega) hx).trans hc
    obtain ⟨o, s2, e2, i2, ho⟩ := genSubsets_spec ht hm hcc (split c n) s1 i1 hsp
    simp only [e2, Res.ok_bind]
    have ltcc : ∀ x : List α, x.length < c.length → x ≠ cc := by
      rintro x hx rfl
      have := hc.length_le
      omega
    cases o with
    | some x =>
      obtain ⟨hx1, hx2⟩ := ho
      have hpos : 1 ≤ x.length := List.length_pos_iff.2 (split_ne_nil c n (by omega) hnl x hx1)
      have h3 := length_compl (by omega) hnl hnd hx1
      have h4 := length_listminus hnd (split_sublist c n (by omega) hx1)
      refine ih false x 2 0 s2 i2 (hsp x hx1) (.inl ⟨hx2, ltcc x (by omega), rfl⟩) (Nat.le_refl _)
        (by omega) ?_
      have := rounds_lt (l := c.length) (l' := x.length) (n := n) (n' := 2) (by omega)
        (by omega) hnl
      omega
    | none =>
      obtain ⟨o, s3, e3, i3, hb⟩ := genCompl_spec ht hm hcc hc (split c n) n off
        (List.range n) s2 i2
      simp only [e3, Res.ok_bind]
      cases o with
      | some ib =>
        obtain ⟨i, b⟩ := ib
        obtain ⟨⟨j, hj, hji⟩, rfl, hgb⟩ := hb
        have hmem : (split c n).getD i [] ∈ split c n :=
          getD_mem (by rw [split_length, hji]; exact Nat.mod_lt _ (by omega))
        have h3 := length_compl (by omega) hnl hnd hmem
        have hn3 : 3 ≤ n := by
          by_contra hlt
          have hn2 : n = 2 := by omega
          subst hn2
          exact ho _ (compl_two hnl hnd hmem) hgb
        have hbs := listminus_sublist c ((split c n).getD i [])
        have hin : listintersect c (listminus c ((split c n).getD i [])) =
            listminus c ((split c n).getD i []) := filter_sub hnd hbs
        simp only [hin]
        refine ih false _ (n - 1) i s3 i3 (hbs.trans hc)
          (.inl ⟨hgb, ltcc _ h3.2, rfl⟩) (by omega) (.inl h3.1) ?_
        have := rounds_lt (n := n) (n' := n - 1) h3.2 (by omega) hnl
        omega
      | none =>
        simp only
        by_cases hle : c.length ≤ n
        · rw [if_pos hle]
          left
          have hnn : n = c.length := by omega
          refine ⟨c, s3, rfl, i3, hc, hne, hgood, fun x hx => ?_⟩
          obtain ⟨i, hi, hxi⟩ := List.getElem_of_mem hx
          obtain ⟨j, hj, hji⟩ := exists_shift (n := n) off i (by omega)
          have := hb j hj
          rw [hji, hnn, split_self_singletons c (by omega)] at this
          have e1 : ((c.map fun x => [x]).getD i []) = [x] := by
            rw [List.getD_eq_getElem?_getD, List.getElem?_eq_getElem (by simpa using hi)]
            simp [hxi]
          rw [e1] at this
          have e2 : listminus c [x] = c.filter fun y => decide (y ≠ x) := by
            unfold listminus; apply List.filter_congr; intro y _; simp
          rwa [e2] at this
        · rw [if_neg hle]
          refine ih false c (min c.length (n * 2)) _ s3 i3 hc ?_ (by omega)
            (.inl (Nat.min_le_left _ _)) ?_
          · rcases hg with ⟨a, b, -⟩ | h
            · exact .inl ⟨a, b, rfl⟩
            · exact .inr h
          · unfold rounds at hfu ⊢; omega

/-- C111: for every test that passes on no delta and does not pass on all of them, each of
the three searches ends: with a part of the deltas that is good and that is no longer good
when any delta is left out; or with an error, which only happens when something is searched
by its rest, and some part of the deltas passes as well as its rest. -/
theorem C111_ddgen_partial {t u : List α → σ → Res (Out × σ)} {f : List α → Out}
    {Inv : σ → Prop} (ht : Answers t f Inv) (hu : Answers u f Inv) (mini maxi : Bool)
    (hm : mini = true ∨ maxi = true) (deltas : List α) (hd : deltas.Nodup)
    (h0 : f [] = .pass) (h1 : f deltas ≠ .pass) (unsafe_ : Bool) (fu : Nat)
    (hfu : enough deltas.length ≤ fu) (s : σ) (hi : Inv s) :
    (∃ res s', ddgen t u unsafe_ fu deltas mini maxi s = .ok (res, s') ∧ Inv s' ∧
      IsMin f mini maxi deltas res) ∨
    (ddgen t u unsafe_ fu deltas mini maxi s = .exit ∧ unsafe_ = false ∧
      Stuck f maxi deltas) := by
  obtain ⟨s1, e1, i1⟩ := ht [] s hi
  simp only [ddgen, e1, Res.ok_bind, h0, if_true]
  have hne : deltas ≠ [] := by rintro rfl; exact h1 h0
  have hpos := List.length_pos_iff.2 hne
  exact genLoop_spec ht hu hm hd h0 h1 unsafe_ fu true deltas 2 0 s1 i1 (List.Sublist.refl _)
    (.inr rfl) (Nat.le_refl _) (by omega) (Nat.lt_of_lt_of_le rounds_enough hfu)

/-- C111: `ddmin` ends without an error, with a part of the deltas that fails (or all of
them, unresolved) and does not fail when any delta is left out. -/
theorem C111_ddmin {t u : List α → σ → Res (Out × σ)} {f : List α → Out}
    {Inv : σ → Prop} (ht : Answers t f Inv) (hu : Answers u f Inv) (deltas : List α)
    (hd : deltas.Nodup) (h0 : f [] = .pass) (h1 : f deltas ≠ .pass) (unsafe_ : Bool)
    (fu : Nat) (hfu : enough deltas.length ≤ fu) (s : σ) (hi : Inv s) :
    ∃ res s', ddminGen t u unsafe_ fu deltas s = .ok (res, s') ∧ Inv s' ∧
      res.Sublist deltas ∧ res ≠ [] ∧ (f res = .fail ∨ res = deltas) ∧
      ∀ x ∈ res, f (res.filter fun y => decide (y ≠ x)) ≠ .fail := by
  rcases C111_ddgen_partial ht hu true false (.inl rfl) deltas hd h0 h1 unsafe_ fu hfu s hi with
    ⟨res, s', e, i', h⟩ | ⟨-, -, h, -⟩
  · refine ⟨res, s', e, i', h.sub, h.ne, ?_, fun x hx hf => h.min x hx (.inl ⟨rfl, hf⟩)⟩
    rcases h.good with (⟨-, h⟩ | ⟨h, -⟩) | h
    · exact .inl h
    · cases h
    · exact .inr h.1
  · cases h

/-- C111: `ddmax`, for a test with no part of the deltas passing together with its rest
(or with `VERROU_DD_UNSAFE` set): the deltas outside of the result pass, or the result is
all of them, and putting any delta of the result back does not pass. -/
theorem C111_ddmax_partial {t u : List α → σ → Res (Out × σ)} {f : List α → Out}
    {Inv : σ → Prop} (ht : Answers t f Inv) (hu : Answers u f Inv) (deltas : List α)
    (hd : deltas.Nodup) (h0 : f [] = .pass) (h1 : f deltas ≠ .pass) (unsafe_ : Bool)
    (hs : unsafe_ = true ∨ ∀ c, c.Sublist deltas → f c = .pass → f (listminus deltas c) ≠ .pass ∨
      c = deltas)
    (fu : Nat) (hfu : enough deltas.length ≤ fu) (s : σ) (hi : Inv s) :
    ∃ res s', ddmaxGen t u unsafe_ fu deltas s = .ok (res, s') ∧ Inv s' ∧
      res.Sublist deltas ∧ res ≠ [] ∧ f (listminus deltas res) = .pass ∧
      ∀ x ∈ res, f (listminus deltas (res.filter fun y => decide (y ≠ x))) ≠ .pass := by
  rcases C111_ddgen_partial ht hu false true (.inr rfl) deltas hd h0 h1 unsafe_ fu hfu s hi with
    ⟨res, s', e, i', h⟩ | ⟨-, hun, -, c, hc, hcn, hp, hq⟩
  · refine ⟨res, s', e, i', h.sub, h.ne, ?_, fun x hx hf => h.min x hx (.inr ⟨rfl, hf⟩)⟩
    rcases h.good with (⟨h, -⟩ | ⟨-, h⟩) | h
    · cases h
    · exact h
    · have e : listminus deltas deltas = [] := by simp [listminus]
      rw [h.1, e, h0]
  · rw [hun] at hs
    exact absurd hq (((hs.resolve_left (by simp)) c hc hp).resolve_right hcn)

/-! ## With the cache of outcomes -/

/-- The tree of the object holds outcomes of the test. -/
def Cached (f : List α → Out) (o : Obj α) : Prop := ∃ seen, Holds f seen o

theorem test_cachedInv (le : α → α → Bool) (f : List α → Out) :
    Answers (Obj.test ⟨true, false⟩ le f) f (Cached f) := by
  rintro c o ⟨seen, h⟩
  obtain ⟨o', e, h'⟩ := test_cached (le := le) h c
  refine ⟨o', e, ?_⟩
  by_cases hc : c ∈ seen
  · rw [if_pos hc] at h'; exact ⟨seen, h' ▸ h⟩
  · rw [if_neg hc] at h'; exact ⟨_, h'.1⟩

theorem run_cachedInv (f : List α → Out) : Answers (Obj.run f) f (Cached f) := by
  rintro c o ⟨seen, h⟩
  exact ⟨_, rfl, seen, h⟩

/-- C111: `ddmin` of a `DD` object as it is created. -/
theorem C111_object (le : α → α → Bool) (f : List α → Out) (deltas : List α)
    (hd : deltas.Nodup) (h0 : f [] = .pass) (h1 : f deltas ≠ .pass) (unsafe_ : Bool)
    (fu : Nat) (hfu : enough deltas.length ≤ fu) :
    ∃ res o, ddminGen (Obj.test ⟨true, false⟩ le f) (Obj.run f) unsafe_ fu deltas Obj.fresh =
        .ok (res, o) ∧ res.Sublist deltas ∧ (f res = .fail ∨ res = deltas) ∧
      ∀ x ∈ res, f (res.filter fun y => decide (y ≠ x)) ≠ .fail := by
  obtain ⟨res, o, h, -, a, -, b, c⟩ := C111_ddmin (test_cachedInv le f) (run_cachedInv f) deltas
    hd h0 h1 unsafe_ fu hfu Obj.fresh ⟨[], Holds.fresh f⟩
  exact ⟨res, o, h, a, b, c⟩

/-- The search of `main`, `DD.py:1089-1092`. -/
example : (match ddminGen (Obj.test ⟨true, false⟩ (fun a b => decide (a ≤ b)) sampleTest)
      (Obj.run sampleTest) false 30 [1, 2, 3, 4, 5, 6, 7, 8] Obj.fresh with
    | .ok (r, _) => decide (r = [1, 2, 3, 4, 6, 8])
    | _ => false) = true := by decide +kernel

/-- Two deltas fail together, each one passes. -/
def pairTest (c : List Nat) : Out := if 2 ≤ c.length then .fail else .pass

/-- C111, negation: `ddmax` ends with "test([all deltas]) == PASS" although all deltas
together fail: the loop tests its candidate as `ddmin` does, not its rest.
(`interflop_dd_max` tests in the first round only.) -/
theorem C111_ddmax_wrong : ¬ ∀ (f : List Nat → Out) (deltas : List Nat), deltas.Nodup →
    f [] = .pass → f deltas = .fail →
    ddmaxGen (Obj.test ⟨true, false⟩ (fun a b => decide (a ≤ b)) f) (Obj.run f) false 30 deltas
      Obj.fresh ≠ .exit := by
  intro h
  exact h pairTest [1, 2] (by decide) (by decide) (by decide) rfl

example : (match ddmaxGen (Obj.test ⟨true, false⟩ (fun a b => decide (a ≤ b)) both12)
      (Obj.run both12) true 30 [1, 2, 3] Obj.fresh with
    | .ok (r, _) => decide (r = [1])
    | _ => false) = true := by decide +kernel

end Verif.Ddtool
