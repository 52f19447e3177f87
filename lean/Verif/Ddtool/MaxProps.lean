import Verif.Ddtool.MinProps

/-!
# ddmax (C41)
-/

namespace Verif.Ddtool

variable {α K : Type} [DecidableEq α] [DecidableEq K]

theorem maxLoop_spec {e : Env α K} (he : Seq e) {B : Nat} (hN : e.nbRUN ≤ B) {cc c : List α}
    (hcc : cc.Nodup) (hc : c.Sublist cc) (cs : List (List α)) (n off : Nat) :
    ∀ (js : List Nat) (d : Disk K), Good e B d →
      ∃ r d', maxLoop e cc c cs n off js d = .ok (r, d') ∧ Good e B d' ∧ Ext e.nbRUN d d' ∧
        (∀ i s, r = some (i, s) → (∃ j ∈ js, i = (j + off) % n) ∧
          s = listminus c (cs.getD i []) ∧ Passes d' (e.name (listminus cc s)) e.nbRUN ∧
          ¬ Fails d (e.name (listminus cc s))) ∧
        (r = none → ∀ j ∈ js,
          Fails d' (e.name (listminus cc (listminus c (cs.getD ((j + off) % n) []))))) := by
  intro js
  induction js with
  | nil => intro d hg; exact ⟨none, d, rfl, hg, Ext.refl _ _, by simp, by simp⟩
  | cons j js ih =>
    intro d hg
    have hsub : (listminus c (cs.getD ((j + off) % n) [])).Sublist cc :=
      (listminus_sublist _ _).trans hc
    obtain ⟨v, d1, h1, ht, hfl, -⟩ := test_spec e he.seq he.ord B
      (listminus cc (listminus c (cs.getD ((j + off) % n) []))) e.nbRUN hN d hg
    simp only [maxLoop, testMix, h1, Res.ok_bind, listminus_minus hcc hsub]
    cases v with
    | pass =>
      refine ⟨some _, d1, rfl, ht.good, ht.ext, fun i t h => ?_, by simp⟩
      cases h
      exact ⟨⟨j, by simp, rfl⟩, rfl, ht.pass rfl, fun h => by simpa using (hfl h).1⟩
    | fail =>
      obtain ⟨r, d2, h2, g2, x2, f2, p2⟩ := ih d1 ht.good
      refine ⟨r, d2, by simpa using h2, g2, ht.ext.trans x2, fun i t h => ?_, fun h i him => ?_⟩
      · obtain ⟨⟨j', a, b⟩, c1, c2, c3⟩ := f2 i t h
        exact ⟨⟨j', List.mem_cons_of_mem _ a, b⟩, c1, c2,
          fun hp => c3 (ht.ext.fails hp)⟩
      · rcases List.mem_cons.1 him with rfl | him
        · exact x2.fails (ht.fail rfl)
        · exact p2 h i him

theorem listminus_nil (c : List α) : listminus c [] = c := by simp [listminus]

theorem listminus_self (c : List α) : listminus c c = [] := by simp [listminus]

theorem ddmaxLoop_spec {e : Env α K} (he : Seq e) {B : Nat} (hN : e.nbRUN ≤ B) {cc : List α}
    (hcc : cc.Nodup) :
    ∀ (f : Nat) (first : Bool) (c : List α) (n off : Nat) (d : Disk K), Good e B d →
      Fails d (e.name cc) → c.Sublist cc → c ≠ [] → (first = true → c = cc) →
      Passes d (e.name (listminus cc c)) e.nbRUN → 1 ≤ n →
      (n ≤ c.length ∨ (c = cc ∧ c.length = 1)) → rounds c.length n < f →
      ∃ res d', ddmaxLoop e cc f first c n off d = .ok (res, d') ∧ Good e B d' ∧
        Ext e.nbRUN d d' ∧ res.Sublist cc ∧ Passes d' (e.name (listminus cc res)) e.nbRUN ∧
        ∀ x ∈ res, Fails d' (e.name (listminus cc (listminus res [x]))) := by
  intro f
  induction f with
  | zero => intro _ c n off d _ _ _ _ _ _ _ _ h; omega
  | succ f ih =>
    intro first c n off d hg hf hsub hne hfirst hp h1n hnl hfu
    obtain ⟨v, d1, h1, ht, hfl, -⟩ := test_spec e he.seq he.ord B c e.nbRUN hN d hg
    have hnot : ¬ (v = .pass ∧ first = true) := by
      rintro ⟨rfl, h⟩
      have := (hfl (by rw [hfirst h]; exact hf)).1
      cases this
    simp only [ddmaxLoop, h1, Res.ok_bind]
    rw [if_neg hnot]
    have hf1 := ht.ext.fails hf
    have hp1 := ht.ext.passes (Nat.le_refl _) hp
    by_cases hlen : c.length < n
    · rw [if_pos hlen]
      obtain ⟨rfl, hl1⟩ : c = cc ∧ c.length = 1 := hnl.resolve_left (by omega)
      obtain ⟨x, rfl⟩ := List.length_eq_one_iff.1 hl1
      refine ⟨[x], d1, rfl, ht.good, ht.ext, List.Sublist.refl _, hp1, ?_⟩
      intro y hy
      rw [List.mem_singleton] at hy; subst hy
      rw [listminus_self, listminus_nil]; exact hf1
    rw [if_neg hlen]
    have hnl : n ≤ c.length := by omega
    have hnd := hsub.nodup hcc
    obtain ⟨r, d3, h3, g3, x3, f3, p3⟩ := maxLoop_spec he hN hcc hsub (split c n) n off
      (List.range n) d1 ht.good
    simp only [h3, Res.ok_bind]
    cases r with
    | some is =>
      obtain ⟨i, s⟩ := is
      obtain ⟨⟨j, hj, hi⟩, hs, hps, hnp⟩ := f3 i s rfl
      have hin : i < (split c n).length := by
        rw [split_length, hi]; exact Nat.mod_lt _ (by omega)
      have hmem := getD_mem hin
      have hlen' := length_compl (by omega) hnl hnd hmem
      rw [← hs] at hlen'
      have hn2 : 2 ≤ n := by
        by_contra hlt
        have hn1 : n = 1 := by omega
        subst hn1
        have e1 : split c 1 = [c] := by simp [split_succ, split_zero]
        have hcs : (split c 1).getD i [] = c := by
          have := hmem
          rw [e1] at this ⊢
          exact List.mem_singleton.1 this
        rw [hs, hcs, listminus_self, listminus_nil] at hnp
        exact hnp hf1
      have hsubc : s.Sublist c := hs ▸ listminus_sublist _ _
      have hint : listintersect c s = s := filter_sub hnd hsubc
      simp only [hint]
      obtain ⟨res, d', h, g, x, hm⟩ := ih false s (n - 1) i d3 g3 (x3.fails hf1)
        (hsubc.trans hsub) (List.length_pos_iff.1 (by omega)) (by simp) hps (by omega)
        (.inl hlen'.1) (by
          have := rounds_lt (n := n) (n' := n - 1) hlen'.2 (by omega) hnl
          omega)
      exact ⟨res, d', h, g, (ht.ext.trans x3).trans x, hm⟩
    | none =>
      simp only
      by_cases hle : c.length ≤ n
      · rw [if_pos hle]
        have hnn : n = c.length := by omega
        refine ⟨c, d3, rfl, g3, ht.ext.trans x3, hsub, x3.passes (Nat.le_refl _) hp1,
          fun x hx => ?_⟩
        obtain ⟨i, hi, hxi⟩ := List.getElem_of_mem hx
        obtain ⟨j, hj, hji⟩ := exists_shift (n := n) off i (by omega)
        have := p3 rfl j hj
        rw [hji, hnn, split_self_singletons c (by omega)] at this
        have e1 : ((c.map fun x => [x]).getD i []) = [x] := by
          rw [List.getD_eq_getElem?_getD, List.getElem?_eq_getElem (by simpa using hi)]
          simp [hxi]
        rwa [e1] at this
      · rw [if_neg hle]
        obtain ⟨res, d', h, g, x, hm⟩ := ih false c (min c.length (n * 2))
          (off * (min c.length (n * 2)) / n) d3 g3 (x3.fails hf1) hsub hne (by simp)
          (x3.passes (Nat.le_refl _) hp1) (by omega)
          (.inl (Nat.min_le_left _ _)) (by
            unfold rounds at hfu ⊢
            omega)
        exact ⟨res, d', h, g, (ht.ext.trans x3).trans x, hm⟩

/-- C41: on any list of distinct deltas, when the empty configuration passes all samples
and the whole list fails one, `DDMax` terminates with a sublist of the deltas that passes
`nbRUN` samples and such that adding any other delta makes a sample fail. -/
theorem C41_ddmax {e : Env α K} (he : Seq e) (B : Nat) (hB : e.nbRUN ≤ B) (fuel : Nat)
    (c : List α) (hnd : c.Nodup) (hfuel : enough c.length ≤ fuel) (d : Disk K)
    (hg : Good e B d) (hempty : ∀ i < B, e.sample (e.name []) i = true)
    (hall : ∃ i < e.nbRUN, e.sample (e.name c) i = false) :
    ∃ keep d', ddmax e fuel c d = .ok (keep, d') ∧ keep.Sublist c ∧
      (∀ i < e.nbRUN, e.sample (e.name keep) i = true) ∧
      ∀ x ∈ c, x ∉ keep →
        ∃ i < B, e.sample (e.name (c.filter fun y => decide (y ∈ keep ∨ y = x))) i = false := by
  obtain ⟨v, d1, h1, ht, -, -⟩ := test_spec e he.seq he.ord B [] e.nbRUN hB d hg
  have hv : v = .pass := by
    cases v with
    | pass => rfl
    | fail =>
      obtain ⟨i, hi, h⟩ := ht.good.fails (ht.fail rfl)
      rw [hempty i hi] at h; cases h
  subst hv
  obtain ⟨v, d2, h2, ht2, -, -⟩ := test_spec e he.seq he.ord B c e.nbRUN hB d1 ht.good
  have hv : v = .fail := by
    cases v with
    | fail => rfl
    | pass =>
      obtain ⟨i, hi, h⟩ := hall
      rw [ht2.good.passes (ht2.pass rfl) i hi] at h; cases h
  subst hv
  have hp0 := ht2.ext.passes (Nat.le_refl _) (ht.pass rfl)
  have hf2 := ht2.fail rfl
  have hne : c ≠ [] := by
    rintro rfl
    exact hf2.not_passes hp0
  obtain ⟨res, d3, h3, g3, x3, hs, hp, hm⟩ := ddmaxLoop_spec he hB hnd fuel true c 2 0 d2 ht2.good
    hf2 (List.Sublist.refl _) hne (fun _ => rfl) (by rw [listminus_self]; exact hp0) (by omega)
    (by
      have := List.length_pos_iff.2 hne
      rcases Nat.lt_or_ge c.length 2 with h | h
      · exact .inr ⟨rfl, by omega⟩
      · exact .inl h)
    (by have := rounds_enough (len := c.length) (n := 2); omega)
  have h3' : ddmaxLoop e c fuel true c 2 0 d1 = .ok (res, d3) := by
    have hpos : 1 ≤ fuel := by
      have : 1 ≤ enough c.length := Nat.mul_pos (by omega) (by omega)
      omega
    obtain ⟨f, rfl⟩ : ∃ f, fuel = f + 1 := ⟨fuel - 1, by omega⟩
    obtain ⟨v, d2', h2', -, hfl, -⟩ := test_spec e he.seq he.ord B c e.nbRUN hB d2 ht2.good
    obtain ⟨rfl, rfl⟩ := hfl hf2
    rw [← h3]
    simp only [ddmaxLoop, h2, h2']
  obtain ⟨v4, d4, h4, ht4, -, -⟩ := test_spec e he.seq he.ord B (listminus c res) e.nbRUN hB d3 g3
  obtain ⟨v5, d5, h5, ht5, -, -⟩ := test_spec e he.seq he.ord B res e.nbRUN hB d4 ht4.good
  refine ⟨listminus c res, d5, by simp [ddmax, h1, h3', h4, h5], listminus_sublist _ _,
    g3.passes hp, fun x hx hxk => ?_⟩
  have hxr : x ∈ res := by
    by_contra hno
    exact hxk (mem_listminus.2 ⟨hx, hno⟩)
  have := g3.fails (hm x hxr)
  have e1 : listminus c (listminus res [x]) =
      c.filter fun y => decide (y ∈ listminus c res ∨ y = x) := by
    unfold listminus
    apply List.filter_congr
    intro y hy
    have : (¬ (y ∈ List.filter (fun d => decide (d ∉ [x])) res)) ↔
        (y ∈ List.filter (fun d => decide (d ∉ res)) c ∨ y = x) := by
      simp only [List.mem_filter, List.mem_singleton, decide_eq_true_eq, not_and,
        Decidable.not_not, hy, true_and]
      tauto
    simp only [this]
  rw [e1] at this
  exact this

/-- Five deltas, the failure needs 2 and 4 together: all but one of them can be kept. -/
example :
    let e : Env Nat (List Nat) :=
      ⟨id, fun k i => decide (i = 0 ∨ ¬ (2 ∈ k ∧ 4 ∈ k)), id, false, 2, false⟩
    (match ddmax e 49 [1, 2, 3, 4, 5] (fun _ => []) with
      | .ok (r, _) => some r | _ => none) = some [1, 2, 3, 5] := by decide +kernel

/-- C41: the deterministic case. -/
theorem C41_deterministic (ok : List α → Bool) (nbRun : Nat) (hn : 1 ≤ nbRun) (c : List α)
    (hnd : c.Nodup) (h0 : ok [] = true) (h1 : ok c = false) (fuel : Nat)
    (hfuel : enough c.length ≤ fuel) (u : Bool) :
    ∃ keep d', ddmax (K := List α) ⟨id, fun k _ => ok k, id, false, nbRun, u⟩ fuel c
        (fun _ => []) = .ok (keep, d') ∧ keep.Sublist c ∧ ok keep = true ∧
      ∀ x ∈ c, x ∉ keep → ok (c.filter fun y => decide (y ∈ keep ∨ y = x)) = false := by
  obtain ⟨keep, d', h, a, b, m⟩ :=
    C41_ddmax (K := List α) (e := ⟨id, fun k _ => ok k, id, false, nbRun, u⟩)
      ⟨rfl, fun l => List.Perm.refl _⟩ nbRun (Nat.le_refl _) fuel c hnd hfuel
      (fun _ => []) (fun k i b h => by simp at h) (fun _ _ => h0) ⟨0, hn, h1⟩
  refine ⟨keep, d', h, a, b 0 hn, fun x hx hk => ?_⟩
  obtain ⟨i, -, h⟩ := m x hx hk
  exact h

end Verif.Ddtool
