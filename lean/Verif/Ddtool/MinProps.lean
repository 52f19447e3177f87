import Verif.Ddtool.TestProps
import Mathlib.Tactic.Linarith

/-!
# ddmin (C40)
-/

namespace Verif.Ddtool

variable {α K : Type} [DecidableEq α] [DecidableEq K]

/-- The tool runs the samples one after the other (the default); `os.listdir` may
enumerate directories in any order. -/
structure Seq (e : Env α K) : Prop where
  seq : e.par = false
  ord : ∀ l, (e.ord l).Perm l

theorem subsetsLoop_spec {e : Env α K} (he : Seq e) {B N : Nat} (hN : N ≤ B) :
    ∀ (L : List (List α)) (d : Disk K), Good e B d →
      ∃ r d', subsetsLoop (fun c => test e c N) L d = .ok (r, d') ∧ Good e B d' ∧ Ext N d d' ∧
        (∀ s, r = some s → s ∈ L ∧ Fails d' (e.name s)) ∧
        (r = none → ∀ s ∈ L, Passes d' (e.name s) N) := by
  intro L
  induction L with
  | nil => intro d hg; exact ⟨none, d, rfl, hg, Ext.refl _ _, by simp, by simp⟩
  | cons s L ih =>
    intro d hg
    obtain ⟨v, d1, h1, ht, -, -⟩ := test_spec e he.seq he.ord B s N hN d hg
    simp only [subsetsLoop, h1, Res.ok_bind]
    cases v with
    | fail =>
      refine ⟨some s, d1, rfl, ht.good, ht.ext, fun t h => ?_, by simp⟩
      cases h; exact ⟨by simp, ht.fail rfl⟩
    | pass =>
      obtain ⟨r, d2, h2, g2, x2, f2, p2⟩ := ih d1 ht.good
      refine ⟨r, d2, by simpa using h2, g2, ht.ext.trans x2, fun t h => ?_, fun h t htm => ?_⟩
      · exact ⟨List.mem_cons_of_mem _ (f2 t h).1, (f2 t h).2⟩
      · rcases List.mem_cons.1 htm with rfl | htm
        · exact x2.passes (Nat.le_refl _) (ht.pass rfl)
        · exact p2 h t htm

theorem complLoop_spec {e : Env α K} (he : Seq e) {B N : Nat} (hN : N ≤ B) (c : List α)
    (cs : List (List α)) (n off : Nat) :
    ∀ (js : List Nat) (d : Disk K), Good e B d →
      ∃ r d', complLoop (fun c => test e c N) c cs n off js d = .ok (r, d') ∧ Good e B d' ∧
        Ext N d d' ∧
        (∀ i s, r = some (i, s) → (∃ j ∈ js, i = (j + off) % n) ∧
          s = listminus c (cs.getD i []) ∧ Fails d' (e.name s) ∧
          ¬ Passes d (e.name s) N) ∧
        (r = none → ∀ j ∈ js, Passes d' (e.name (listminus c (cs.getD ((j + off) % n) []))) N) := by
  intro js
  induction js with
  | nil => intro d hg; exact ⟨none, d, rfl, hg, Ext.refl _ _, by simp, by simp⟩
  | cons j js ih =>
    intro d hg
    obtain ⟨v, d1, h1, ht, -, hp⟩ := test_spec e he.seq he.ord B
      (listminus c (cs.getD ((j + off) % n) [])) N hN d hg
    simp only [complLoop, h1, Res.ok_bind]
    cases v with
    | fail =>
      refine ⟨some _, d1, rfl, ht.good, ht.ext, fun i t h => ?_, by simp⟩
      cases h
      exact ⟨⟨j, by simp, rfl⟩, rfl, ht.fail rfl, fun h => by simpa using (hp h).1⟩
    | pass =>
      obtain ⟨r, d2, h2, g2, x2, f2, p2⟩ := ih d1 ht.good
      refine ⟨r, d2, by simpa using h2, g2, ht.ext.trans x2, fun i t h => ?_, fun h i him => ?_⟩
      · obtain ⟨⟨j', a, b⟩, c1, c2, c3⟩ := f2 i t h
        exact ⟨⟨j', List.mem_cons_of_mem _ a, b⟩, c1, c2,
          fun hp => c3 (ht.ext.passes (Nat.le_refl _) hp)⟩
      · rcases List.mem_cons.1 him with rfl | him
        · exact x2.passes (Nat.le_refl _) (ht.pass rfl)
        · exact p2 h i him

/-- Every index is visited once the offset is added modulo `n`. -/
theorem exists_shift {n : Nat} (off i : Nat) (hi : i < n) : ∃ j ∈ List.range n, (j + off) % n = i := by
  refine ⟨(i + (n - off % n)) % n, List.mem_range.2 (Nat.mod_lt _ (by omega)), ?_⟩
  have h1 : off % n < n := Nat.mod_lt _ (by omega)
  rw [Nat.mod_add_mod, Nat.add_mod]
  have h2 : (i + (n - off % n) + off) = i + n + n * (off / n) := by
    have := Nat.mod_add_div off n; omega
  rw [← Nat.add_mod, h2, Nat.add_mul_mod_self_left, Nat.add_mod_right, Nat.mod_eq_of_lt hi]

theorem getD_mem {L : List (List α)} {i : Nat} (h : i < L.length) : L.getD i [] ∈ L := by
  rw [List.getD_eq_getElem?_getD, List.getElem?_eq_getElem h]; simp

/-- Bound on the number of rounds. -/
def rounds (len n : Nat) : Nat := len * (len + 2) + (len + 1 - n)

theorem rounds_lt {l l' n n' : Nat} (h : l' < l) (h1 : 1 ≤ n') (hn : n ≤ l) :
    rounds l' n' < rounds l n := by
  unfold rounds
  obtain ⟨k, rfl⟩ : ∃ k, l = l' + 1 + k := ⟨l - (l' + 1), by omega⟩
  have : (l' + 1 + k) * (l' + 1 + k + 2) = l' * (l' + 2) + 2 * l' + 3 + k * (l' + 1 + k + 2) +
    l' * k + k := by ring
  rw [this]
  have := Nat.zero_le (k * (l' + 1 + k + 2))
  have := Nat.zero_le (l' * k)
  omega

/-- What a search for a minimal failing set delivers. -/
structure Minimal (e : Env α K) (N : Nat) (c res : List α) (d : Disk K) : Prop where
  sub : res.Sublist c
  ne : res ≠ []
  fails : Fails d (e.name res)
  min : ∀ x ∈ res, Passes d (e.name (res.filter fun y => decide (y ≠ x))) N

theorem ddminLoop_spec {e : Env α K} (he : Seq e) {B N : Nat} (hN : N ≤ B) :
    ∀ (f : Nat) (first : Bool) (c : List α) (n off : Nat) (d : Disk K), Good e B d →
      Fails d (e.name c) → c.Nodup → c ≠ [] → Passes d (e.name []) N → 2 ≤ n →
      (n ≤ c.length ∨ c.length = 1) → rounds c.length n < f →
      ∃ res d', ddminLoop e N f first c n off d = .ok (res, d') ∧ Good e B d' ∧ Ext N d d' ∧
        Minimal e N c res d' := by
  intro f
  induction f with
  | zero => intro _ c n off d _ _ _ _ _ _ _ h; omega
  | succ f ih =>
    intro first c n off d hg hf hnd hne hp0 h2n hnl hfu
    obtain ⟨v, d1, h1, ht, hfl, -⟩ := test_spec e he.seq he.ord B c N hN d hg
    obtain ⟨rfl, rfl⟩ := hfl hf
    simp only [ddminLoop, h1, Res.ok_bind, reduceCtorEq, false_and, if_false]
    by_cases hlen : c.length < n
    · rw [if_pos hlen]
      have hl1 : c.length = 1 := by omega
      obtain ⟨x, rfl⟩ := List.length_eq_one_iff.1 hl1
      refine ⟨[x], d1, rfl, hg, Ext.refl _ _, List.Sublist.refl _, by simp, hf, ?_⟩
      intro y hy
      rw [List.mem_singleton] at hy; subst hy
      simpa using hp0
    rw [if_neg hlen]
    have hnl : n ≤ c.length := by omega
    obtain ⟨r, d2, h2, g2, x2, f2, p2⟩ := subsetsLoop_spec he hN (split c n) d1 hg
    simp only [h2, Res.ok_bind]
    cases r with
    | some s =>
      obtain ⟨hs, hfs⟩ := f2 s rfl
      have hsub := split_sublist c n (by omega) hs
      have hsne := split_ne_nil c n (by omega) hnl s hs
      have hlt := (length_compl (by omega) hnl hnd hs)
      have hll := length_listminus hnd hsub
      have hspos : 1 ≤ s.length := List.length_pos_iff.2 hsne
      obtain ⟨res, d', h, g, x, hm⟩ := ih false s 2 0 d2 g2 hfs (hsub.nodup hnd) hsne
        (x2.passes (Nat.le_refl _) hp0) (Nat.le_refl _) (by omega)
        (by
          have := rounds_lt (l := c.length) (l' := s.length) (n := n) (n' := 2) (by omega)
            (by omega) hnl
          omega)
      exact ⟨res, d', h, g, x2.trans x, hm.sub.trans hsub, hm.ne, hm.fails, hm.min⟩
    | none =>
      obtain ⟨r, d3, h3, g3, x3, f3, p3⟩ := complLoop_spec he hN c (split c n) n off
        (List.range n) d2 g2
      simp only [h3, Res.ok_bind]
      cases r with
      | some is =>
        obtain ⟨i, s⟩ := is
        obtain ⟨⟨j, hj, hi⟩, hs, hfs, hnp⟩ := f3 i s rfl
        have hin : i < (split c n).length := by
          rw [split_length, hi]; exact Nat.mod_lt _ (by omega)
        have hmem := getD_mem hin
        have hlen' := length_compl (by omega) hnl hnd hmem
        rw [← hs] at hlen'
        have hn3 : 3 ≤ n := by
          by_contra hlt
          have hn2 : n = 2 := by omega
          subst hn2
          have := compl_two hnl hnd hmem
          rw [← hs] at this
          exact hnp (p2 rfl s this)
        have hsub : s.Sublist c := hs ▸ listminus_sublist _ _
        obtain ⟨res, d', h, g, x, hm⟩ := ih false s (n - 1) i d3 g3 hfs (hsub.nodup hnd)
          (List.length_pos_iff.1 (by omega))
          (x3.passes (Nat.le_refl _) (x2.passes (Nat.le_refl _) hp0)) (by omega)
          (.inl hlen'.1) (by
            have := rounds_lt (n := n) (n' := n - 1) hlen'.2 (by omega) hnl
            omega)
        exact ⟨res, d', h, g, (x2.trans x3).trans x, hm.sub.trans hsub, hm.ne, hm.fails,
          hm.min⟩
      | none =>
        simp only
        by_cases hle : c.length ≤ n
        · rw [if_pos hle]
          have hnn : n = c.length := by omega
          refine ⟨c, d3, rfl, g3, x2.trans x3, List.Sublist.refl _, hne,
            (x2.trans x3).fails hf, fun x hx => ?_⟩
          obtain ⟨i, hi, hxi⟩ := List.getElem_of_mem hx
          obtain ⟨j, hj, hji⟩ := exists_shift (n := n) off i (by omega)
          have := p3 rfl j hj
          rw [hji, hnn, split_self_singletons c (by omega)] at this
          have e1 : ((c.map fun x => [x]).getD i []) = [x] := by
            rw [List.getD_eq_getElem?_getD, List.getElem?_eq_getElem (by simpa using hi)]
            simp [hxi]
          rw [e1] at this
          have e2 : listminus c [x] = c.filter fun y => decide (y ≠ x) := by
            unfold listminus; apply List.filter_congr; intro y _; simp
          rwa [e2] at this
        · rw [if_neg hle]
          obtain ⟨res, d', h, g, x, hm⟩ := ih false c (min c.length (n * 2))
            (off * (min c.length (n * 2)) / n) d3 g3 ((x2.trans x3).fails hf) hnd hne
            (x3.passes (Nat.le_refl _) (x2.passes (Nat.le_refl _) hp0)) (by omega)
            (.inl (Nat.min_le_left _ _)) (by
              unfold rounds at hfu ⊢
              omega)
          exact ⟨res, d', h, g, (x2.trans x3).trans x, hm⟩

/-- Fuel sufficient for every search over a list of that length. -/
def enough (len : Nat) : Nat := (len + 2) * (len + 2)

theorem rounds_enough {len n : Nat} : rounds len n < enough len := by
  unfold rounds enough
  have : (len + 2) * (len + 2) = len * (len + 2) + 2 * (len + 2) := by ring
  omega

theorem enough_mono {a b : Nat} (h : a ≤ b) : enough a ≤ enough b :=
  Nat.mul_le_mul (by omega) (by omega)

theorem ddmin_spec {e : Env α K} (he : Seq e) {B N : Nat} (hN : N ≤ B) (fuel : Nat)
    (c : List α) (hnd : c.Nodup) (hfuel : enough c.length ≤ fuel) (d : Disk K)
    (hg : Good e B d) :
    (ddmin e fuel c N d = .exit ∧
      ((∃ i < B, e.sample (e.name []) i = false) ∨
        (¬ Fails d (e.name c) ∧ ∀ i < N, e.sample (e.name c) i = true))) ∨
    ∃ res d', ddmin e fuel c N d = .ok (res, d') ∧ Good e B d' ∧ Ext N d d' ∧
      Minimal e N c res d' ∧ Passes d' (e.name []) N := by
  obtain ⟨v, d1, h1, ht, -, -⟩ := test_spec e he.seq he.ord B [] N hN d hg
  simp only [ddmin, h1, Res.ok_bind]
  cases v with
  | fail =>
    left; exact ⟨by simp, .inl (ht.good.fails (ht.fail rfl))⟩
  | pass =>
    have hp0 := ht.pass rfl
    simp only [reduceCtorEq, if_false]
    obtain ⟨v, d2, h2, ht2, hfl, -⟩ := test_spec e he.seq he.ord B c N hN d1 ht.good
    cases v with
    | pass =>
      left
      have hpos : 1 ≤ fuel := by
        have : 1 ≤ enough c.length := Nat.mul_pos (by omega) (by omega)
        omega
      obtain ⟨f, rfl⟩ : ∃ f, fuel = f + 1 := ⟨fuel - 1, by omega⟩
      refine ⟨by simp [ddminLoop, h2], .inr ⟨fun hf => ?_, ht2.good.passes (ht2.pass rfl)⟩⟩
      have := (hfl (ht.ext.fails hf)).1
      cases this
    | fail =>
      right
      have hf2 := ht2.fail rfl
      have hne : c ≠ [] := by
        rintro rfl
        exact hf2.not_passes (ht2.ext.passes (Nat.le_refl _) hp0)
      -- the first test of the loop is the one just done
      have key : ∃ res d', ddminLoop e N fuel true c 2 0 d2 = .ok (res, d') ∧ Good e B d' ∧
          Ext N d2 d' ∧ Minimal e N c res d' := by
        apply ddminLoop_spec he hN fuel true c 2 0 d2 ht2.good hf2 hnd hne
          (ht2.ext.passes (Nat.le_refl _) hp0) (Nat.le_refl _)
        · have := List.length_pos_iff.2 hne; omega
        · have := rounds_enough (len := c.length) (n := 2); omega
      obtain ⟨res, d', h, g, x, m⟩ := key
      have hpos : 1 ≤ fuel := by
        have : 1 ≤ enough c.length := Nat.mul_pos (by omega) (by omega)
        omega
      obtain ⟨f, rfl⟩ : ∃ f, fuel = f + 1 := ⟨fuel - 1, by omega⟩
      refine ⟨res, d', ?_, g, (ht.ext.trans ht2.ext).trans x, m,
        x.passes (Nat.le_refl _) (ht2.ext.passes (Nat.le_refl _) hp0)⟩
      obtain ⟨v, d3, h3, -, hfl3, -⟩ := test_spec e he.seq he.ord B c N hN d2 ht2.good
      obtain ⟨rfl, rfl⟩ := hfl3 hf2
      rw [← h]
      simp only [ddminLoop, h2, h3]

/-- C40: on any list of distinct deltas, from any cache the tool may have left, when the
empty configuration passes all samples and the whole list fails one of the `nbRun` samples,
ddmin terminates with a non-empty sublist that fails a sample and such that removing any
single delta makes `nbRun` samples pass. -/
theorem C40_ddmin {e : Env α K} (he : Seq e) (nbRun B : Nat) (hB : nbRun ≤ B) (fuel : Nat)
    (c : List α) (hnd : c.Nodup) (hfuel : enough c.length ≤ fuel) (d : Disk K)
    (hg : Good e B d) (hempty : ∀ i < B, e.sample (e.name []) i = true)
    (hall : ∃ i < nbRun, e.sample (e.name c) i = false) :
    ∃ res d', ddmin e fuel c nbRun d = .ok (res, d') ∧ res.Sublist c ∧ res ≠ [] ∧
      (∃ i < B, e.sample (e.name res) i = false) ∧
      ∀ x ∈ res, ∀ i < nbRun, e.sample (e.name (res.filter fun y => decide (y ≠ x))) i = true := by
  rcases ddmin_spec he hB fuel c hnd hfuel d hg with ⟨-, h | ⟨-, h⟩⟩ | ⟨res, d', h, g, -, m, -⟩
  · obtain ⟨i, hi, h⟩ := h; rw [hempty i hi] at h; cases h
  · obtain ⟨i, hi, h'⟩ := hall; rw [h i hi] at h'; cases h'
  · exact ⟨res, d', h, m.sub, m.ne, g.fails m.fails, fun x hx => g.passes (m.min x hx)⟩

/-- Five deltas, the failure needs 2 and 4 together; two samples per test, the first
always passes. -/
example :
    let e : Env Nat (List Nat) :=
      ⟨id, fun k i => decide (i = 0 ∨ ¬ (2 ∈ k ∧ 4 ∈ k)), id, false, 2, false⟩
    (match ddmin e 49 [1, 2, 3, 4, 5] 2 (fun _ => []) with
      | .ok (r, _) => some r | _ => none) = some [2, 4] := by decide +kernel

/-- C40: the deterministic case.  The verdict of a configuration is a function of it. -/
theorem C40_deterministic (ok : List α → Bool) (nbRun : Nat) (hn : 1 ≤ nbRun) (c : List α)
    (hnd : c.Nodup) (h0 : ok [] = true) (h1 : ok c = false) (fuel : Nat)
    (hfuel : enough c.length ≤ fuel) (u : Bool) :
    ∃ res d', ddmin (K := List α) ⟨id, fun k _ => ok k, id, false, nbRun, u⟩ fuel c nbRun
        (fun _ => []) = .ok (res, d') ∧ res.Sublist c ∧ ok res = false ∧
      ∀ x ∈ res, ok (res.filter fun y => decide (y ≠ x)) = true := by
  obtain ⟨res, d', h, a, -, ⟨i, -, b⟩, m⟩ :=
    C40_ddmin (K := List α) (e := ⟨id, fun k _ => ok k, id, false, nbRun, u⟩)
      ⟨rfl, fun l => List.Perm.refl _⟩ nbRun nbRun (Nat.le_refl _) fuel c hnd hfuel
      (fun _ => []) (fun k i b h => by simp at h) (fun _ _ => h0) ⟨0, hn, h1⟩
  exact ⟨res, d', h, a, b, fun x hx => m x hx 0 hn⟩

/-- C40: setting `INTERFLOP_DD_UNSAFE`, which the tool suggests when the full
configuration passes, changes nothing. -/
theorem C40_unsafe_ignored {e : Env α K} (he : Seq e) (nbRun B : Nat) (hB : nbRun ≤ B)
    (fuel : Nat) (c : List α) (hnd : c.Nodup) (hfuel : enough c.length ≤ fuel) (d : Disk K)
    (hg : Good e B d) (hempty : ∀ i < B, e.sample (e.name []) i = true)
    (hall : ¬ Fails d (e.name c)) (hpass : ∀ i < nbRun, e.sample (e.name c) i = true) :
    ddmin e fuel c nbRun d = .exit := by
  obtain ⟨v, d1, h1, ht, -, -⟩ := test_spec e he.seq he.ord B [] nbRun hB d hg
  obtain ⟨v2, d2, h2, ht2, -, -⟩ := test_spec e he.seq he.ord B c nbRun hB d1 ht.good
  have hpos : 1 ≤ fuel := by
    have : 1 ≤ enough c.length := Nat.mul_pos (by omega) (by omega)
    omega
  obtain ⟨f, rfl⟩ : ∃ f, fuel = f + 1 := ⟨fuel - 1, by omega⟩
  cases v with
  | fail => simp [ddmin, h1]
  | pass =>
    have hv2 : v2 = .pass := by
      cases v2 with
      | pass => rfl
      | fail =>
        exfalso
        obtain ⟨i, hi⟩ := ht2.fail rfl
        rcases ht2.onlyNew _ _ _ hi with h | ⟨-, hin⟩
        · rcases ht.onlyNew _ _ _ h with h | ⟨hk, hin⟩
          · exact hall ⟨i, h⟩
          · have := (ht2.good _ _ _ hi).1
            rw [hk, hempty i (by omega)] at this; simp at this
        · have := (ht2.good _ _ _ hi).1
          rw [hpass i hin] at this; simp at this
    simp [ddmin, h1, ddminLoop, h2, hv2]

end Verif.Ddtool
