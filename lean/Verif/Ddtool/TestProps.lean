import Verif.Ddtool.SplitProps

/-!
# The verdict cache (C44)

Facts about `_test` in the sequential mode (`INTERFLOP_DD_NUM_THREADS` unset), from which
the properties of the searches follow.
-/

namespace Verif.Ddtool

variable {α K : Type} [DecidableEq α] [DecidableEq K]

/-- A disk without half-made runs: every run directory has its `returnVal`, the recorded
statuses are those of the samples, and fewer than `B` samples were asked for. -/
def Good (e : Env α K) (B : Nat) (d : Disk K) : Prop :=
  ∀ k i b, (i, b) ∈ d k → b = some (e.sample k i) ∧ i < B

/-- A failing sample is recorded. -/
def Fails (d : Disk K) (k : K) : Prop := ∃ i, (i, some false) ∈ d k

/-- `n` passing samples are recorded, and no failing one. -/
def Passes (d : Disk K) (k : K) (n : Nat) : Prop :=
  (∀ i b, (i, b) ∈ d k → b ≠ some false) ∧ ∀ i < n, (i, some true) ∈ d k

/-- From `d` to `d'` by tests asking for at most `n` samples: nothing recorded is lost. -/
def Ext (n : Nat) (d d' : Disk K) : Prop :=
  (∀ k i b, (i, b) ∈ d k → (i, b) ∈ d' k) ∧
    ∀ k m, n ≤ m → Passes d k m → Passes d' k m

theorem Ext.refl (n : Nat) (d : Disk K) : Ext n d d := ⟨fun _ _ _ h => h, fun _ _ _ h => h⟩

theorem Ext.trans {n : Nat} {a b c : Disk K} (h1 : Ext n a b) (h2 : Ext n b c) : Ext n a c :=
  ⟨fun k i x h => h2.1 k i x (h1.1 k i x h), fun k m hm h => h2.2 k m hm (h1.2 k m hm h)⟩

theorem Ext.mono {n m : Nat} (h : n ≤ m) {a b : Disk K} (h1 : Ext n a b) : Ext m a b :=
  ⟨h1.1, fun k q hq h2 => h1.2 k q (Nat.le_trans h hq) h2⟩

theorem Ext.fails {n : Nat} {a b : Disk K} (h : Ext n a b) {k : K} (hf : Fails a k) :
    Fails b k := by
  obtain ⟨i, hi⟩ := hf; exact ⟨i, h.1 _ _ _ hi⟩

theorem Ext.passes {n m : Nat} {a b : Disk K} (h : Ext n a b) (hm : n ≤ m) {k : K}
    (hp : Passes a k m) : Passes b k m := h.2 k m hm hp

theorem Fails.not_passes {d : Disk K} {k : K} {n : Nat} (h : Fails d k) : ¬ Passes d k n := by
  obtain ⟨i, hi⟩ := h
  exact fun hp => hp.1 i _ hi rfl

theorem Passes.mono {d : Disk K} {k : K} {n m : Nat} (h : n ≤ m) (hp : Passes d k m) :
    Passes d k n := ⟨hp.1, fun i hi => hp.2 i (by omega)⟩

theorem Good.fails {e : Env α K} {B : Nat} {d : Disk K} (h : Good e B d) {k : K}
    (hf : Fails d k) : ∃ i < B, e.sample k i = false := by
  obtain ⟨i, hi⟩ := hf
  have := h k i _ hi
  exact ⟨i, this.2, by simpa using this.1.symm⟩

theorem Good.passes {e : Env α K} {B n : Nat} {d : Disk K} (h : Good e B d) {k : K}
    (hp : Passes d k n) : ∀ i < n, e.sample k i = true := by
  intro i hi
  have := h k i _ (hp.2 i hi)
  simpa using this.1.symm

/-- Reading the statuses when all are present. -/
theorem scan_good (l : List Entry) (hl : ∀ i b, (i, b) ∈ l → b ≠ none) :
    ∀ done, ((∃ i, (i, some false) ∈ l) ∧ scan l done = .ok none) ∨
      ((∀ i b, (i, b) ∈ l → b = some true) ∧ scan l done = .ok (some (done ++ l.map (·.1)))) := by
  induction l with
  | nil => intro done; right; simp [scan]
  | cons x l ih =>
    intro done
    obtain ⟨i, b⟩ := x
    match b, hl i b (by simp) with
    | some false, _ => left; exact ⟨⟨i, by simp⟩, rfl⟩
    | some true, _ =>
      rcases ih (fun i b h => hl i b (by simp [h])) (done ++ [i]) with ⟨⟨j, hj⟩, h⟩ | ⟨h1, h⟩
      · left; exact ⟨⟨j, by simp [hj]⟩, h⟩
      · right
        refine ⟨?_, ?_⟩
        · intro j b hb
          rcases List.mem_cons.1 hb with hb | hb
          · simp at hb; exact hb.2
          · exact h1 j b hb
        · rw [scan, h]; simp

theorem mem_add {d : Disk K} {k k' : K} {es : List Entry} {x : Entry} :
    x ∈ d.add k es k' ↔ x ∈ d k' ∨ (k' = k ∧ x ∈ es) := by
  unfold Disk.add
  by_cases h : k' = k
  · subst h; simp
  · simp [h]

/-- Running the missing samples in sequence. -/
theorem runSeq_spec (e : Env α K) (k : K) : ∀ (w : List Nat) (d : Disk K),
    w.Nodup → (∀ i ∈ w, i ∉ (d k).map (·.1)) →
      ∃ v d', runSeq e k w d = .ok (v, d') ∧
        (∀ k' i b, (i, b) ∈ d k' → (i, b) ∈ d' k') ∧
        (∀ k' i b, (i, b) ∈ d' k' → (i, b) ∈ d k' ∨
          (k' = k ∧ i ∈ w ∧ b = some (e.sample k i))) ∧
        (v = .fail → Fails d' k) ∧
        (v = .pass → (∀ i ∈ w, (i, some true) ∈ d' k) ∧ ∀ i ∈ w, e.sample k i = true) := by
  intro w
  induction w with
  | nil => intro d _ _; exact ⟨.pass, d, rfl, fun _ _ _ h => h, fun _ _ _ h => .inl h,
      by simp, by simp⟩
  | cons i w ih =>
    intro d hnd hno
    have hi : i ∉ (d k).map (·.1) := hno i (by simp)
    have hnd' := List.nodup_cons.1 hnd
    rw [runSeq, if_neg hi]
    cases hs : e.sample k i with
    | false =>
      simp only [Bool.false_eq_true, if_false]
      refine ⟨.fail, _, rfl, fun k' j b h => mem_add.2 (.inl h), fun k' j b h => ?_,
        fun _ => ⟨i, mem_add.2 (.inr ⟨rfl, by simp⟩)⟩, by simp⟩
      rcases mem_add.1 h with h | ⟨h1, h2⟩
      · exact .inl h
      · simp only [List.mem_singleton, Prod.mk.injEq] at h2
        right; rw [h2.1, h2.2]; exact ⟨h1, by simp, by simp [hs]⟩
    | true =>
      simp only [if_true]
      obtain ⟨v, d', h1, h2, h3, h4, h5⟩ := ih (d.add k [(i, some true)]) hnd'.2 (by
        intro j hj
        simp only [Disk.add, if_true, List.map_append, List.mem_append, not_or]
        refine ⟨hno j (by simp [hj]), ?_⟩
        simp only [List.map_cons, List.map_nil, List.mem_singleton]
        rintro rfl; exact hnd'.1 hj)
      refine ⟨v, d', h1, fun k' j b h => h2 _ _ _ (mem_add.2 (.inl h)), fun k' j b h => ?_, h4,
        fun hv => ?_⟩
      · rcases h3 _ _ _ h with h | ⟨ha, hb, hc⟩
        · rcases mem_add.1 h with h | ⟨ha, hb⟩
          · exact .inl h
          · simp only [List.mem_singleton, Prod.mk.injEq] at hb
            right; rw [hb.1, hb.2]; exact ⟨ha, by simp, by simp [hs]⟩
        · exact .inr ⟨ha, by simp [hb], hc⟩
      · obtain ⟨ha, hb⟩ := h5 hv
        constructor
        · intro j hj
          rcases List.mem_cons.1 hj with rfl | hj
          · exact h2 _ _ _ (mem_add.2 (.inr ⟨rfl, by simp⟩))
          · exact ha j hj
        · intro j hj
          rcases List.mem_cons.1 hj with rfl | hj
          · exact hs
          · exact hb j hj

/-- The contract of a test in the sequential mode. -/
structure TestOk (e : Env α K) (B : Nat) (c : List α) (n : Nat) (d : Disk K) (v : Verdict)
    (d' : Disk K) : Prop where
  good : Good e B d'
  ext : Ext n d d'
  fail : v = .fail → Fails d' (e.name c)
  pass : v = .pass → Passes d' (e.name c) n
  onlyNew : ∀ k i b, (i, b) ∈ d' k → (i, b) ∈ d k ∨ (k = e.name c ∧ i < n)

theorem test_spec (e : Env α K) (hseq : e.par = false) (hord : ∀ l, (e.ord l).Perm l)
    (B : Nat) (c : List α) (n : Nat) (hn : n ≤ B) (d : Disk K) (hg : Good e B d) :
    ∃ v d', test e c n d = .ok (v, d') ∧ TestOk e B c n d v d' ∧
      (Fails d (e.name c) → v = .fail ∧ d' = d) ∧
      (Passes d (e.name c) n → v = .pass ∧ d' = d) := by
  have hmem : ∀ x, x ∈ e.ord (d (e.name c)) ↔ x ∈ d (e.name c) := fun x => (hord _).mem_iff
  have hscan := scan_good (e.ord (d (e.name c))) (by
    intro i b hb e'
    have := (hg _ i b ((hmem _).1 hb)).1
    rw [e'] at this; cases this) []
  unfold test
  rcases hscan with ⟨⟨i, hi⟩, hs⟩ | ⟨hall, hs⟩
  · have hf : Fails d (e.name c) := ⟨i, (hmem _).1 hi⟩
    refine ⟨.fail, d, by simp [hs], ⟨hg, Ext.refl _ _, fun _ => hf, by simp,
      fun _ _ _ h => .inl h⟩, fun _ => ⟨rfl, rfl⟩, fun hp => absurd hp hf.not_passes⟩
  · have hall' : ∀ i b, (i, b) ∈ d (e.name c) → b = some true := fun i b h =>
      hall i b ((hmem _).2 h)
    have hnf : ¬ Fails d (e.name c) := by
      rintro ⟨i, hi⟩; have := hall' _ _ hi; simp at this
    have hdone : ∀ j, j ∈ (e.ord (d (e.name c))).map (·.1) ↔ j ∈ (d (e.name c)).map (·.1) :=
      fun j => ((hord _).map _).mem_iff
    simp only [hs, Res.ok_bind, List.nil_append]
    have hwork : ∀ j, j ∈ (List.range n).filter
        (fun x => decide (x ∉ (e.ord (d (e.name c))).map (·.1))) ↔
          j < n ∧ j ∉ (d (e.name c)).map (·.1) := by
      intro j; rw [List.mem_filter, List.mem_range, decide_eq_true_eq, hdone]
    generalize hw : (List.range n).filter
      (fun x => decide (x ∉ (e.ord (d (e.name c))).map (·.1))) = w at hwork
    have hrec : ∀ j, j ∈ (d (e.name c)).map (·.1) → (j, some true) ∈ d (e.name c) := by
      intro j hj
      obtain ⟨⟨j', b⟩, h1, h2⟩ := List.mem_map.1 hj
      simp only at h2; subst h2
      have := hall' _ _ h1
      rw [this] at h1; exact h1
    by_cases hw0 : w = []
    · rw [if_pos hw0]
      have hp : Passes d (e.name c) n := by
        refine ⟨fun i b h => by rw [hall' i b h]; simp, fun i hi => hrec i ?_⟩
        by_contra hno
        have := (hwork i).2 ⟨hi, hno⟩
        rw [hw0] at this; cases this
      exact ⟨.pass, d, rfl, ⟨hg, Ext.refl _ _, by simp, fun _ => hp, fun _ _ _ h => .inl h⟩,
        fun hf => absurd hf hnf, fun _ => ⟨rfl, rfl⟩⟩
    · rw [if_neg hw0]
      simp only [hseq, Bool.false_eq_true, if_false]
      obtain ⟨v, d', h1, h2, h3, h4, h5⟩ := runSeq_spec e (e.name c) w d
        (by rw [← hw]; exact List.nodup_range.filter _) (fun i hi => ((hwork i).1 hi).2)
      refine ⟨v, d', h1, ⟨?_, ⟨h2, ?_⟩, h4, ?_, ?_⟩, fun hf => absurd hf hnf, fun hp => ?_⟩
      · intro k i b hb
        rcases h3 _ _ _ hb with h | ⟨rfl, ha, hb⟩
        · exact hg _ _ _ h
        · exact ⟨hb, by have := ((hwork i).1 ha).1; omega⟩
      · intro k m hm hp
        refine ⟨fun i b hb => ?_, fun i hi => h2 _ _ _ (hp.2 i hi)⟩
        rcases h3 _ _ _ hb with h | ⟨rfl, ha, hb⟩
        · exact hp.1 _ _ h
        · exfalso
          have := (hwork i).1 ha
          exact this.2 (List.mem_map.2 ⟨_, hp.2 i (by omega), rfl⟩)
      · intro hv
        obtain ⟨ha, hb⟩ := h5 hv
        refine ⟨fun i b hb' => ?_, fun i hi => ?_⟩
        · rcases h3 _ _ _ hb' with h | ⟨_, h, e'⟩
          · rw [hall' _ _ h]; simp
          · rw [e', hb i h]; simp
        · by_cases hin : i ∈ (d (e.name c)).map (·.1)
          · exact h2 _ _ _ (hrec i hin)
          · exact ha i ((hwork i).2 ⟨hi, hin⟩)
      · intro k i b hb
        rcases h3 _ _ _ hb with h | ⟨ha, hb, _⟩
        · exact .inl h
        · exact .inr ⟨ha, ((hwork i).1 hb).1⟩
      · exfalso
        obtain ⟨i, hi⟩ := List.exists_mem_of_ne_nil _ hw0
        have := (hwork i).1 hi
        exact this.2 (List.mem_map.2 ⟨_, hp.2 i this.1, rfl⟩)

end Verif.Ddtool
