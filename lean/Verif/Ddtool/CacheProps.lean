import Verif.Ddtool.MinProps
import Mathlib.Data.List.Lex
import Mathlib.Data.List.Sort

/-!
# The verdict cache: histories, parallel mode, interruptions, directory names (C44)
-/

namespace Verif.Ddtool

variable {α K : Type} [DecidableEq α] [DecidableEq K]

theorem Good.mono {e : Env α K} {B B' : Nat} (h : B ≤ B') {d : Disk K} (hg : Good e B d) :
    Good e B' d := fun k i b hb => ⟨(hg k i b hb).1, by have := (hg k i b hb).2; omega⟩

/-- Any sequence of tests. -/
def history (e : Env α K) : List (List α × Nat) → Disk K → Res (List Verdict × Disk K)
  | [], d => .ok ([], d)
  | (c, n) :: ts, d => do
    let (v, d) ← test e c n d
    let (vs, d) ← history e ts d
    .ok (v :: vs, d)

theorem history_spec {e : Env α K} (he : Seq e) {B : Nat} :
    ∀ (ts : List (List α × Nat)) (d : Disk K), (∀ t ∈ ts, t.2 ≤ B) → Good e B d →
      ∃ vs d', history e ts d = .ok (vs, d') ∧ Good e B d' ∧
        (∀ k, Fails d k → Fails d' k) ∧
        ∀ k n, (∀ t ∈ ts, e.name t.1 = k → t.2 ≤ n) → Passes d k n → Passes d' k n := by
  intro ts
  induction ts with
  | nil => intro d _ hg; exact ⟨[], d, rfl, hg, fun _ h => h, fun _ _ _ h => h⟩
  | cons t ts ih =>
    intro d hb hg
    obtain ⟨c, n⟩ := t
    obtain ⟨v, d1, h1, t1, hfl, hps⟩ := test_spec e he.seq he.ord B c n (hb (c, n) (by simp)) d hg
    obtain ⟨vs, d2, h2, g2, f2, p2⟩ := ih d1 (fun t ht => hb t (by simp [ht])) t1.good
    refine ⟨v :: vs, d2, by simp [history, h1, h2], g2, fun k hk => f2 k (t1.ext.fails hk),
      fun k m hm hp => p2 k m (fun t ht => hm t (by simp [ht])) ?_⟩
    by_cases hk : e.name c = k
    · subst hk
      have hle : n ≤ m := hm (c, n) (by simp) rfl
      exact t1.ext.passes hle hp
    · refine ⟨fun i b hb' => ?_, fun i hi => t1.ext.1 _ _ _ (hp.2 i hi)⟩
      rcases t1.onlyNew k i b hb' with h | ⟨h, -⟩
      · exact hp.1 i b h
      · exact absurd h.symm hk

/-- C44: in the sequential mode, whatever was tested before and in between, a configuration
that was found failing is never run again and is always reported as failing.  Missing: the
parallel mode, where it is false (`C44_parallel_wrong`). -/
theorem C44_fail_kept_partial {e : Env α K} (he : Seq e) {B : Nat} (c : List α) (n m : Nat)
    (ts : List (List α × Nat)) (d d1 d2 : Disk K) (vs : List Verdict) (hg : Good e B d)
    (h1 : test e c n d = .ok (.fail, d1)) (h2 : history e ts d1 = .ok (vs, d2)) :
    test e c m d2 = .ok (.fail, d2) := by
  obtain ⟨B', hB, hn, hm, hts⟩ : ∃ B', B ≤ B' ∧ n ≤ B' ∧ m ≤ B' ∧ ∀ t ∈ ts, t.2 ≤ B' := by
    have : ∀ ts : List (List α × Nat), ∃ M, ∀ t ∈ ts, t.2 ≤ M := by
      intro ts
      induction ts with
      | nil => exact ⟨0, by simp⟩
      | cons t ts ih =>
        obtain ⟨M, hM⟩ := ih
        refine ⟨M + t.2, fun s hs => ?_⟩
        rcases List.mem_cons.1 hs with rfl | hs
        · omega
        · have := hM s hs; omega
    obtain ⟨M, hM⟩ := this ts
    exact ⟨B + n + m + M, by omega, by omega, by omega, fun t ht => by have := hM t ht; omega⟩
  obtain ⟨v, d1', h1', t1, -, -⟩ := test_spec e he.seq he.ord B' c n hn d (hg.mono hB)
  rw [h1] at h1'
  obtain ⟨rfl, rfl⟩ : Verdict.fail = v ∧ d1 = d1' := by simpa using h1'
  obtain ⟨vs', d2', h2', g2, f2, -⟩ := history_spec he ts d1 hts t1.good
  rw [h2] at h2'
  obtain ⟨rfl, rfl⟩ : vs = vs' ∧ d2 = d2' := by simpa using h2'
  obtain ⟨v, d3, h3, -, hfl, -⟩ := test_spec e he.seq he.ord B' c m hm d2 g2
  obtain ⟨rfl, rfl⟩ := hfl (f2 _ (t1.fail rfl))
  exact h3

/-- C44: a configuration that passed `n` samples passes again, without being run, when at
most `n` samples are asked for, as long as it was not run with more samples in between.
Missing: the parallel mode. -/
theorem C44_pass_kept_partial {e : Env α K} (he : Seq e) {B : Nat} (c : List α) (n m : Nat)
    (hmn : m ≤ n) (ts : List (List α × Nat)) (d d1 d2 : Disk K) (vs : List Verdict)
    (hg : Good e B d) (hts : ∀ t ∈ ts, e.name t.1 = e.name c → t.2 ≤ n)
    (h1 : test e c n d = .ok (.pass, d1)) (h2 : history e ts d1 = .ok (vs, d2)) :
    test e c m d2 = .ok (.pass, d2) := by
  obtain ⟨B', hB, hn, hts'⟩ : ∃ B', B ≤ B' ∧ n ≤ B' ∧ ∀ t ∈ ts, t.2 ≤ B' := by
    have : ∀ ts : List (List α × Nat), ∃ M, ∀ t ∈ ts, t.2 ≤ M := by
      intro ts
      induction ts with
      | nil => exact ⟨0, by simp⟩
      | cons t ts ih =>
        obtain ⟨M, hM⟩ := ih
        refine ⟨M + t.2, fun s hs => ?_⟩
        rcases List.mem_cons.1 hs with rfl | hs
        · omega
        · have := hM s hs; omega
    obtain ⟨M, hM⟩ := this ts
    exact ⟨B + n + M, by omega, by omega, fun t ht => by have := hM t ht; omega⟩
  obtain ⟨v, d1', h1', t1, -, -⟩ := test_spec e he.seq he.ord B' c n hn d (hg.mono hB)
  rw [h1] at h1'
  obtain ⟨rfl, rfl⟩ : Verdict.pass = v ∧ d1 = d1' := by simpa using h1'
  obtain ⟨vs', d2', h2', g2, -, p2⟩ := history_spec he ts d1 hts' t1.good
  rw [h2] at h2'
  obtain ⟨rfl, rfl⟩ : vs = vs' ∧ d2 = d2' := by simpa using h2'
  obtain ⟨v, d3, h3, -, -, hp⟩ := test_spec e he.seq he.ord B' c m (by omega) d2 g2
  obtain ⟨rfl, rfl⟩ := hp ((p2 _ n hts (t1.pass rfl)).mono hmn)
  exact h3

/-- C44: from an empty disk no sequence of tests ever aborts, in the sequential mode. -/
theorem C44_no_abort {e : Env α K} (he : Seq e) (ts : List (List α × Nat)) :
    ∃ vs d', history e ts (fun _ => []) = .ok (vs, d') := by
  have : ∀ ts : List (List α × Nat), ∃ M, ∀ t ∈ ts, t.2 ≤ M := by
    intro ts
    induction ts with
    | nil => exact ⟨0, by simp⟩
    | cons t ts ih =>
      obtain ⟨M, hM⟩ := ih
      refine ⟨M + t.2, fun s hs => ?_⟩
      rcases List.mem_cons.1 hs with rfl | hs
      · omega
      · have := hM s hs; omega
  obtain ⟨M, hM⟩ := this ts
  obtain ⟨vs, d', h, -⟩ := history_spec he (B := M) ts (fun _ => []) hM (fun k i b h => by simp at h)
  exact ⟨vs, d', h⟩

/-- Sample 1 fails: the second test is answered from the disk, for any number of
samples. -/
example :
    let e : Env Nat (List Nat) := ⟨id, fun _ i => decide (i ≠ 1), id, false, 3, false⟩
    (match history e [([7], 3), ([7], 1)] (fun _ => []) with
      | .ok (r, d) => some (r, d [7]) | _ => none) =
      some ([.fail, .fail], [(0, some true), (1, some false)]) := by decide +kernel

/-! ## Parallel mode -/

/-- C44: false in the parallel mode (`INTERFLOP_DD_NUM_THREADS`).  With two samples of
which the first fails, the second keeps a directory without `returnVal`; when
`os.listdir` enumerates it first, testing the configuration again aborts. -/
theorem C44_parallel_wrong :
    ∃ e : Env Nat (List Nat), e.par = true ∧ (∀ l, (e.ord l).Perm l) ∧
      ∃ d, test e [7] 2 (fun _ => []) = .ok (.fail, d) ∧ test e [7] 2 d = .exit :=
  ⟨⟨id, fun _ i => decide (i ≠ 0), List.reverse, true, 2, false⟩, rfl,
    fun l => List.reverse_perm l, _, rfl, rfl⟩

/-! ## Interruptions -/

/-- Disks left when the tool is interrupted while a sample runs: after its directory is
made (`DD_stoch.py:130`) and before `returnVal` is written (`DD_stoch.py:82-83`). -/
def interrupted (e : Env α K) (k : K) : List Nat → Disk K → List (Disk K)
  | [], _ => []
  | i :: w, d =>
    d.add k [(i, none)] ::
      (if e.sample k i then interrupted e k w (d.add k [(i, some true)]) else [])

theorem scan_missing : ∀ (l : List Entry) (done : List Nat),
    (∀ i b, (i, b) ∈ l → b ≠ some false) → (∃ i, (i, none) ∈ l) → scan l done = .exit := by
  intro l
  induction l with
  | nil => rintro done - ⟨i, hi⟩; cases hi
  | cons x l ih =>
    rintro done hn ⟨i, hi⟩
    obtain ⟨j, b⟩ := x
    match b, hn j b (by simp) with
    | none, _ => rfl
    | some true, _ =>
      rw [scan]
      apply ih
      · intro i b h; exact hn i b (by simp [h])
      · rcases List.mem_cons.1 hi with h | h
        · simp at h
        · exact ⟨i, h⟩

/-- C44: false for interruptions.  Whenever the tool is interrupted while a sample runs, it
cannot be resumed: testing that configuration aborts, for any number of samples, in both
modes. -/
theorem C44_interrupt_wrong (e : Env α K) (hord : ∀ l, (e.ord l).Perm l) (c : List α)
    (work : List Nat) (m : Nat) : ∀ (d : Disk K),
      (∀ i b, (i, b) ∈ d (e.name c) → b = some true) →
      ∀ d' ∈ interrupted e (e.name c) work d, test e c m d' = .exit := by
  induction work with
  | nil => intro d _ d' h; cases h
  | cons i w ih =>
    intro d hd d' h
    rcases List.mem_cons.1 h with rfl | h
    · simp only [test]
      rw [scan_missing]
      · rfl
      · intro j b hb
        rcases mem_add.1 ((hord _).mem_iff.1 hb) with h | ⟨-, h⟩
        · rw [hd j b h]; simp
        · simp at h; rw [h.2]; simp
      · exact ⟨i, (hord _).mem_iff.2 (mem_add.2 (.inr ⟨rfl, by simp⟩))⟩
    · cases hs : e.sample (e.name c) i with
      | false => simp [hs] at h
      | true =>
        simp only [hs, if_true] at h
        refine ih _ (fun j b hb => ?_) d' h
        rcases mem_add.1 hb with h | ⟨-, h⟩
        · exact hd j b h
        · simp at h; exact h.2

/-- Interrupted during the second of three samples. -/
example :
    let e : Env Nat (List Nat) := ⟨id, fun _ _ => true, id, false, 3, false⟩
    ((interrupted e [7] [0, 1, 2] (fun _ => []))[1]?.map fun d => d [7]) =
      some [(0, some true), (1, none)] := by decide +kernel

/-! ## Names of the directories -/

/-- What `md5Name` hashes, `DD_stoch.py:152-155`: the deltas sorted by code points and
concatenated. -/
def hashed (deltas : List (List Char)) : List Char :=
  (deltas.insertionSort (· ≤ ·)).flatten

/-- A line as read by `readlines`, with its end. -/
def IsLine (l : List Char) : Prop := ∃ b, '\n' ∉ b ∧ l = b ++ ['\n']

theorem line_split {a b : List Char} {r s : List Char} (ha : IsLine a) (hb : IsLine b)
    (h : a ++ r = b ++ s) : a = b ∧ r = s := by
  obtain ⟨x, hx, rfl⟩ := ha
  obtain ⟨y, hy, rfl⟩ := hb
  have aux : ∀ (x y r s : List Char), '\n' ∉ x → '\n' ∉ y →
      x ++ '\n' :: r = y ++ '\n' :: s → x = y ∧ r = s := by
    intro x
    induction x with
    | nil =>
      intro y r s _ hy h
      cases y with
      | nil => simpa using h
      | cons c y =>
        simp only [List.nil_append, List.cons_append, List.cons.injEq] at h
        exact absurd (by rw [h.1]; simp) hy
    | cons c x ih =>
      intro y r s hx hy h
      cases y with
      | nil =>
        simp only [List.nil_append, List.cons_append, List.cons.injEq] at h
        exact absurd (by rw [h.1]; simp) hx
      | cons c' y =>
        simp only [List.cons_append, List.cons.injEq] at h
        have := ih y r s (fun hm => hx (by simp [hm])) (fun hm => hy (by simp [hm])) h.2
        exact ⟨by rw [h.1, this.1], this.2⟩
  have := aux x y r s hx hy (by simpa using h)
  exact ⟨by rw [this.1], this.2⟩

theorem flatten_lines_inj : ∀ (L M : List (List Char)), (∀ l ∈ L, IsLine l) →
    (∀ l ∈ M, IsLine l) → L.flatten = M.flatten → L = M := by
  intro L
  induction L with
  | nil =>
    intro M _ hM h
    cases M with
    | nil => rfl
    | cons m M =>
      obtain ⟨b, -, hb⟩ := hM m (by simp)
      rw [hb] at h; simp at h
  | cons l L ih =>
    intro M hL hM h
    cases M with
    | nil =>
      obtain ⟨b, -, hb⟩ := hL l (by simp)
      rw [hb] at h; simp at h
    | cons m M =>
      have := line_split (hL l (by simp)) (hM m (by simp)) (by simpa using h)
      rw [this.1, ih M (fun x hx => hL x (by simp [hx])) (fun x hx => hM x (by simp [hx])) this.2]

/-- C44: two sets of deltas (lines) are hashed from the same text iff they are the same
set: up to collisions of md5, each configuration has its own directory. -/
theorem C44_names (a b : List (List Char)) (ha : ∀ l ∈ a, IsLine l) (hb : ∀ l ∈ b, IsLine l) :
    hashed a = hashed b ↔ a.Perm b := by
  unfold hashed
  have pa := List.perm_insertionSort (· ≤ ·) a
  have pb := List.perm_insertionSort (· ≤ ·) b
  constructor
  · intro h
    have := flatten_lines_inj _ _ (fun l hl => ha l (pa.mem_iff.1 hl))
      (fun l hl => hb l (pb.mem_iff.1 hl)) h
    exact pa.symm.trans (this ▸ pb)
  · intro h
    congr 1
    exact List.Perm.eq_of_pairwise (le := (· ≤ ·)) (fun x y _ _ h1 h2 => List.le_antisymm h1 h2)
      (List.pairwise_insertionSort (· ≤ ·) a) (List.pairwise_insertionSort (· ≤ ·) b)
      (pa.trans (h.trans pb.symm))

example : hashed ["b\n".toList, "a\n".toList] = "a\nb\n".toList := by decide +kernel

/-- Without the ends of lines the names would collide. -/
example : hashed ["ab".toList, "c".toList] = hashed ["a".toList, "bc".toList] := by
  decide +kernel

end Verif.Ddtool
