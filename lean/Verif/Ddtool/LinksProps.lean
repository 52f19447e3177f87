import Verif.Ddtool.Links
import Mathlib.Data.List.Nodup
import Mathlib.Data.List.Perm.Basic

/-!
# Property C120: where the results of a search are found

Documentation: doc/04-DeltaDebug.md:46-54.  `dd.line/ddminX/dd.line.include` has the lines of the set number X, and
`dd.line/rddmin-cmp/dd.line.exclude` those of all sets found.  This holds in a new directory.  In a directory that an earlier search has
left, links of larger numbers stay, and the files of a set are not written again, although those of the complement depend on the program.
The default algorithm reports no set of a program with a single line.
-/

namespace Verif.Ddtool.Links

variable {α K : Type} [DecidableEq α] [DecidableEq K]

theorem prepare_links (name : List α → K) (lines c : List α) (d : Dir α K) : (prepare name lines c d).links = d.links := by
  unfold prepare
  split <;> rfl

/-- The link of a label is that of the last set reported with it, or the one from before. -/
theorem C120_links (name : List α → K) (lines : List α) (evs : List (Event α)) : ∀ (d : Dir α K) (l : List Char),
    (run name lines d evs).links l =
      (((founds evs).reverse.find? fun p => p.1 == l).map fun p => name p.2).or (d.links l) := by
  induction evs with
  | nil => intro d l; rfl
  | cons e es ih =>
    intro d l
    show (run name lines (step name lines d e) es).links l = _
    rw [ih]
    cases e with
    | test c => rw [show (step name lines d (.test c)).links = d.links from prepare_links name lines c d]; rfl
    | found lab c =>
      show _ = Option.or (Option.map _ (List.find? _ ((lab, c) :: founds es).reverse)) _
      rw [List.reverse_cons, List.find?_append]
      cases List.find? (fun p => p.1 == l) (founds es).reverse with
      | some p => rfl
      | none =>
        show (if l = lab then some (name c) else (prepare name lines c d).links l) = _
        rw [prepare_links]
        by_cases h : l = lab
        · subst h
          simp
        · rw [if_neg h]
          have : (lab == l) = false := by simpa using fun e => h e.symm
          simp [this]

/-- Every directory of a set has the files of some set of its name. -/
def Written (name : List α → K) (lines : List α) (d : Dir α K) (evs : List (Event α)) : Prop :=
  ∀ k f, (run name lines d evs).files k = some f → d.files k = some f ∨ ∃ e ∈ evs, name e.set = k ∧ f = gen lines e.set

theorem prepare_files {name : List α → K} {lines c : List α} {d : Dir α K} {k : K} {f : Files α}
    (h : (prepare name lines c d).files k = some f) : d.files k = some f ∨ (name c = k ∧ f = gen lines c) := by
  unfold prepare at h
  split at h
  · exact Or.inl h
  · simp only at h
    split at h
    · rename_i hk
      injection h with h
      exact Or.inr ⟨hk.symm, h.symm⟩
    · exact Or.inl h

theorem step_files {name : List α → K} {lines : List α} {d : Dir α K} {e : Event α} {k : K} {f : Files α}
    (h : (step name lines d e).files k = some f) : d.files k = some f ∨ (name e.set = k ∧ f = gen lines e.set) := by
  cases e with
  | test c => exact prepare_files h
  | found l c => exact prepare_files h

theorem written (name : List α → K) (lines : List α) : ∀ (evs : List (Event α)) (d : Dir α K), Written name lines d evs := by
  intro evs
  induction evs with
  | nil => intro d k f h; exact Or.inl h
  | cons e es ih =>
    intro d k f h
    rcases ih (step name lines d e) k f h with h | ⟨e', he, h⟩
    · rcases step_files h with h | h
      · exact Or.inl h
      · exact Or.inr ⟨e, by simp, h⟩
    · exact Or.inr ⟨e', by simp [he], h⟩

theorem prepare_some {name : List α → K} {lines c : List α} {d : Dir α K} :
    (∀ k f, d.files k = some f → (prepare name lines c d).files k = some f) ∧ ∃ f, (prepare name lines c d).files (name c) = some f := by
  unfold prepare
  cases h : d.files (name c) with
  | some g => exact ⟨fun k f e => e, g, h⟩
  | none =>
    refine ⟨?_, gen lines c, if_pos rfl⟩
    intro k f e
    show (if k = name c then _ else _) = _
    rw [if_neg]
    · exact e
    · rintro rfl
      rw [h] at e
      cases e

/-- Files stay as they are, and those of every set of the search are there. -/
theorem C120_kept (name : List α → K) (lines : List α) : ∀ (evs : List (Event α)) (d : Dir α K),
    (∀ k f, d.files k = some f → (run name lines d evs).files k = some f) ∧
      ∀ e ∈ evs, ∃ f, (run name lines d evs).files (name e.set) = some f := by
  intro evs
  induction evs with
  | nil => intro d; exact ⟨fun k f h => h, by simp⟩
  | cons e es ih =>
    intro d
    have hs : (∀ k f, d.files k = some f → (step name lines d e).files k = some f) ∧
        ∃ f, (step name lines d e).files (name e.set) = some f := by
      cases e <;> exact prepare_some
    obtain ⟨i1, i2⟩ := ih (step name lines d e)
    refine ⟨fun k f h => i1 k f (hs.1 k f h), ?_⟩
    intro e' he
    rcases List.mem_cons.1 he with rfl | he
    · obtain ⟨f, hf⟩ := hs.2
      exact ⟨f, i1 _ _ hf⟩
    · exact i2 e' he

theorem ddmin_inj {i j : Nat} (h : ddmin i = ddmin j) : i = j := by
  have h' : Nat.toDigits 10 i = Nat.toDigits 10 j := List.append_cancel_left h
  have := congrArg (fun l => Nat.ofDigitChars 10 l 0) h'
  simpa only [Nat.ofDigitChars_ten_toDigits] using this

theorem ddmin_ne (i : Nat) : ddmin i ≠ "rddmin-cmp".toList := by
  intro h
  injection h with h _
  exact absurd h (by decide)

omit [DecidableEq α] in
theorem found_mem {evs : List (Event α)} {l : List Char} {c : List α} (h : (l, c) ∈ founds evs) : Event.found l c ∈ evs := by
  induction evs with
  | nil => cases h
  | cons e es ih =>
    cases e with
    | test c' => exact List.mem_cons_of_mem _ (ih h)
    | found l' c' =>
      rcases List.mem_cons.1 h with h | h
      · injection h with h1 h2
        subst h1 h2
        exact List.mem_cons_self
      · exact List.mem_cons_of_mem _ (ih h)

/-- Where a label leads that is used once. -/
theorem read_once {name : List α → K} {lines : List α} {evs : List (Event α)} {d : Dir α K} {l : List Char} {c : List α}
    (h : (l, c) ∈ founds evs) (hu : ∀ c', (l, c') ∈ founds evs → c' = c) : (run name lines d evs).links l = some (name c) := by
  rw [C120_links]
  cases hf : (founds evs).reverse.find? fun p => p.1 == l with
  | none =>
    rw [List.find?_eq_none] at hf
    exact absurd (beq_self_eq_true l) (hf (l, c) (List.mem_reverse.2 h))
  | some p =>
    have h1 : p.1 = l := by simpa using List.find?_some hf
    have h2 : p ∈ founds evs := List.mem_reverse.1 (List.mem_of_find?_eq_some hf)
    have h3 : p.2 = c := hu p.2 (by rw [← h1]; exact h2)
    rw [← h3]
    rfl

theorem mem_excl {lines : List α} (hn : lines.Nodup) (c : List α) (x : α) : x ∈ (gen lines c).excl ↔ x ∈ lines ∧ x ∉ c := by
  have key : ∀ (c lines : List α), lines.Nodup → (x ∈ c.foldl List.erase lines ↔ x ∈ lines ∧ x ∉ c) := by
    intro c
    induction c with
    | nil => intro lines _; simp
    | cons a c ih =>
      intro lines hn
      rw [List.foldl_cons, ih _ (hn.erase a), hn.mem_erase_iff, List.mem_cons]
      tauto
  exact key c lines hn

/-- **C120** (partial: in a new directory, and without collisions of md5.)  Whatever is tested in between, after a search that reports the
sets `confs`, the files of link `ddminX` have the lines of the set number X, and the file `exclude` of `rddmin-cmp` has the lines of all of
them and no others. -/
theorem C120_partial (name : List α → K) (hname : ∀ a b, name a = name b → a.Perm b) (lines : List α) (hn : lines.Nodup)
    (confs : List (List α)) (hc : ∀ c ∈ confs, c ⊆ lines) (evs : List (Event α)) (he : founds evs = reports lines confs)
    (d : Dir α K) (hd : ∀ k, d.files k = none) :
    (∀ (i : Nat) (h : i < confs.length), ∃ f, (run name lines d evs).read (ddmin i) = some f ∧ f.incl.Perm confs[i]) ∧
      ∃ f, (run name lines d evs).read "rddmin-cmp".toList = some f ∧ ∀ x, x ∈ f.excl ↔ ∃ c ∈ confs, x ∈ c := by
  have main : ∀ l c, (l, c) ∈ founds evs → (∀ c', (l, c') ∈ founds evs → c' = c) →
      ∃ c', c'.Perm c ∧ (run name lines d evs).read l = some (gen lines c') := by
    intro l c h hu
    obtain ⟨f, hf⟩ := (C120_kept name lines evs d).2 _ (found_mem h)
    have hl := read_once (name := name) (lines := lines) (d := d) h hu
    rcases written name lines evs d _ f hf with h' | ⟨e, -, h1, h2⟩
    · rw [hd] at h'
      cases h'
    · refine ⟨e.set, hname _ _ h1, ?_⟩
      unfold Dir.read
      rw [hl]
      show (run name lines d evs).files (name c) = _
      rw [← h2]
      exact hf
  constructor
  · intro i h
    obtain ⟨c', p, r⟩ := main (ddmin i) confs[i] (by
      rw [he]
      unfold reports reportsOf
      refine List.mem_append_left _ (List.mem_map.2 ⟨(confs[i], i), ?_, rfl⟩)
      rw [List.mk_mem_zipIdx_iff_getElem?]
      exact List.getElem?_eq_getElem h) (by
      intro c' h'
      rw [he] at h'
      unfold reports reportsOf at h'
      rcases List.mem_append.1 h' with h' | h'
      · obtain ⟨⟨c2, j⟩, hj, e⟩ := List.mem_map.1 h'
        injection e with e1 e2
        have : j = i := ddmin_inj e1
        subst this
        rw [List.mk_mem_zipIdx_iff_getElem?] at hj
        simp only at e2
        rw [← e2]
        rw [List.getElem?_eq_getElem h] at hj
        exact (Option.some.inj hj).symm
      · rw [List.mem_singleton] at h'
        injection h' with h1 _
        exact absurd h1 (ddmin_ne i))
    exact ⟨_, r, p⟩
  · obtain ⟨c', p, r⟩ := main "rddmin-cmp".toList (complement lines confs) (by
      rw [he]
      exact List.mem_append_right _ (List.mem_singleton.2 rfl)) (by
      intro c' h'
      rw [he] at h'
      unfold reports reportsOf at h'
      rcases List.mem_append.1 h' with h' | h'
      · obtain ⟨q, -, e⟩ := List.mem_map.1 h'
        injection e with e1 _
        exact absurd e1 (ddmin_ne _)
      · rw [List.mem_singleton] at h'
        injection h' with _ h2)
    refine ⟨_, r, ?_⟩
    intro x
    rw [mem_excl hn, p.mem_iff]
    unfold complement
    rw [List.mem_filter]
    constructor
    · rintro ⟨h1, h2⟩
      have : x ∈ confs.flatten := by
        by_contra hx
        exact h2 ⟨h1, by simpa using hx⟩
      simpa using this
    · rintro ⟨c, h1, h2⟩
      refine ⟨hc c h1 h2, ?_⟩
      rintro ⟨-, h3⟩
      have : x ∉ confs.flatten := by simpa using h3
      exact this (List.mem_flatten.2 ⟨c, h1, h2⟩)

/-- **C120** is false in a directory with earlier results: links of numbers that the search does not reach stay. -/
theorem C120_stale_wrong (name : List α → K) (lines : List α) (returned reported : List (List α)) (evs : List (Event α))
    (he : founds evs = reportsOf lines returned reported) (d : Dir α K) (i : Nat) (hi : reported.length ≤ i) :
    (run name lines d evs).links (ddmin i) = d.links (ddmin i) := by
  rw [C120_links]
  have : (founds evs).reverse.find? (fun p => p.1 == ddmin i) = none := by
    rw [List.find?_eq_none]
    intro p hp hl
    have hl : p.1 = ddmin i := by simpa using hl
    rw [List.mem_reverse, he] at hp
    unfold reportsOf at hp
    rcases List.mem_append.1 hp with hp | hp
    · obtain ⟨⟨c2, j⟩, hj, e⟩ := List.mem_map.1 hp
      have e1 : ddmin j = ddmin i := by rw [← hl, ← e]
      have : j = i := ddmin_inj e1
      subst this
      rw [List.mk_mem_zipIdx_iff_getElem?, List.getElem?_eq_none hi] at hj
      cases hj
    · rw [List.mem_singleton] at hp
      rw [hp] at hl
      exact ddmin_ne i hl.symm
  rw [this]
  rfl

theorem ssplit_single (split : List α → Nat → Found α) (h : ∀ run, split [] run = ([], [])) (x : α) : ∀ dicTab,
    ssplit split [x] dicTab [[x]] = ([[x]], []) := by
  intro dicTab
  induction dicTab with
  | nil => rfl
  | cons run runs ih =>
    have e1 : resplit split run [[x]] = ([[x]], []) := rfl
    have e2 : ([x].filter fun y => y ∉ [[x]].flatten) = [] := by simp
    simp only [ssplit, e1, e2, h, ih, List.append_nil]

/-- **C120** is false of the default algorithm on a program with one line: the search returns the set of this line, whatever its other
parts do, and never reports it; so a link `ddmin0` is not made. -/
theorem C120_single_wrong (split : List α → Nat → Found α) (srdd : List α → Found α) (passes : List α → Bool)
    (h1 : ∀ run, split [] run = ([], [])) (h2 : passes [] = true) (dicTab : List Nat) (x : α) :
    drddmin split srdd passes dicTab [x] = ([[x]], []) ∧
      ∀ (name : List α → K) (evs : List (Event α)) (d : Dir α K),
        founds evs = reportsOf [x] (drddmin split srdd passes dicTab [x]).1 (drddmin split srdd passes dicTab [x]).2 →
        ∀ i, (run name [x] d evs).links (ddmin i) = d.links (ddmin i) := by
  have key : drddmin split srdd passes dicTab [x] = ([[x]], []) := by
    have e : analyse srdd [[x]] [x] = (([[x]], []), []) := by simp [analyse, Found.append]
    simp only [drddmin, ssplit_single split h1, e, h2, if_true, List.append_nil]
  refine ⟨key, ?_⟩
  intro name evs d he i
  exact C120_stale_wrong name [x] _ _ evs he d i (by rw [key]; exact Nat.zero_le _)

/-- **C120** is false after a change of the program: line 1 was the culprit and becomes line 4, which is found; the union of the culprits
is still said to be line 1. -/
theorem C120_union_wrong :
    let before := run id [1, 2, 3] (⟨fun _ => none, fun _ => none⟩ : Dir Nat (List Nat))
      [.test [1, 2, 3], .found (ddmin 0) [1], .found "rddmin-cmp".toList [2, 3]]
    let evs : List (Event Nat) := [.test [4, 2, 3], .found (ddmin 0) [4], .found "rddmin-cmp".toList [2, 3]]
    founds evs = reports [4, 2, 3] [[4]] ∧
      ((run id [4, 2, 3] before evs).read "rddmin-cmp".toList).map Files.excl = some [1] := by
  decide +kernel

example : ∃ f, (run id [1, 2, 3, 4] (⟨fun _ => none, fun _ => none⟩ : Dir Nat (List Nat))
    [.test [1, 2, 3, 4], .test [3, 4], .found (ddmin 0) [3], .test [1, 2, 4], .found (ddmin 1) [1, 4],
      .found "rddmin-cmp".toList [2]]).read "rddmin-cmp".toList = some f ∧ ∀ x, x ∈ f.excl ↔ ∃ c ∈ [[3], [1, 4]], x ∈ c :=
  (C120_partial id (fun a b h => by rw [show a = b from h]) [1, 2, 3, 4] (by decide) [[3], [1, 4]] (by decide) _ (by decide +kernel) _
    (fun _ => rfl)).2

end Verif.Ddtool.Links
