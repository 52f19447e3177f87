import Verif.Ci.SelectProps

/-!
# C76: the command of `vfc_ci serve`
-/

namespace Verif.Ci.Report
open Verif

/-- The components that `normpath` removes or interprets. -/
def Bad (w : Str) : Prop := w = [] ∨ w = ['.'] ∨ w = ['.', '.']

/-- No such component between two slashes. -/
def Inner (s : Str) : Prop := ∀ u w v : Str, s = u ++ '/' :: w ++ '/' :: v → ¬ Bad w

theorem Bad.mem {w : Str} (h : Bad w) {c : Char} (hc : c ∈ w) : c = '.' := by
  rcases h with rfl | rfl | rfl <;> simp_all

/-! ## Texts that `normpath` leaves as they are -/

theorem join_split (s : Str) : joinSlash (splitSlash s) = s := by
  induction s with
  | nil => rfl
  | cons c s ih =>
    rw [splitSlash]
    rcases h : splitSlash s with _ | ⟨w, ws⟩
    · exact absurd h (splitSlash_ne s)
    · rw [h] at ih
      dsimp only
      split_ifs with hc
      · subst hc
        rw [joinSlash, ih]
        · rfl
        · simp
      · rcases ws with _ | ⟨x, ws⟩
        · rw [joinSlash] at ih ⊢
          rw [ih]
        · rw [joinSlash] at ih ⊢
          · rw [← ih]; rfl
          · simp
          · simp

theorem foldl_good (ws : List Str) (h : ∀ w ∈ ws, ¬ Bad w) : ∀ acc, ws.foldl normStep acc = ws.reverse ++ acc := by
  induction ws with
  | nil => intro acc; rfl
  | cons w ws ih =>
    intro acc
    have hw := h w (by simp)
    have h1 : w ≠ [] := fun e => hw (.inl e)
    have h2 : w ≠ ['.'] := fun e => hw (.inr (.inl e))
    have h3 : w ≠ ['.', '.'] := fun e => hw (.inr (.inr e))
    rw [List.foldl_cons, ih (fun v hv => h v (by simp [hv]))]
    unfold normStep
    rw [if_neg (by tauto), if_pos h3]
    simp

theorem normpath_good {s : Str} (h : ∀ w ∈ splitSlash s, ¬ Bad w) : normpath s = s := by
  unfold normpath
  dsimp only
  rw [foldl_good _ h, List.append_nil, List.reverse_reverse, join_split, if_neg]
  rintro rfl
  exact h [] (by simp [splitSlash]) (.inl rfl)

theorem joinSlash_cons (a b : Str) (l : List Str) : joinSlash (a :: b :: l) = a ++ '/' :: joinSlash (b :: l) := rfl

theorem join_append (l : List Str) (w : Str) (r : List Str) : joinSlash (l ++ w :: r) =
    (if l = [] then [] else joinSlash l ++ ['/']) ++ w ++ (if r = [] then [] else '/' :: joinSlash r) := by
  induction l with
  | nil =>
    rcases r with _ | ⟨x, r⟩
    · simp [joinSlash]
    · rw [List.nil_append, joinSlash_cons, if_pos rfl, if_neg (by simp), List.nil_append]
  | cons a l ih =>
    rw [if_neg (by simp)]
    rcases l with _ | ⟨b, l⟩
    · rw [List.nil_append, if_pos rfl, List.nil_append] at ih
      rw [List.singleton_append, joinSlash_cons, ih]
      simp [joinSlash]
    · have e : (a :: b :: l) ++ w :: r = a :: b :: (l ++ w :: r) := rfl
      have e' : (b :: l) ++ w :: r = b :: (l ++ w :: r) := rfl
      rw [if_neg (by simp), e'] at ih
      rw [e, joinSlash_cons, ih, joinSlash_cons]
      simp

theorem mem_split {s w : Str} (h : w ∈ splitSlash s) : ∃ u v : Str, s = u ++ w ++ v ∧
    (u = [] ∨ ∃ u', u = u' ++ ['/']) ∧ (v = [] ∨ ∃ v', v = '/' :: v') := by
  obtain ⟨l, r, e⟩ := List.append_of_mem h
  have hj := join_append l w r
  rw [← e, join_split] at hj
  refine ⟨_, _, hj, ?_, ?_⟩
  · by_cases hl : l = []
    · exact .inl (if_pos hl)
    · exact .inr ⟨_, if_neg hl⟩
  · by_cases hr : r = []
    · exact .inl (if_pos hr)
    · exact .inr ⟨_, if_neg hr⟩

/-- Neither a slash nor a dot. -/
def Plain (c : Char) : Prop := c ≠ '/' ∧ c ≠ '.'

theorem normpath_id {s : Str} (hi : Inner s) {c d : Char} {x y : Str} (hc : Plain c) (hd : Plain d)
    (h1 : s = c :: x) (h2 : s = y ++ [d]) : normpath s = s := by
  apply normpath_good
  intro w hw hb
  obtain ⟨u, v, e, hu, hv⟩ := mem_split hw
  rcases hu with rfl | ⟨u', rfl⟩
  · rw [List.nil_append] at e
    rw [e] at h1
    rcases w with _ | ⟨a, w⟩
    · rcases hv with rfl | ⟨v', rfl⟩
      · simp at h1
      · simp at h1
        exact hc.1 h1.1.symm
    · simp at h1
      exact hc.2 (hb.mem (by rw [h1.1]; simp))
  · rcases hv with rfl | ⟨v', rfl⟩
    · rw [List.append_nil] at e
      rw [e] at h2
      rcases List.eq_nil_or_concat w with rfl | ⟨w', a, rfl⟩
      · rw [List.append_nil] at h2
        have := (List.append_inj' h2 rfl).2
        simp at this
        exact hd.1 this.symm
      · rw [List.concat_eq_append, ← List.append_assoc] at h2
        have := (List.append_inj' h2 rfl).2
        simp at this
        exact hd.2 (hb.mem (by rw [this]; simp))
    · exact hi u' w v' (by rw [e]; simp) hb

theorem inner_join {a b : Str} {c : Char} (hc : Plain c) (ha : Inner a) (hb : Inner b) : Inner (a ++ c :: b) := by
  intro u w v e hbad
  have e' : a ++ c :: b = (u ++ ('/' :: w ++ ['/'])) ++ v := by rw [e]; simp
  rcases List.append_eq_append_iff.1 e' with ⟨t, h1, h2⟩ | ⟨t, h1, h2⟩
  · rcases t with _ | ⟨c', t⟩
    · rw [List.append_nil] at h1
      exact ha u w [] (by rw [← h1]; simp) hbad
    · rw [List.cons_append] at h2
      injection h2 with h2 h3
      subst h2
      rcases List.append_eq_append_iff.1 h1 with ⟨q, h4, h5⟩ | ⟨q, h4, h5⟩
      · have hm : c ∈ '/' :: w ++ ['/'] := by rw [h5]; simp
        simp at hm
        rcases hm with h | h | h
        · exact hc.1 h
        · exact hc.2 (hbad.mem h)
        · exact hc.1 h
      · rcases q with _ | ⟨c', q⟩
        · rw [List.nil_append, List.cons_append] at h5
          injection h5 with h5 _
          exact hc.1 h5
        · rw [List.cons_append] at h5
          injection h5 with h5 h6
          exact hb q w v (by rw [h3, h6]; simp) hbad
  · exact ha u w t (by rw [h1]; simp) hbad

theorem inner_of_not_mem {s : Str} (h : '/' ∉ s) : Inner s := by
  rintro u w v rfl
  simp at h

/-! ## The parts of the command -/

/-- Texts with a space between them. -/
def joinSp : List Str → Str
  | [] => []
  | [w] => w
  | w :: ws => w ++ ' ' :: joinSp ws

theorem inner_joinSp {ws : List Str} (h : ∀ w ∈ ws, Inner w) : Inner (joinSp ws) := by
  induction ws with
  | nil => exact inner_of_not_mem (by simp [joinSp])
  | cons w ws ih =>
    rcases ws with _ | ⟨x, ws⟩
    · exact h w (by simp)
    · rw [joinSp]
      · exact inner_join ⟨by decide, by decide⟩ (h w (by simp)) (ih fun v hv => h v (by simp [hv]))
      · simp

def optParts (name : Str) (value : Option Str) : List Str :=
  match value with
  | none => [[]]
  | some v => [name, v]

theorem optArg_eq (name : Str) (value : Option Str) : optArg name value = joinSp (optParts name value) := by
  cases value with
  | none => rfl
  | some v => simp [optArg, optParts, joinSp]

def logoOpt (o : Serve) : Option Str := if o.logo = [] then none else some o.logo

/-- The parts of the command, some of which may be empty. -/
def parts (o : Serve) : List Str :=
  ["bokeh".toList, "serve".toList, o.dirname ++ "/vfc_ci_report".toList, if o.show_ then "--show".toList else [],
   "--allow-websocket-origin=".toList ++ o.origin ++ ":".toList ++ Nat.toDigits 10 o.port, "--port".toList,
   Nat.toDigits 10 o.port, "--args".toList, "directory".toList, o.directory] ++
  optParts "logo".toList (logoOpt o) ++ optParts "max_files".toList (natArg o.maxFiles) ++
  optParts "ignore_recent".toList (natArg o.ignoreRecent)

theorem joinSp_cons (a b : Str) (l : List Str) : joinSp (a :: b :: l) = a ++ ' ' :: joinSp (b :: l) := rfl

theorem joinSp_append {l r : List Str} (hl : l ≠ []) (hr : r ≠ []) : joinSp (l ++ r) = joinSp l ++ ' ' :: joinSp r := by
  induction l with
  | nil => exact absurd rfl hl
  | cons a l ih =>
    rcases l with _ | ⟨b, l⟩
    · rw [List.singleton_append, joinSp, joinSp]
      exact hr
    · have e : (a :: b :: l) ++ r = a :: b :: (l ++ r) := rfl
      have e' : (b :: l) ++ r = b :: (l ++ r) := rfl
      have ih := ih (by simp)
      rw [e'] at ih
      rw [e, joinSp_cons, ih, joinSp_cons]
      simp

theorem optParts_ne (name : Str) (v : Option Str) : optParts name v ≠ [] := by
  cases v <;> simp [optParts]

theorem raw_eq (o : Serve) : rawCommand o = joinSp (parts o) := by
  unfold parts
  rw [joinSp_append (by simp) (optParts_ne _ _), joinSp_append (by simp) (optParts_ne _ _),
    joinSp_append (by simp) (optParts_ne _ _), ← optArg_eq, ← optArg_eq, ← optArg_eq]
  unfold rawCommand logoOpt
  simp [joinSp]

/-- What the directory of the module, the origin, the directory of the runs and the URL of the logo
must be like: no component between two slashes that is empty or made of one or two dots. -/
structure Clean (o : Serve) : Prop where
  dirname : Inner (o.dirname ++ "/".toList)
  origin : Inner o.origin
  directory : Inner o.directory
  logo : Inner o.logo

theorem digits_inner (n : Nat) : Inner (Nat.toDigits 10 n) :=
  inner_of_not_mem fun h => digit_ne (d := '/') (by decide) h rfl

theorem optParts_inner {name : Str} {v : Option Str} (hn : Inner name) (hv : ∀ x, v = some x → Inner x) :
    ∀ w ∈ optParts name v, Inner w := by
  cases v with
  | none => intro w hw; simp [optParts] at hw; subst hw; exact inner_of_not_mem (by simp)
  | some x =>
    intro w hw
    simp [optParts] at hw
    rcases hw with rfl | rfl
    · exact hn
    · exact hv _ rfl

theorem natArg_inner {n : Nat} {x : Str} (h : natArg n = some x) : Inner x := by
  unfold natArg at h
  split_ifs at h
  injection h with h
  subst h
  exact digits_inner n

theorem parts_inner {o : Serve} (h : Clean o) : ∀ w ∈ parts o, Inner w := by
  intro w hw
  unfold parts at hw
  rcases List.mem_append.1 hw with hw | hw
  rcases List.mem_append.1 hw with hw | hw
  rcases List.mem_append.1 hw with hw | hw
  · rcases List.mem_cons.1 hw with rfl | hw
    · exact inner_of_not_mem (by decide)
    rcases List.mem_cons.1 hw with rfl | hw
    · exact inner_of_not_mem (by decide)
    rcases List.mem_cons.1 hw with rfl | hw
    · have e : o.dirname ++ "/vfc_ci_report".toList = (o.dirname ++ "/".toList) ++ 'v' :: "fc_ci_report".toList := by
        simp
      rw [e]
      exact inner_join ⟨by decide, by decide⟩ h.dirname (inner_of_not_mem (by decide))
    rcases List.mem_cons.1 hw with rfl | hw
    · split_ifs
      · exact inner_of_not_mem (by decide)
      · exact inner_of_not_mem (by decide)
    rcases List.mem_cons.1 hw with rfl | hw
    · have e : "--allow-websocket-origin=".toList ++ o.origin ++ ":".toList ++ Nat.toDigits 10 o.port =
          "--allow-websocket-origin".toList ++ '=' :: (o.origin ++ ':' :: Nat.toDigits 10 o.port) := by simp
      rw [e]
      exact inner_join ⟨by decide, by decide⟩ (inner_of_not_mem (by decide))
        (inner_join ⟨by decide, by decide⟩ h.origin (digits_inner _))
    rcases List.mem_cons.1 hw with rfl | hw
    · exact inner_of_not_mem (by decide)
    rcases List.mem_cons.1 hw with rfl | hw
    · exact digits_inner _
    rcases List.mem_cons.1 hw with rfl | hw
    · exact inner_of_not_mem (by decide)
    rcases List.mem_cons.1 hw with rfl | hw
    · exact inner_of_not_mem (by decide)
    · rw [List.mem_singleton] at hw
      rw [hw]
      exact h.directory
  · refine optParts_inner (inner_of_not_mem (by decide)) ?_ w hw
    intro x hx
    unfold logoOpt at hx
    split_ifs at hx
    injection hx with hx
    subst hx
    exact h.logo
  · exact optParts_inner (inner_of_not_mem (by decide)) (fun x hx => natArg_inner hx) w hw
  · exact optParts_inner (inner_of_not_mem (by decide)) (fun x hx => natArg_inner hx) w hw

theorem raw_ends (o : Serve) : ∃ (y : Str) (d : Char), Plain d ∧ rawCommand o = y ++ [d] := by
  have key : ∀ A : Str, ∃ (y : Str) (d : Char), Plain d ∧
      A ++ " ".toList ++ optArg "ignore_recent".toList (natArg o.ignoreRecent) = y ++ [d] := by
    intro A
    by_cases h : o.ignoreRecent = 0
    · refine ⟨A, ' ', ⟨by decide, by decide⟩, ?_⟩
      unfold natArg
      rw [if_pos h]
      unfold optArg
      rw [List.append_nil]
      rfl
    · unfold natArg
      rw [if_neg h]
      unfold optArg
      dsimp only
      obtain ⟨l, d, e⟩ : ∃ l d, Nat.toDigits 10 o.ignoreRecent = l ++ [d] := by
        rcases List.eq_nil_or_concat (Nat.toDigits 10 o.ignoreRecent) with h | ⟨l, d, h⟩
        · exact absurd h Nat.toDigits_ne_nil
        · exact ⟨l, d, by rw [h, List.concat_eq_append]⟩
      have hd : d ∈ Nat.toDigits 10 o.ignoreRecent := by rw [e]; simp
      exact ⟨A ++ " ".toList ++ ("ignore_recent".toList ++ " ".toList ++ l), d,
        ⟨digit_ne (by decide) hd, digit_ne (by decide) hd⟩, by rw [e]; simp⟩
  exact key _

/-- The command of clean options is the one that was written. -/
theorem command_eq {o : Serve} (h : Clean o) : command o = rawCommand o := by
  obtain ⟨y, d, hd, e⟩ := raw_ends o
  obtain ⟨x, hx⟩ : ∃ x, rawCommand o = 'b' :: x := ⟨_, rfl⟩
  refine normpath_id ?_ ⟨by decide, by decide⟩ hd hx e
  rw [raw_eq]
  exact inner_joinSp (parts_inner h)

/-! ## The words of the command -/

theorem wordsFrom_sp {w : Str} (h : ' ' ∉ w) (r : Str) : ∀ cur,
    wordsFrom cur (w ++ ' ' :: r) = (if cur ++ w = [] then [] else [cur ++ w]) ++ words r := by
  induction w with
  | nil => intro cur; rw [List.nil_append, wordsFrom, if_pos rfl, List.append_nil]; rfl
  | cons c w ih =>
    intro cur
    have hc : c ≠ ' ' := by rintro rfl; simp at h
    rw [List.cons_append, wordsFrom, if_neg hc, ih (fun hm => h (by simp [hm]))]
    simp

theorem words_sp {w : Str} (h : ' ' ∉ w) (r : Str) :
    words (w ++ ' ' :: r) = (if w = [] then [] else [w]) ++ words r := wordsFrom_sp h r []

theorem wordsFrom_word {w : Str} (h : ' ' ∉ w) : ∀ cur,
    wordsFrom cur w = if cur ++ w = [] then [] else [cur ++ w] := by
  induction w with
  | nil => intro cur; rw [wordsFrom, List.append_nil]
  | cons c w ih =>
    intro cur
    have hc : c ≠ ' ' := by rintro rfl; simp at h
    rw [wordsFrom, if_neg hc, ih (fun hm => h (by simp [hm]))]
    simp

theorem words_word {w : Str} (h : ' ' ∉ w) : words w = if w = [] then [] else [w] := wordsFrom_word h []

theorem words_joinSp {ws : List Str} (h : ∀ w ∈ ws, ' ' ∉ w) :
    words (joinSp ws) = ws.filter fun w => decide (w ≠ []) := by
  induction ws with
  | nil => rfl
  | cons w ws ih =>
    rcases ws with _ | ⟨x, ws⟩
    · rw [joinSp, words_word (h w (by simp)), List.filter_cons]
      by_cases hw : w = [] <;> simp [hw]
    · rw [joinSp_cons, words_sp (h w (by simp)), ih (fun v hv => h v (by simp [hv])), List.filter_cons (x := w)]
      by_cases hw : w = [] <;> simp [hw]

/-- The words that an optional argument should be. -/
def optWords (name : Str) (value : Str) (given : Bool) : List Str := if given then [name, value] else []

/-- The words that the command of some options should have. -/
def expected (o : Serve) : List Str :=
  ["bokeh".toList, "serve".toList, o.dirname ++ "/vfc_ci_report".toList] ++
  (if o.show_ then ["--show".toList] else []) ++
  ["--allow-websocket-origin=".toList ++ o.origin ++ ":".toList ++ Nat.toDigits 10 o.port, "--port".toList,
   Nat.toDigits 10 o.port, "--args".toList, "directory".toList, o.directory] ++
  optWords "logo".toList o.logo (decide (o.logo ≠ [])) ++
  optWords "max_files".toList (Nat.toDigits 10 o.maxFiles) (decide (o.maxFiles ≠ 0)) ++
  optWords "ignore_recent".toList (Nat.toDigits 10 o.ignoreRecent) (decide (o.ignoreRecent ≠ 0))

/-- No spaces in the texts given. -/
structure NoSpace (o : Serve) : Prop where
  dirname : ' ' ∉ o.dirname
  origin : ' ' ∉ o.origin
  directory : ' ' ∉ o.directory
  logo : ' ' ∉ o.logo

theorem digits_nospace (n : Nat) : ' ' ∉ Nat.toDigits 10 n := fun h => digit_ne (d := ' ') (by decide) h rfl

theorem natArg_nospace {n : Nat} {x : Str} (h : natArg n = some x) : ' ' ∉ x := by
  unfold natArg at h
  split_ifs at h
  injection h with h
  subst h
  exact digits_nospace n

theorem optParts_nospace {name : Str} {v : Option Str} (hn : ' ' ∉ name) (hv : ∀ x, v = some x → ' ' ∉ x) :
    ∀ w ∈ optParts name v, ' ' ∉ w := by
  cases v with
  | none => intro w hw; simp [optParts] at hw; subst hw; simp
  | some x =>
    intro w hw
    simp [optParts] at hw
    rcases hw with rfl | rfl
    · exact hn
    · exact hv _ rfl

theorem parts_nospace {o : Serve} (h : NoSpace o) : ∀ w ∈ parts o, ' ' ∉ w := by
  intro w hw
  unfold parts at hw
  rcases List.mem_append.1 hw with hw | hw
  rcases List.mem_append.1 hw with hw | hw
  rcases List.mem_append.1 hw with hw | hw
  · rcases List.mem_cons.1 hw with rfl | hw
    · decide
    rcases List.mem_cons.1 hw with rfl | hw
    · decide
    rcases List.mem_cons.1 hw with rfl | hw
    · intro hm
      rcases List.mem_append.1 hm with hm | hm
      · exact h.dirname hm
      · exact absurd hm (by decide)
    rcases List.mem_cons.1 hw with rfl | hw
    · split_ifs
      · decide
      · decide
    rcases List.mem_cons.1 hw with rfl | hw
    · intro hm
      rcases List.mem_append.1 hm with hm | hm
      rcases List.mem_append.1 hm with hm | hm
      rcases List.mem_append.1 hm with hm | hm
      · exact absurd hm (by decide)
      · exact h.origin hm
      · exact absurd hm (by decide)
      · exact digits_nospace _ hm
    rcases List.mem_cons.1 hw with rfl | hw
    · decide
    rcases List.mem_cons.1 hw with rfl | hw
    · exact digits_nospace _
    rcases List.mem_cons.1 hw with rfl | hw
    · decide
    rcases List.mem_cons.1 hw with rfl | hw
    · decide
    · rw [List.mem_singleton] at hw
      rw [hw]
      exact h.directory
  · refine optParts_nospace (by decide) ?_ w hw
    intro x hx
    unfold logoOpt at hx
    split_ifs at hx
    injection hx with hx
    subst hx
    exact h.logo
  · exact optParts_nospace (by decide) (fun x hx => natArg_nospace hx) w hw
  · exact optParts_nospace (by decide) (fun x hx => natArg_nospace hx) w hw

theorem filter_nat (name : Str) (hn : name ≠ []) (n : Nat) :
    ((optParts name (natArg n)).filter fun w => decide (w ≠ [])) =
      optWords name (Nat.toDigits 10 n) (decide (n ≠ 0)) := by
  unfold natArg optWords
  by_cases h : n = 0
  · simp [h, optParts]
  · simp [h, optParts, hn, Nat.toDigits_ne_nil]

theorem filter_logo (o : Serve) :
    ((optParts "logo".toList (logoOpt o)).filter fun w => decide (w ≠ [])) =
      optWords "logo".toList o.logo (decide (o.logo ≠ [])) := by
  unfold logoOpt optWords
  by_cases h : o.logo = []
  · simp [h, optParts]
  · simp [h, optParts]

/-- C76: the words of the command are the arguments given, when none contains a space, none has a
component between slashes that is empty or dots, and there is a directory.  Partial: with
such components the command is another one, `C76_logo_wrong`, `C76_parent_wrong`. -/
theorem C76_words_partial (o : Serve) (hc : Clean o) (hs : NoSpace o) (hd : o.directory ≠ []) :
    words (command o) = expected o := by
  rw [command_eq hc, raw_eq, words_joinSp (parts_nospace hs)]
  unfold parts expected
  rw [List.filter_append, List.filter_append, List.filter_append, filter_logo, filter_nat _ (by decide),
    filter_nat _ (by decide)]
  congr 3
  cases o.show_
  · simp [hd, Nat.toDigits_ne_nil]
  · simp [hd, Nat.toDigits_ne_nil]

/-! ## What the report reads -/

/-- The words after `--args`, which bokeh gives to the report. -/
def args (ws : List Str) : List Str := (ws.dropWhile fun w => decide (w ≠ "--args".toList)).drop 1

theorem option_append (name : Str) (l r : List Str) (hl : name ∉ l) (hr : r ≠ []) :
    option name (l ++ r) = option name r := by
  induction l with
  | nil => rfl
  | cons a l ih =>
    have ha : a ≠ name := by rintro rfl; simp at hl
    have ih := ih (fun h => hl (by simp [h]))
    rcases h : l ++ r with _ | ⟨b, x⟩
    · simp at h; exact absurd h.2 hr
    · rw [List.cons_append, h, option, ← h, ih]
      rcases option name r with v | _ | _
      · rcases v with _ | v
        · simp [ha]
        · rfl
      · rfl
      · rfl

theorem option_none (name : Str) (l : List Str) (hl : name ∉ l) : option name l = .ok none := by
  rcases List.eq_nil_or_concat l with rfl | ⟨l', a, rfl⟩
  · rfl
  · rw [List.concat_eq_append] at hl ⊢
    rw [option_append name l' [a] (fun h => hl (by simp [h])) (by simp), option, if_neg]
    rintro rfl
    simp at hl

theorem option_found (name v : Str) (l r : List Str) (hl : name ∉ l) (hr : name ∉ v :: r) :
    option name (l ++ name :: v :: r) = .ok (some v) := by
  rw [option_append name l _ hl (by simp), option, option_none name _ hr]
  simp

def optionNames : List Str := ["directory".toList, "logo".toList, "max_files".toList, "ignore_recent".toList]

theorem digits_ne_name {name : Str} (h : name ∈ optionNames) (n : Nat) : Nat.toDigits 10 n ≠ name := by
  intro e
  have hd : ∀ c ∈ name, c.isDigit = true := by
    rw [← e]
    exact fun c hc => Nat.isDigit_of_mem_toDigits (by norm_num) (by norm_num) hc
  have : ∀ name ∈ optionNames, ∃ c ∈ name, c.isDigit = false := by decide
  obtain ⟨c, hc, hf⟩ := this name h
  rw [hd c hc] at hf
  exact absurd hf (by decide)

theorem not_mem_optWords {name n v : Str} {g : Bool} (h1 : name ≠ n) (h2 : v ≠ name) : name ∉ optWords n v g := by
  unfold optWords
  split_ifs
  · simp [h1, h2.symm]
  · simp

theorem args_expected (o : Serve) : args (expected o) = ["directory".toList, o.directory] ++
    optWords "logo".toList o.logo (decide (o.logo ≠ [])) ++
    optWords "max_files".toList (Nat.toDigits 10 o.maxFiles) (decide (o.maxFiles ≠ 0)) ++
    optWords "ignore_recent".toList (Nat.toDigits 10 o.ignoreRecent) (decide (o.ignoreRecent ≠ 0)) := by
  have h1 : o.dirname ++ "/vfc_ci_report".toList ≠ "--args".toList := by
    intro e
    have : '/' ∈ "--args".toList := by rw [← e]; simp
    exact absurd this (by decide)
  have h2 : "--allow-websocket-origin=".toList ++ o.origin ++ ":".toList ++ Nat.toDigits 10 o.port ≠ "--args".toList := by
    intro e
    have : '=' ∈ "--args".toList := by rw [← e]; simp
    exact absurd this (by decide)
  have h3 : Nat.toDigits 10 o.port ≠ "--args".toList := by
    intro e
    have : '-' ∈ Nat.toDigits 10 o.port := by rw [e]; decide
    exact digit_ne (d := '-') (by decide) this rfl
  generalize hA : optWords "logo".toList o.logo (decide (o.logo ≠ [])) = A
  generalize hB : optWords "max_files".toList (Nat.toDigits 10 o.maxFiles) (decide (o.maxFiles ≠ 0)) = B
  generalize hC : optWords "ignore_recent".toList (Nat.toDigits 10 o.ignoreRecent) (decide (o.ignoreRecent ≠ 0)) = C
  unfold args expected
  rw [hA, hB, hC]
  generalize "--allow-websocket-origin=".toList ++ o.origin ++ ":".toList ++ Nat.toDigits 10 o.port = x at *
  generalize o.dirname ++ "/vfc_ci_report".toList = y at *
  generalize Nat.toDigits 10 o.port = z at *
  have hl : (["bokeh".toList, "serve".toList, y] ++ (if o.show_ then ["--show".toList] else []) ++
      [x, "--port".toList, z, "--args".toList, "directory".toList, o.directory] ++ A ++ B ++ C) =
      (["bokeh".toList, "serve".toList, y] ++ (if o.show_ then ["--show".toList] else []) ++ [x, "--port".toList, z]) ++
        "--args".toList :: (["directory".toList, o.directory] ++ A ++ B ++ C) := by
    simp
  rw [hl, List.dropWhile_append_of_pos, List.dropWhile_cons_of_neg (by simp)]
  · rfl
  · intro w hw
    rw [decide_eq_true_iff]
    rcases List.mem_append.1 hw with hw | hw
    rcases List.mem_append.1 hw with hw | hw
    · rcases List.mem_cons.1 hw with rfl | hw
      · decide
      rcases List.mem_cons.1 hw with rfl | hw
      · decide
      rw [List.mem_singleton] at hw
      rw [hw]; exact h1
    · split_ifs at hw
      · rw [List.mem_singleton] at hw; rw [hw]; decide
      · simp at hw
    · rcases List.mem_cons.1 hw with rfl | hw
      · exact h2
      rcases List.mem_cons.1 hw with rfl | hw
      · decide
      rw [List.mem_singleton] at hw
      rw [hw]; exact h3

/-- An optional argument among other words. -/
theorem option_optWords (name v : Str) (g : Bool) (l r : List Str) (hl : name ∉ l) (hr : name ∉ r) (hv : v ≠ name) :
    option name (l ++ optWords name v g ++ r) = .ok (if g then some v else none) := by
  cases g
  · rw [option_none]
    · rfl
    · simp [optWords, hl, hr]
  · have : l ++ optWords name v true ++ r = l ++ name :: v :: r := by simp [optWords]
    rw [this, option_found name v l r hl (by simp [hr, hv.symm])]
    rfl

theorem not_mem_append {n : Str} {l r : List Str} (h : n ∉ l) (h' : n ∉ r) : n ∉ l ++ r := by
  intro hm
  rcases List.mem_append.1 hm with hm | hm
  · exact h hm
  · exact h' hm

theorem read_generic (n0 n1 n2 n3 d v1 v2 v3 : Str) (g1 g2 g3 : Bool) (e01 : n0 ≠ n1) (e02 : n0 ≠ n2) (e03 : n0 ≠ n3)
    (e12 : n1 ≠ n2) (e13 : n1 ≠ n3) (e23 : n2 ≠ n3)
    (hd : d ≠ n0 ∧ d ≠ n1 ∧ d ≠ n2 ∧ d ≠ n3) (h1 : v1 ≠ n0 ∧ v1 ≠ n1 ∧ v1 ≠ n2 ∧ v1 ≠ n3)
    (h2 : v2 ≠ n0 ∧ v2 ≠ n1 ∧ v2 ≠ n2 ∧ v2 ≠ n3) (h3 : v3 ≠ n0 ∧ v3 ≠ n1 ∧ v3 ≠ n2 ∧ v3 ≠ n3) :
    let ws := [n0, d] ++ optWords n1 v1 g1 ++ optWords n2 v2 g2 ++ optWords n3 v3 g3
    option n0 ws = .ok (some d) ∧ option n1 ws = .ok (if g1 then some v1 else none) ∧
    option n2 ws = .ok (if g2 then some v2 else none) ∧ option n3 ws = .ok (if g3 then some v3 else none) := by
  intro ws
  have dirs : ∀ n, n0 ≠ n → d ≠ n → n ∉ [n0, d] := by
    intro n hne hd hm
    rcases List.mem_cons.1 hm with rfl | hm
    · exact hne rfl
    · rw [List.mem_singleton] at hm; exact hd hm.symm
  refine ⟨?_, ?_, ?_, ?_⟩
  · have e : ws = [] ++ n0 :: d :: (optWords n1 v1 g1 ++ optWords n2 v2 g2 ++ optWords n3 v3 g3) := by simp [ws]
    rw [e]
    apply option_found
    · simp
    · intro hm
      rcases List.mem_cons.1 hm with hm | hm
      · exact hd.1 hm.symm
      · exact not_mem_append (not_mem_append (not_mem_optWords e01 h1.1) (not_mem_optWords e02 h2.1))
          (not_mem_optWords e03 h3.1) hm
  · have e : ws = [n0, d] ++ optWords n1 v1 g1 ++ (optWords n2 v2 g2 ++ optWords n3 v3 g3) := by simp [ws]
    rw [e]
    exact option_optWords _ _ _ _ _ (dirs n1 e01 hd.2.1)
      (not_mem_append (not_mem_optWords e12 h2.2.1) (not_mem_optWords e13 h3.2.1)) h1.2.1
  · exact option_optWords _ _ _ _ _
      (not_mem_append (dirs n2 e02 hd.2.2.1) (not_mem_optWords e12.symm h1.2.2.1)) (not_mem_optWords e23 h3.2.2.1) h2.2.2.1
  · have e : ws = [n0, d] ++ optWords n1 v1 g1 ++ optWords n2 v2 g2 ++ optWords n3 v3 g3 ++ [] := by simp [ws]
    rw [e]
    exact option_optWords _ _ _ _ _
      (not_mem_append (not_mem_append (dirs n3 e03 hd.2.2.2) (not_mem_optWords e13.symm h1.2.2.2))
        (not_mem_optWords e23.symm h2.2.2.2)) (by simp) h3.2.2.2

/-- C76: the report reads the options that were given.  Partial: as `C76_words_partial`; and the
values must not be the names of options, `C76_name_wrong`. -/
theorem C76_read_partial (o : Serve) (hc : Clean o) (hs : NoSpace o) (hd : o.directory ≠ [])
    (h1 : o.directory ∉ optionNames) (h2 : o.logo ∉ optionNames) :
    option "directory".toList (args (words (command o))) = .ok (some o.directory) ∧
    option "logo".toList (args (words (command o))) = .ok (if o.logo ≠ [] then some o.logo else none) ∧
    option "max_files".toList (args (words (command o))) =
      .ok (if o.maxFiles ≠ 0 then some (Nat.toDigits 10 o.maxFiles) else none) ∧
    option "ignore_recent".toList (args (words (command o))) =
      .ok (if o.ignoreRecent ≠ 0 then some (Nat.toDigits 10 o.ignoreRecent) else none) := by
  rw [C76_words_partial o hc hs hd, args_expected]
  have m0 : "directory".toList ∈ optionNames := by decide
  have m1 : "logo".toList ∈ optionNames := by decide
  have m2 : "max_files".toList ∈ optionNames := by decide
  have m3 : "ignore_recent".toList ∈ optionNames := by decide
  have key : ∀ x : Str, (∀ n ∈ optionNames, x ≠ n) → x ≠ "directory".toList ∧ x ≠ "logo".toList ∧
      x ≠ "max_files".toList ∧ x ≠ "ignore_recent".toList := fun x h => ⟨h _ m0, h _ m1, h _ m2, h _ m3⟩
  have e01 : "directory".toList ≠ "logo".toList := by decide
  have e02 : "directory".toList ≠ "max_files".toList := by decide
  have e03 : "directory".toList ≠ "ignore_recent".toList := by decide
  have e12 : "logo".toList ≠ "max_files".toList := by decide
  have e13 : "logo".toList ≠ "ignore_recent".toList := by decide
  have e23 : "max_files".toList ≠ "ignore_recent".toList := by decide
  have kd := key o.directory (fun n hn e => h1 (e ▸ hn))
  have kl := key o.logo (fun n hn e => h2 (e ▸ hn))
  have kn := fun n => key (Nat.toDigits 10 n) (fun x hx => digits_ne_name hx n)
  have := read_generic "directory".toList "logo".toList "max_files".toList "ignore_recent".toList o.directory o.logo
    (Nat.toDigits 10 o.maxFiles) (Nat.toDigits 10 o.ignoreRecent) (decide (o.logo ≠ [])) (decide (o.maxFiles ≠ 0))
    (decide (o.ignoreRecent ≠ 0)) e01 e02 e03 e12 e13 e23 kd kl (kn _) (kn _)
  obtain ⟨t0, t1, t2, t3⟩ := this
  rw [t0, t1, t2, t3]
  simp only [decide_eq_true_iff, and_self]

/-! ## What goes wrong -/

theorem normStep_good {acc : List Str} {c : Str} (ha : ∀ w ∈ acc, w ≠ [] ∧ '/' ∉ w) (hc : '/' ∉ c) :
    ∀ w ∈ normStep acc c, w ≠ [] ∧ '/' ∉ w := by
  unfold normStep
  split_ifs with h1 h2
  · exact ha
  · intro w hw
    rcases List.mem_cons.1 hw with rfl | hw
    · exact ⟨fun e => h1 (.inl e), hc⟩
    · exact ha w hw
  · rcases acc with _ | ⟨p, acc⟩
    · intro w hw
      simp at hw
      rw [hw]
      exact ⟨fun e => h1 (.inl e), hc⟩
    · dsimp only
      split_ifs
      · intro w hw
        rcases List.mem_cons.1 hw with rfl | hw
        · exact ⟨fun e => h1 (.inl e), hc⟩
        · exact ha w hw
      · intro w hw
        exact ha w (by simp [hw])

theorem split_no_slash (s : Str) : ∀ w ∈ splitSlash s, '/' ∉ w := by
  induction s with
  | nil => simp [splitSlash]
  | cons c s ih =>
    rw [splitSlash]
    rcases h : splitSlash s with _ | ⟨x, xs⟩
    · exact absurd h (splitSlash_ne s)
    rw [h] at ih
    dsimp only
    split_ifs with hc
    · intro w hw
      rcases List.mem_cons.1 hw with rfl | hw
      · simp
      · exact ih w hw
    · intro w hw
      rcases List.mem_cons.1 hw with rfl | hw
      · intro hm
        rcases List.mem_cons.1 hm with hm | hm
        · exact hc hm.symm
        · exact ih x (by simp) hm
      · exact ih w (by simp [hw])

theorem foldl_norm_good (ws : List Str) (hw : ∀ w ∈ ws, '/' ∉ w) : ∀ acc : List Str,
    (∀ w ∈ acc, w ≠ [] ∧ '/' ∉ w) → ∀ w ∈ ws.foldl normStep acc, w ≠ [] ∧ '/' ∉ w := by
  induction ws with
  | nil => intro acc h; exact h
  | cons c ws ih =>
    intro acc h
    exact ih (fun w h' => hw w (by simp [h'])) _ (normStep_good h (hw c (by simp)))

/-- The components are the components. -/
theorem split_join {ws : List Str} (hn : ws ≠ []) (h : ∀ w ∈ ws, '/' ∉ w) : splitSlash (joinSlash ws) = ws := by
  induction ws with
  | nil => exact absurd rfl hn
  | cons w ws ih =>
    rcases ws with _ | ⟨x, ws⟩
    · exact splitSlash_word (h w (by simp))
    · rw [joinSlash_cons, splitSlash_append, splitSlash_word (h w (by simp)), ih (by simp) (fun v hv => h v (by simp [hv]))]
      rfl

/-- No text leaves `normpath` with two slashes in a row. -/
theorem normpath_slashes (s u v : Str) : normpath s ≠ u ++ '/' :: '/' :: v := by
  intro e
  unfold normpath at e
  dsimp only at e
  have hg := foldl_norm_good (splitSlash s) (split_no_slash s) [] (by simp)
  generalize (splitSlash s).foldl normStep [] = ws at *
  split_ifs at e with hz
  · have := congrArg List.length e
    simp at this
    omega
  · have hn : ws.reverse ≠ [] := by intro h; rw [h] at hz; exact hz rfl
    have hs := split_join hn (fun w hw => (hg w (List.mem_reverse.1 hw)).2)
    rw [e, splitSlash_append, splitSlash_cons_slash] at hs
    exact (hg [] (List.mem_reverse.1 (by rw [← hs]; simp))).1 rfl

theorem wordsFrom_infix (s : Str) : ∀ (cur pre : Str), ∀ w ∈ wordsFrom cur s,
    w <:+: pre ++ cur ++ s := by
  induction s with
  | nil =>
    intro cur pre w hw
    unfold wordsFrom at hw
    split_ifs at hw
    · simp at hw
    · simp at hw
      subst hw
      exact ⟨pre, [], rfl⟩
  | cons c s ih =>
    intro cur pre w hw
    unfold wordsFrom at hw
    split_ifs at hw with h1 h2
    · have := ih [] (pre ++ cur ++ [c]) w (by simpa using hw)
      simpa using this
    · rcases List.mem_append.1 hw with hw | hw
      · simp at hw
        subst hw
        exact ⟨pre, c :: s, rfl⟩
      · have := ih [] (pre ++ cur ++ [c]) w hw
        simpa using this
    · have := ih (cur ++ [c]) pre w hw
      simpa using this

/-- C76: a logo with two slashes in a row, as every `https://` URL, never reaches the report. -/
theorem C76_logo_wrong (o : Serve) (u v : Str) (h : o.logo = u ++ '/' :: '/' :: v) : o.logo ∉ words (command o) := by
  intro hm
  obtain ⟨a, b, e⟩ := wordsFrom_infix (command o) [] [] _ hm
  rw [h] at e
  exact normpath_slashes (rawCommand o) (a ++ u) (v ++ b) (by
    show command o = _
    rw [List.nil_append, List.nil_append] at e
    rw [← e]
    simp)

/-- C76: with the runs in `../../runs`, another program is served and no option is given. -/
theorem C76_parent_wrong :
    words (command { dirname := "/usr/ci".toList, directory := "../../runs".toList }) =
      ["bokeh".toList, "serve".toList, "/usr/ci/runs".toList] := by decide +kernel

/-- C76: a directory called `logo` is taken for an option. -/
theorem C76_name_wrong :
    option "logo".toList (args (words (command { dirname := "/usr/ci".toList, directory := "logo".toList }))) = .exit := by
  decide +kernel

/-- C76: the directory in a name with a space is cut. -/
theorem C76_space_wrong :
    option "directory".toList (args (words (command { dirname := "/usr/ci".toList, directory := "my runs".toList }))) =
      .ok (some "my".toList) := by
  decide +kernel

/-- Options without trouble. -/
def sample : Serve := { dirname := "/usr/ci".toList, directory := "../runs".toList, maxFiles := 20, show_ := true }

theorem sample_clean : Clean sample where
  dirname := by
    have : sample.dirname ++ "/".toList = "/us".toList ++ 'r' :: "/ci/".toList := by decide
    rw [this]
    refine inner_join ⟨by decide, by decide⟩ ?_ ?_
    · exact inner_join (a := "/".toList) (b := "s".toList) (c := 'u') ⟨by decide, by decide⟩ (by
        intro u w v e _
        have := congrArg List.length e
        simp at this
        omega) (inner_of_not_mem (by decide))
    · refine inner_join (a := "/".toList) (b := "i/".toList) (c := 'c') ⟨by decide, by decide⟩ (by
        intro u w v e _
        have := congrArg List.length e
        simp at this
        omega) ?_
      exact inner_join (a := []) (b := "/".toList) (c := 'i') ⟨by decide, by decide⟩ (inner_of_not_mem (by simp)) (by
        intro u w v e _
        have := congrArg List.length e
        simp at this
        omega)
  origin := inner_of_not_mem (by decide)
  directory := by
    exact inner_join (a := "../".toList) (b := "uns".toList) (c := 'r') ⟨by decide, by decide⟩ (by
      intro u w v e _
      have e1 := congrArg (List.count '/') e
      rw [List.count_append, List.count_append, List.count_cons, List.count_cons] at e1
      simp at e1
      omega) (inner_of_not_mem (by decide))
  logo := inner_of_not_mem (by decide)

example : option "directory".toList (args (words (command sample))) = .ok (some "../runs".toList) ∧
    option "max_files".toList (args (words (command sample))) = .ok (some "20".toList) := by
  have h := C76_read_partial sample sample_clean ⟨by decide, by decide, by decide, by decide⟩ (by decide) (by decide) (by decide)
  exact ⟨h.1, h.2.2.1⟩

example : words (command sample) = ["bokeh", "serve", "/usr/ci/vfc_ci_report", "--show",
    "--allow-websocket-origin=*:8080", "--port", "8080", "--args", "directory", "../runs", "max_files", "20"].map
      String.toList := by decide +kernel

end Verif.Ci.Report
